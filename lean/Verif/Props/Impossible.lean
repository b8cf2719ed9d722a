import Verif.Props.BWLearnHMM
import Verif.Props.BWMDP
import Verif.Props.BWCTMC

/-!
C106: what the first model cannot generate stays impossible, and with several processes the traces that it cannot generate are ignored.
-/

set_option linter.unusedSectionVars false
set_option autoImplicit false

namespace Jajapy

open Finset BW Spec

/-! ### The part of a set that a model can generate -/

namespace TSet

variable {O : Type}

/-- The traces of the set that have a positive probability. -/
noncomputable def keep (P : List O → ℝ) (S : TSet O) : TSet O :=
  { S with sequences := ((S.sequences.zip S.times).filter (fun x => P x.1 ≠ 0)).map Prod.fst,
           times := ((S.sequences.zip S.times).filter (fun x => P x.1 ≠ 0)).map Prod.snd }

theorem keep_zip (P : List O → ℝ) (S : TSet O) : (S.keep P).sequences.zip (S.keep P).times = (S.sequences.zip S.times).filter (fun x => P x.1 ≠ 0) := by
  unfold keep
  dsimp only
  rw [List.zip_map', List.map_id'']
  intro x
  rfl

theorem keep_len (P : List O → ℝ) (S : TSet O) : (S.keep P).times.length = (S.keep P).sequences.length := by
  simp [keep]

theorem keep_mem (P : List O → ℝ) (S : TSet O) (w : List O) (h : w ∈ (S.keep P).sequences) : w ∈ S.sequences := by
  simp only [keep, List.mem_map, List.mem_filter] at h
  obtain ⟨x, ⟨hx, _⟩, rfl⟩ := h
  exact (List.of_mem_zip hx).1

theorem keep_times (P : List O → ℝ) (S : TSet O) (t : ℕ) (h : t ∈ (S.keep P).times) : t ∈ S.times := by
  simp only [keep, List.mem_map, List.mem_filter] at h
  obtain ⟨x, ⟨hx, _⟩, rfl⟩ := h
  exact (List.of_mem_zip hx).2

theorem keep_mult [DecidableEq O] (P : List O → ℝ) (S : TSet O) (w : List O) : (S.keep P).mult w = if P w = 0 then 0 else S.mult w := by
  unfold mult
  rw [keep_zip, List.filter_filter]
  by_cases h : P w = 0
  · rw [if_pos h]
    rw [List.filter_eq_nil_iff.2]
    · rfl
    · intro x _ hx
      simp only [ne_eq, decide_not, Bool.and_eq_true, decide_eq_true_eq, Bool.not_eq_true', decide_eq_false_iff_not] at hx
      rw [hx.1] at hx
      exact hx.2 h
  · rw [if_neg h]
    refine congrArg (fun l => (List.map Prod.snd l).sum) (List.filter_congr (fun x _ => ?_))
    by_cases hx : x.1 = w
    · simp [hx, h]
    · simp [hx]

end TSet

namespace BW

/-- Several processes ignore the traces for which a worker returns False. -/
theorem collect_keep {O R : Type} (e : Err) (processes : ℕ) (hp : 1 < processes) (S : TSet O) (P : List O → ℝ) (F : List O × ℕ → Option R)
    (h : ∀ x ∈ S.sequences.zip S.times, P x.1 = 0 → F x = none) :
    collect e processes ((S.sequences.zip S.times).map F) = collect e processes (((S.keep P).sequences.zip (S.keep P).times).map F) := by
  have : ((S.sequences.zip S.times).map F).filterMap id = (((S.sequences.zip S.times).filter (fun x => P x.1 ≠ 0)).map F).filterMap id := by
    rw [List.filterMap_map, List.filterMap_map]
    generalize S.sequences.zip S.times = l at h
    induction l with
    | nil => rfl
    | cons x l ih =>
      have ih := ih (fun y hy => h y (List.mem_cons_of_mem _ hy))
      by_cases hx : P x.1 = 0
      · rw [List.filter_cons_of_neg (by simpa using hx), List.filterMap_cons_none (by simpa using h x List.mem_cons_self hx), ih]
      · rw [List.filter_cons_of_pos (by simpa using hx), List.filterMap_cons, List.filterMap_cons, ih]
  unfold collect
  rw [if_pos hp, if_pos hp, TSet.keep_zip, this]

/-- Two learnings whose iterations agree on the models that are met. -/
theorem fit_congr {H : Type} (step step' : H → Py (H × ℝ)) (epsilon : ℝ) (Inv : H → Prop) (heq : ∀ h, Inv h → step h = step' h)
    (hinv : ∀ h h' l, Inv h → step h = .ok (h', l) → Inv h') (maxIt : ℕ) (h : H) (hi : Inv h) : fit step epsilon maxIt h = fit step' epsilon maxIt h := by
  have key : ∀ fuel (st : LoopState H), Inv st.h → loop step epsilon fuel st = loop step' epsilon fuel st := by
    intro fuel
    induction fuel with
    | zero => intro st _; rfl
    | succ f ih =>
      intro st hst
      have e := heq _ hst
      cases hs : step st.h with
      | error er => rw [loop_error _ _ _ _ _ hs, loop_error _ _ _ _ _ (e ▸ hs)]
      | ok r =>
        rw [loop_succ _ _ _ _ r.1 r.2 hs, loop_succ _ _ _ _ r.1 r.2 (e ▸ hs), ih _ (hinv _ _ _ hst hs)]
  exact key maxIt _ hi

end BW

/-! ### MC -/

namespace MC

variable {L : Type} [DecidableEq L] {n : ℕ}

/-- One iteration gives no probability to a trace that had none. -/
theorem bw_step_support (processes : ℕ) (S : TSet L) (M M' : MC ℝ L n) (ll : ℝ) (hM : M.Stochastic) (h : stepMC processes S M = .ok (M', ll)) (w : List L)
    (hw : M.lik w = 0) : M'.lik w = 0 := by
  cases w with
  | nil => rfl
  | cons o os =>
    have hM' := M.bw_step_keeps_stochastic processes S M' ll hM h
    have hz := M.bw_step_zero processes S M' ll h
    obtain ⟨h1, _, _, _⟩ := stepMC_ok _ _ _ _ _ h
    rw [M.lik_eq hM.2.2.2 _ (by simp)] at hw
    rw [M'.lik_eq hM'.2.2.2 _ (by simp)]
    have hl : M'.labelling = M.labelling := by rw [h1]; rfl
    have hi : M'.initialState = M.initialState := by rw [h1]; rfl
    refine totalWeight_zero M.step _ M.initialState _ _ (M.step_nonneg hM.2.2.1) hM.1 (fun _ => zero_le_one) ?_ (fun s hs => by rw [hi]; exact hs) _ hw
    intro s ss o h0
    unfold step at h0 ⊢
    rw [hl]
    rcases mul_eq_zero.mp h0 with h | h
    · rw [h, zero_mul]
    · rw [hz s ss h, mul_zero]

/-- C106, MC: a trace that the first chain cannot generate is never generated by the learnt chain. -/
theorem fit_support (processes : ℕ) (S : TSet L) (epsilon : ℝ) (maxIt : ℕ) (M : MC ℝ L n) (hM : M.Stochastic) (st : LoopState (MC ℝ L n))
    (h : fit (stepMC processes S) epsilon maxIt M = .ok st) (w : List L) (hw : M.lik w = 0) : st.h.lik w = 0 := by
  have := loop_invariant _ _ (fun M' => M'.Stochastic ∧ M'.lik w = 0) ?_ _ _ _ ⟨hM, hw⟩ h
  · exact this.2
  · rintro M1 M2 ll ⟨i1, i2⟩ hs
    exact ⟨M1.bw_step_keeps_stochastic _ _ _ _ i1 hs, M1.bw_step_support _ _ _ _ i1 hs w i2⟩

/-- The traces of the set: possible before if and only if possible after. -/
theorem fit_possible (processes : ℕ) (S : TSet L) (epsilon : ℝ) (maxIt : ℕ) (M : MC ℝ L n) (hM : M.Stochastic) (hne : ∀ w ∈ S.sequences, w ≠ [])
    (hlen : S.times.length = S.sequences.length) (ht : ∀ t ∈ S.times, 1 ≤ t) (st : LoopState (MC ℝ L n))
    (h : fit (stepMC processes S) epsilon maxIt M = .ok st) (w : List L) (hw : w ∈ S.sequences) : M.lik w ≠ 0 ↔ st.h.lik w ≠ 0 := by
  have := loop_invariant _ _ (fun M' => M'.Stochastic ∧ (M.lik w ≠ 0 ↔ M'.lik w ≠ 0)) ?_ _ _ _ ⟨hM, Iff.rfl⟩ h
  · exact this.2
  · rintro M1 M2 ll ⟨i1, i2⟩ hs
    exact ⟨M1.bw_step_keeps_stochastic _ _ _ _ i1 hs, i2.trans ((M1.bw_step_monotone _ _ _ _ i1 hne hlen ht hs).2.1 w hw)⟩

theorem step_keep (processes : ℕ) (hp : 1 < processes) (S : TSet L) (M : MC ℝ L n) (hM : M.Stochastic) (hne : ∀ w ∈ S.sequences, w ≠ []) :
    stepMC processes S M = stepMC processes (S.keep M.lik) M := by
  unfold stepMC workMC
  rw [collect_keep _ processes hp S M.lik]
  intro x hx h0
  rw [processWorkMC_eq, if_pos]
  rw [← M.lik_eq hM.2.2.2 _ (hne _ (List.of_mem_zip hx).1)]
  exact h0

/-- C106, MC: with several processes only the traces that the first chain can generate matter. -/
theorem fit_ignores (processes : ℕ) (hp : 1 < processes) (S T : TSet L) (epsilon : ℝ) (maxIt : ℕ) (M : MC ℝ L n) (hM : M.Stochastic)
    (hneS : ∀ w ∈ S.sequences, w ≠ []) (hneT : ∀ w ∈ T.sequences, w ≠ []) (htS : ∀ t ∈ S.times, 1 ≤ t) (htT : ∀ t ∈ T.times, 1 ≤ t)
    (h : ∀ w, M.lik w ≠ 0 → S.mult w = T.mult w) : fit (stepMC processes S) epsilon maxIt M = fit (stepMC processes T) epsilon maxIt M := by
  refine fit_congr _ _ _ (fun M' => M'.Stochastic ∧ ∀ w, M.lik w = 0 → M'.lik w = 0) ?_ ?_ maxIt M ⟨hM, fun _ h => h⟩
  · rintro M' ⟨i1, i2⟩
    rw [M'.step_keep processes hp S i1 hneS, M'.step_keep processes hp T i1 hneT]
    refine M'.bw_step_mult processes _ _ i1.2.2.2 (fun w hw => hneS w (S.keep_mem _ w hw)) (fun w hw => hneT w (T.keep_mem _ w hw))
      (S.keep_len _) (T.keep_len _) (fun t ht => htS t (S.keep_times _ t ht)) (fun t ht => htT t (T.keep_times _ t ht)) (fun w => ?_)
    rw [TSet.keep_mult, TSet.keep_mult]
    split_ifs with h0
    · rfl
    · exact h w (fun hz => h0 (i2 w hz))
  · rintro M1 M2 ll ⟨i1, i2⟩ hs
    exact ⟨M1.bw_step_keeps_stochastic _ _ _ _ i1 hs, fun w hw => M1.bw_step_support _ _ _ _ i1 hs w (i2 w hw)⟩

end MC

/-! ### HMM -/

namespace HMM

variable {O : Type} [DecidableEq O] {n : ℕ}

theorem bw_step_support (processes : ℕ) (S : TSet O) (M M' : HMM ℝ O n) (ll : ℝ) (hnd : M.alphabet.Nodup) (hM : M.Stochastic) (ht : ∀ t ∈ S.times, 1 ≤ t)
    (h : stepHMM processes S M = .ok (M', ll)) (w : List O) (hw : M.lik w = 0) : M'.lik w = 0 := by
  cases w with
  | nil => rfl
  | cons o os =>
    have hM' := M.bw_step_stochastic processes S M' ll hnd hM ht h
    obtain ⟨_, hz1, hz2, hz3⟩ := M.bw_step_zero processes S M' ll hnd h
    rw [M.lik_eq hM.2.2.2.1 _ (by simp)] at hw
    rw [M'.lik_eq hM'.2.2.2.1 _ (by simp)]
    refine totalWeight_zero M.step _ M.initialState _ _ (M.step_nonneg hM.2.2.1 hM.2.2.2.2.1) hM.1 (fun _ => zero_le_one) ?_ hz3 _ hw
    intro s ss o hso
    unfold HMM.step at hso ⊢
    rcases mul_eq_zero.mp hso with h | h
    · rw [hz2 s o h, zero_mul]
    · rw [hz1 s ss h, mul_zero]

/-- C106, HMM: a trace that the first model cannot generate is never generated by the learnt model. -/
theorem fit_support (processes : ℕ) (S : TSet O) (epsilon : ℝ) (maxIt : ℕ) (M : HMM ℝ O n) (hnd : M.alphabet.Nodup) (hM : M.Stochastic)
    (ht : ∀ t ∈ S.times, 1 ≤ t) (st : LoopState (HMM ℝ O n)) (h : fit (stepHMM processes S) epsilon maxIt M = .ok st) (w : List O) (hw : M.lik w = 0) :
    st.h.lik w = 0 := by
  have := loop_invariant _ _ (fun M' => M'.alphabet.Nodup ∧ M'.Stochastic ∧ M'.lik w = 0) ?_ _ _ _ ⟨hnd, hM, hw⟩ h
  · exact this.2.2
  · rintro M1 M2 ll ⟨i0, i1, i2⟩ hs
    exact ⟨by rw [HMM.bw_step_alphabet _ _ _ _ _ hs]; exact i0, M1.bw_step_stochastic _ _ _ _ i0 i1 ht hs, M1.bw_step_support _ _ _ _ i0 i1 ht hs w i2⟩

theorem fit_possible (processes : ℕ) (S : TSet O) (epsilon : ℝ) (maxIt : ℕ) (M : HMM ℝ O n) (hnd : M.alphabet.Nodup) (hM : M.Stochastic)
    (hne : ∀ w ∈ S.sequences, w ≠ []) (hlen : S.times.length = S.sequences.length) (ht : ∀ t ∈ S.times, 1 ≤ t) (st : LoopState (HMM ℝ O n))
    (h : fit (stepHMM processes S) epsilon maxIt M = .ok st) (w : List O) (hw : w ∈ S.sequences) : M.lik w ≠ 0 ↔ st.h.lik w ≠ 0 := by
  have := loop_invariant _ _ (fun M' => M'.alphabet.Nodup ∧ M'.Stochastic ∧ (M.lik w ≠ 0 ↔ M'.lik w ≠ 0)) ?_ _ _ _ ⟨hnd, hM, Iff.rfl⟩ h
  · exact this.2.2
  · rintro M1 M2 ll ⟨i0, i1, i2⟩ hs
    exact ⟨by rw [HMM.bw_step_alphabet _ _ _ _ _ hs]; exact i0, M1.bw_step_stochastic _ _ _ _ i0 i1 ht hs,
      i2.trans ((M1.bw_step_monotone _ _ _ _ i0 i1 hne hlen ht hs).2.1 w hw)⟩

theorem step_keep (processes : ℕ) (hp : 1 < processes) (S : TSet O) (M : HMM ℝ O n) (hnd : M.alphabet.Nodup) (hM : M.Stochastic)
    (hne : ∀ w ∈ S.sequences, w ≠ []) : stepHMM processes S M = stepHMM processes (S.keep M.lik) M := by
  unfold stepHMM workHMM
  rw [collect_keep _ processes hp S M.lik]
  intro x hx h0
  rw [processWorkHMM_eq M hnd, if_pos]
  rw [← M.lik_eq hM.2.2.2.1 _ (hne _ (List.of_mem_zip hx).1)]
  exact h0

/-- C106, HMM: with several processes only the traces that the first model can generate matter. -/
theorem fit_ignores (processes : ℕ) (hp : 1 < processes) (S T : TSet O) (epsilon : ℝ) (maxIt : ℕ) (M : HMM ℝ O n) (hnd : M.alphabet.Nodup) (hM : M.Stochastic)
    (hneS : ∀ w ∈ S.sequences, w ≠ []) (hneT : ∀ w ∈ T.sequences, w ≠ []) (htS : ∀ t ∈ S.times, 1 ≤ t) (htT : ∀ t ∈ T.times, 1 ≤ t)
    (h : ∀ w, M.lik w ≠ 0 → S.mult w = T.mult w) : fit (stepHMM processes S) epsilon maxIt M = fit (stepHMM processes T) epsilon maxIt M := by
  refine fit_congr _ _ _ (fun M' => M'.alphabet.Nodup ∧ M'.Stochastic ∧ ∀ w, M.lik w = 0 → M'.lik w = 0) ?_ ?_ maxIt M ⟨hnd, hM, fun _ h => h⟩
  · rintro M' ⟨i0, i1, i2⟩
    rw [M'.step_keep processes hp S i0 i1 hneS, M'.step_keep processes hp T i0 i1 hneT]
    refine M'.bw_step_mult processes _ _ i0 i1.2.2.2.1 (fun w hw => hneS w (S.keep_mem _ w hw)) (fun w hw => hneT w (T.keep_mem _ w hw))
      (S.keep_len _) (T.keep_len _) (fun t ht => htS t (S.keep_times _ t ht)) (fun t ht => htT t (T.keep_times _ t ht)) (fun w => ?_)
    rw [TSet.keep_mult, TSet.keep_mult]
    split_ifs with h0
    · rfl
    · exact h w (fun hz => h0 (i2 w hz))
  · rintro M1 M2 ll ⟨i0, i1, i2⟩ hs
    exact ⟨by rw [HMM.bw_step_alphabet _ _ _ _ _ hs]; exact i0, M1.bw_step_stochastic _ _ _ _ i0 i1 htS hs,
      fun w hw => M1.bw_step_support _ _ _ _ i0 i1 htS hs w (i2 w hw)⟩

end HMM

/-! ### MDP -/

namespace MDP

variable {L : Type} [DecidableEq L] {n : ℕ}

theorem bw_step_support (processes : ℕ) (S : TSet L) (M M' : MDP ℝ L n) (ll : ℝ) (hn : M.actions.Nodup) (hM : M.Stochastic)
    (ho : ∀ w ∈ S.sequences, w.length % 2 = 1) (h : stepMDP processes S M = .ok (M', ll)) (w : List L) (hw : M.lik w = 0) : M'.lik w = 0 := by
  by_cases hodd : w.length % 2 = 1
  · have hz := M.bw_step_zero processes S M' ll hn ho h
    obtain ⟨h1, _, h3, _⟩ := stepMDP_ok _ _ _ _ _ hn (fun w hw => ne_nil_of_odd (ho w hw)) h
    subst h1
    rw [← weightMDP_lik _ w hodd] at hw ⊢
    have hne := ne_nil_of_odd hodd
    rw [weightMDP_eq _ w hne] at hw ⊢
    refine totalWeight_zero M.step _ M.initialState _ _ (M.step_nonneg hM.2.2.1) hM.1 (maskMDP_nonneg M w) ?_ (fun s hs => hs) _ hw
    intro s ss o hso
    unfold step at hso ⊢
    rcases mul_eq_zero.mp hso with h | h
    · have hlab : (newMDP M S).labelling = M.labelling := rfl
      rw [hlab, h, zero_mul]
    · rw [hz s o.2 ss h, mul_zero]
  · unfold lik
    rw [dif_neg hodd]

/-- C106, MDP: a trace that the first model cannot generate is never generated by the learnt model. -/
theorem fit_support (processes : ℕ) (S : TSet L) (epsilon : ℝ) (maxIt : ℕ) (M : MDP ℝ L n) (hn : M.actions.Nodup) (hM : M.Stochastic)
    (ho : ∀ w ∈ S.sequences, w.length % 2 = 1) (st : LoopState (MDP ℝ L n)) (h : fit (stepMDP processes S) epsilon maxIt M = .ok st) (w : List L)
    (hw : M.lik w = 0) : st.h.lik w = 0 := by
  have h0 : M.actions.Nodup ∧ M.Stochastic ∧ M.lik w = 0 := ⟨hn, hM, hw⟩
  have := loop_invariant _ _ (fun M' : MDP ℝ L n => M'.actions.Nodup ∧ M'.Stochastic ∧ M'.lik w = 0) ?_ _ _ _ h0 h
  · exact this.2.2
  · rintro M1 M2 ll ⟨i0, i1, i2⟩ hs
    exact ⟨by rw [(M1.bw_step_keeps _ _ _ _ hs).1]; exact i0, (M1.bw_step_stochastic _ _ _ _ i0 i1 ho hs).1, M1.bw_step_support _ _ _ _ i0 i1 ho hs w i2⟩

theorem fit_possible (processes : ℕ) (S : TSet L) (epsilon : ℝ) (maxIt : ℕ) (M : MDP ℝ L n) (hn : M.actions.Nodup) (hM : M.Stochastic)
    (ho : ∀ w ∈ S.sequences, w.length % 2 = 1) (hlen : S.times.length = S.sequences.length) (ht : ∀ t ∈ S.times, 1 ≤ t) (st : LoopState (MDP ℝ L n))
    (h : fit (stepMDP processes S) epsilon maxIt M = .ok st) (w : List L) (hw : w ∈ S.sequences) : M.lik w ≠ 0 ↔ st.h.lik w ≠ 0 := by
  have h0 : M.actions.Nodup ∧ M.Stochastic ∧ (M.lik w ≠ 0 ↔ M.lik w ≠ 0) := ⟨hn, hM, Iff.rfl⟩
  have := loop_invariant _ _ (fun M' : MDP ℝ L n => M'.actions.Nodup ∧ M'.Stochastic ∧ (M.lik w ≠ 0 ↔ M'.lik w ≠ 0)) ?_ _ _ _ h0 h
  · exact this.2.2
  · rintro M1 M2 ll ⟨i0, i1, i2⟩ hs
    exact ⟨by rw [(M1.bw_step_keeps _ _ _ _ hs).1]; exact i0, (M1.bw_step_stochastic _ _ _ _ i0 i1 ho hs).1,
      i2.trans ((M1.bw_step_monotone _ _ _ _ i0 i1 ho hlen ht hs).2.1 w hw)⟩

theorem step_keep (processes : ℕ) (hp : 1 < processes) (S : TSet L) (M : MDP ℝ L n) (hn : M.actions.Nodup) (ho : ∀ w ∈ S.sequences, w.length % 2 = 1) :
    stepMDP processes S M = stepMDP processes (S.keep M.lik) M := by
  unfold stepMDP
  rw [workMDP_eq _ _ _ hn (fun w hw => ne_nil_of_odd (ho w hw)), workMDP_eq _ _ _ hn (fun w hw => ne_nil_of_odd (ho w (S.keep_mem _ w hw))),
    collect_keep _ processes hp S M.lik]
  intro x hx h0
  rw [if_pos]
  rw [weightMDP_lik _ _ (ho _ (List.of_mem_zip hx).1)]
  exact h0

/-- C106, MDP: with several processes only the traces that the first model can generate matter. -/
theorem fit_ignores (processes : ℕ) (hp : 1 < processes) (S T : TSet L) (epsilon : ℝ) (maxIt : ℕ) (M : MDP ℝ L n) (hn : M.actions.Nodup) (hM : M.Stochastic)
    (hoS : ∀ w ∈ S.sequences, w.length % 2 = 1) (hoT : ∀ w ∈ T.sequences, w.length % 2 = 1) (htS : ∀ t ∈ S.times, 1 ≤ t) (htT : ∀ t ∈ T.times, 1 ≤ t)
    (h : ∀ w, M.lik w ≠ 0 → S.mult w = T.mult w) : fit (stepMDP processes S) epsilon maxIt M = fit (stepMDP processes T) epsilon maxIt M := by
  refine fit_congr _ _ _ (fun M' : MDP ℝ L n => M'.actions.Nodup ∧ M'.Stochastic ∧ ∀ w, M.lik w = 0 → M'.lik w = 0) ?_ ?_ maxIt M ⟨hn, hM, fun _ h => h⟩
  · rintro M' ⟨i0, i1, i2⟩
    rw [M'.step_keep processes hp S i0 hoS, M'.step_keep processes hp T i0 hoT]
    refine M'.bw_step_mult processes _ _ i0 (fun w hw => hoS w (S.keep_mem _ w hw)) (fun w hw => hoT w (T.keep_mem _ w hw))
      (S.keep_len _) (T.keep_len _) (fun t ht => htS t (S.keep_times _ t ht)) (fun t ht => htT t (T.keep_times _ t ht)) (fun w => ?_)
    rw [TSet.keep_mult, TSet.keep_mult]
    split_ifs with h0
    · rfl
    · exact h w (fun hz => h0 (i2 w hz))
  · rintro M1 M2 ll ⟨i0, i1, i2⟩ hs
    exact ⟨by rw [(M1.bw_step_keeps _ _ _ _ hs).1]; exact i0, (M1.bw_step_stochastic _ _ _ _ i0 i1 hoS hs).1,
      fun w hw => M1.bw_step_support _ _ _ _ i0 i1 hoS hs w (i2 w hw)⟩

end MDP

/-! ### CTMC with timed traces -/

namespace CTMC

variable {L : Type} [DecidableEq L] {n : ℕ}

theorem bw_step_support (processes : ℕ) (fixed : Fin n → Fin n → Bool) (S : TSet (Sym L)) (M M' : CTMC ℝ L n) (ll : ℝ) (hM : M.Valid) (hS : TimedSet S)
    (h : stepTimed processes fixed S M = .ok (M', ll)) (w : List (Sym L)) (hw : M.density w = 0) : M'.density w = 0 := by
  have hz := M.bw_step_zero processes fixed S M' ll hS h
  obtain ⟨h1, _, h3⟩ := stepTimed_ok _ _ _ _ _ _ hS h
  subst h1
  unfold density at hw ⊢
  refine totalWeight_zero M.rateStep _ M.initialState _ _ (M.rateStep_nonneg hM.2) hM.1 (M.lastMask_nonneg w) ?_ (fun s hs => hs) _ hw
  intro s ss o hso
  unfold rateStep at hso ⊢
  have hlab : (newCT M fixed S).labelling = M.labelling := rfl
  rw [hlab]
  split_ifs at hso ⊢
  · rcases mul_eq_zero.mp hso with h | h
    · rw [hz s ss h, zero_mul]
    · exact absurd h (Real.exp_pos _).ne'
  · rfl

/-- C106, CTMC: a timed trace of density 0 keeps density 0. -/
theorem fit_support (processes : ℕ) (fixed : Fin n → Fin n → Bool) (S : TSet (Sym L)) (epsilon : ℝ) (maxIt : ℕ) (M : CTMC ℝ L n) (hM : M.Valid)
    (hS : TimedSet S) (hw : WaitsNonneg S) (st : LoopState (CTMC ℝ L n)) (h : fit (stepTimed processes fixed S) epsilon maxIt M = .ok st) (w : List (Sym L))
    (h0 : M.density w = 0) : st.h.density w = 0 := by
  have i : M.Valid ∧ M.density w = 0 := ⟨hM, h0⟩
  have := loop_invariant _ _ (fun M' : CTMC ℝ L n => M'.Valid ∧ M'.density w = 0) ?_ _ _ _ i h
  · exact this.2
  · rintro M1 M2 ll ⟨i1, i2⟩ hs
    exact ⟨M1.bw_step_valid _ _ _ _ _ i1 hS hw hs, M1.bw_step_support _ _ _ _ _ i1 hS hs w i2⟩

theorem fit_possible (processes : ℕ) (fixed : Fin n → Fin n → Bool) (S : TSet (Sym L)) (epsilon : ℝ) (maxIt : ℕ) (M : CTMC ℝ L n) (hM : M.Valid)
    (hS : TimedSet S) (hw : WaitsNonneg S) (hlen : S.times.length = S.sequences.length) (ht : ∀ t ∈ S.times, 1 ≤ t) (st : LoopState (CTMC ℝ L n))
    (h : fit (stepTimed processes fixed S) epsilon maxIt M = .ok st) (w : List (Sym L)) (hm : w ∈ S.sequences) : M.density w ≠ 0 ↔ st.h.density w ≠ 0 := by
  have i : M.Valid ∧ (M.density w ≠ 0 ↔ M.density w ≠ 0) := ⟨hM, Iff.rfl⟩
  have := loop_invariant _ _ (fun M' : CTMC ℝ L n => M'.Valid ∧ (M.density w ≠ 0 ↔ M'.density w ≠ 0)) ?_ _ _ _ i h
  · exact this.2
  · rintro M1 M2 ll ⟨i1, i2⟩ hs
    exact ⟨M1.bw_step_valid _ _ _ _ _ i1 hS hw hs, i2.trans ((M1.bw_step_monotone _ _ _ _ _ i1 hS hw hlen ht hs).2.1 w hm)⟩

theorem step_keep (processes : ℕ) (hp : 1 < processes) (fixed : Fin n → Fin n → Bool) (S : TSet (Sym L)) (M : CTMC ℝ L n) (hS : TimedSet S) :
    stepTimed processes fixed S M = stepTimed processes fixed (S.keep M.density) M := by
  rw [stepTimed_eq _ _ _ _ hS, stepTimed_eq _ _ _ _ (fun w hw => hS w (S.keep_mem _ w hw))]
  unfold stepOf
  simp only [bind, Except.bind]
  rw [collect_keep _ processes hp S M.density]
  intro x _ h0
  rw [if_pos h0]

/-- C106, CTMC: with several processes only the timed traces that the first model can generate matter. -/
theorem fit_ignores (processes : ℕ) (hp : 1 < processes) (fixed : Fin n → Fin n → Bool) (S T : TSet (Sym L)) (epsilon : ℝ) (maxIt : ℕ) (M : CTMC ℝ L n)
    (hM : M.Valid) (hS : TimedSet S) (hT : TimedSet T) (hwS : WaitsNonneg S) (htS : ∀ t ∈ S.times, 1 ≤ t) (htT : ∀ t ∈ T.times, 1 ≤ t)
    (h : ∀ w, M.density w ≠ 0 → S.mult w = T.mult w) :
    fit (stepTimed processes fixed S) epsilon maxIt M = fit (stepTimed processes fixed T) epsilon maxIt M := by
  refine fit_congr _ _ _ (fun M' : CTMC ℝ L n => M'.Valid ∧ ∀ w, M.density w = 0 → M'.density w = 0) ?_ ?_ maxIt M ⟨hM, fun _ h => h⟩
  · rintro M' ⟨i1, i2⟩
    rw [M'.step_keep processes hp fixed S hS, M'.step_keep processes hp fixed T hT]
    refine M'.bw_step_mult processes fixed _ _ (fun w hw => hS w (S.keep_mem _ w hw)) (fun w hw => hT w (T.keep_mem _ w hw))
      (S.keep_len _) (T.keep_len _) (fun t ht => htS t (S.keep_times _ t ht)) (fun t ht => htT t (T.keep_times _ t ht)) (fun w => ?_)
    rw [TSet.keep_mult, TSet.keep_mult]
    split_ifs with h0
    · rfl
    · exact h w (fun hz => h0 (i2 w hz))
  · rintro M1 M2 ll ⟨i1, i2⟩ hs
    exact ⟨M1.bw_step_valid _ _ _ _ _ i1 hS hwS hs, fun w hw => M1.bw_step_support _ _ _ _ _ i1 hS hs w (i2 w hw)⟩

end CTMC

/-! ### Examples -/

/-- Adding one impossible trace, for any model: the condition of the theorems. -/
theorem TSet.mult_add {O : Type} [DecidableEq O] (P : List O → ℝ) (T : TSet O) (hl : T.times.length = T.sequences.length) (z : List O) (k : ℕ) (hz : P z = 0) (w : List O)
    (h : P w ≠ 0) : ({ T with sequences := T.sequences ++ [z], times := T.times ++ [k] } : TSet O).mult w = T.mult w := by
  unfold TSet.mult
  dsimp only
  rw [List.zip_append hl.symm, List.filter_append, List.map_append, List.sum_append]
  have : z ≠ w := fun e => h (e ▸ hz)
  simp [this]

/-- `exSet` contains a trace that `exMC` cannot generate; learning with two processes is learning without it, and succeeds. -/
example (epsilon : ℝ) (maxIt : ℕ) : (exMC ℝ).lik [2, 1] = 0 ∧ [2, 1] ∈ exSet.sequences ∧
    fit (stepMC 2 exSet) epsilon maxIt (exMC ℝ) = fit (stepMC 2 exSetPoss) epsilon maxIt (exMC ℝ) ∧ ∃ st, fit (stepMC 2 exSet) epsilon maxIt (exMC ℝ) = .ok st :=
  ⟨exMC_lik.2.2, by decide, (exMC ℝ).fit_ignores 2 (by norm_num) exSet exSetPoss epsilon maxIt exMC_stochastic (by decide) (by decide) (by decide) (by decide)
    (fun w hw => TSet.mult_add (exMC ℝ).lik exSetPoss rfl [2, 1] 3 exMC_lik.2.2 w hw),
    (exMC ℝ).fit_total 2 (by norm_num) exSet epsilon maxIt exMC_stochastic (by decide) (by decide) (by decide) [2, 0, 1] (by decide)
      (by rw [exMC_lik.1]; norm_num)⟩

theorem exHMM_impossible : (exHMM ℝ).lik [9] = 0 := by
  have he : ∀ s, (exHMM ℝ).emit s 9 = 0 := by
    intro s
    unfold HMM.emit
    refine Finset.sum_eq_zero fun i _ => ?_
    fin_cases i <;> simp [exHMM]
  rw [(exHMM ℝ).lik_eq exHMM_stochastic.2.2.2.1 _ (by simp), totalWeight_eq]
  simp [beta0, betas, bwd, HMM.step, he]

/-- The same for an HMM and a label that it does not have. -/
example (epsilon : ℝ) (maxIt : ℕ) : fit (stepHMM 2 { exSetHMM with sequences := exSetHMM.sequences ++ [[9]], times := exSetHMM.times ++ [5] }) epsilon maxIt (exHMM ℝ) =
    fit (stepHMM 2 exSetHMM) epsilon maxIt (exHMM ℝ) :=
  (exHMM ℝ).fit_ignores 2 (by norm_num) _ exSetHMM epsilon maxIt (by decide) exHMM_stochastic (by decide) (by decide) (by decide) (by decide)
    (fun w hw => TSet.mult_add (exHMM ℝ).lik exSetHMM rfl [9] 5 exHMM_impossible w hw)

theorem exMDP_impossible : (exMDP ℝ).lik [1] = 0 := by
  rw [← weightMDP_lik _ _ (by decide), weightMDP_eq _ _ (by simp)]
  rw [totalWeight_eq]
  simp [beta0, betas, pairs, maskMDP, MDP.mask, exMDP, Fin.sum_univ_three]

example (epsilon : ℝ) (maxIt : ℕ) : fit (stepMDP 2 { MDP.exSetMDP with sequences := MDP.exSetMDP.sequences ++ [[1]], times := MDP.exSetMDP.times ++ [5] }) epsilon maxIt (exMDP ℝ) =
    fit (stepMDP 2 MDP.exSetMDP) epsilon maxIt (exMDP ℝ) :=
  (exMDP ℝ).fit_ignores 2 (by norm_num) _ MDP.exSetMDP epsilon maxIt MDP.exMDP_stochastic_real.2 MDP.exMDP_stochastic_real.1 (by decide) (by decide) (by decide) (by decide)
    (fun w hw => TSet.mult_add (exMDP ℝ).lik MDP.exSetMDP rfl [1] 5 exMDP_impossible w hw)

theorem exCTMC_impossible : (exCTMC ℝ).density (timed [(1, 1)] 1) = 0 := by
  unfold CTMC.density
  rw [totalWeight_eq]
  simp [beta0, betas, bwd, CTMC.rateStep, exCTMC, Fin.sum_univ_three, timedSteps_timed]

/-- The second trace of `exSetT` is impossible. -/
example (epsilon : ℝ) (maxIt : ℕ) : fit (stepTimed 2 CTMC.exFixed CTMC.exSetT) epsilon maxIt (exCTMC ℝ) =
    fit (stepTimed 2 CTMC.exFixed ⟨[CTMC.exTimed], [2], false, some 4⟩) epsilon maxIt (exCTMC ℝ) :=
  (exCTMC ℝ).fit_ignores 2 (by norm_num) CTMC.exFixed CTMC.exSetT ⟨[CTMC.exTimed], [2], false, some 4⟩ epsilon maxIt CTMC.exCTMC_valid.1 CTMC.exSetT_ok.1
    (fun w hw => CTMC.exSetT_ok.1 w (by simp at hw; simp [CTMC.exSetT, hw])) CTMC.exSetT_ok.2.1 CTMC.exSetT_ok.2.2.2 (by simp)
    (fun w hw => TSet.mult_add (exCTMC ℝ).density ⟨[CTMC.exTimed], [2], false, some 4⟩ rfl (timed [(1, 1)] 1) 1 exCTMC_impossible w hw)

end Jajapy
