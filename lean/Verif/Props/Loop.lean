import Verif.Props.BWLearn
import Verif.Props.BWLearnHMM

/-!
Property C41: the learning loop stops when it should.
-/

set_option linter.unusedSectionVars false

namespace Jajapy

open Finset Spec BW

section generic
variable {H : Type}

/-- C41: `fit` performs a chain of `k ≤ max_it` iterations (at least one if `max_it ≥ 1`) starting from the initial
hypothesis and returns the last hypothesis; each iteration but the last improved the monitored value by at least
`epsilon` over the previous one; and it stopped because the budget is exhausted or because the last improvement is smaller
than `epsilon`. `ls i` is the value computed by iteration `i`, and `counter` and `ll` are the reported data. -/
theorem fit_iterations (step : H → Py (H × ℝ)) (epsilon : ℝ) (maxIt : ℕ) (h : H) (st : LoopState H)
    (hf : fit step epsilon maxIt h = .ok st) :
    ∃ (k : ℕ) (hs : ℕ → H) (ls : ℕ → ℝ), hs 0 = h ∧ (∀ i < k, step (hs i) = .ok (hs (i+1), ls i)) ∧ st.h = hs k ∧
      st.counter = k ∧ (∀ i, k = i + 1 → st.ll = some (ls i)) ∧ k ≤ maxIt ∧ (1 ≤ maxIt → 1 ≤ k) ∧
      (∀ i, i + 2 < k → epsilon ≤ ls (i+1) - ls i) ∧
      (k = maxIt ∨ ∃ i, k = i + 2 ∧ ls (i+1) - ls i < epsilon) := by
  obtain ⟨k, hs, ls, a1, a2, a3, a4, a5, a6, a7, a8⟩ := loop_spec _ _ _ _ _ hf
  refine ⟨k, hs, ls, a1, a2, a3, by simpa using a4, ?_, a6, ?_, ?_, ?_⟩
  · rintro i rfl; exact a5
  · intro hm
    rcases a8 with a8 | ⟨j, prev, rfl, _, _⟩ <;> omega
  · intro i hi
    exact a7 (i+1) (by omega) _ rfl
  · rcases a8 with a8 | ⟨j, prev, b1, b2, b3⟩
    · exact Or.inl a8
    · right
      cases j with
      | zero => simp [prevOf] at b2
      | succ j =>
        simp only [prevOf, Option.some.injEq] at b2
        exact ⟨j, by omega, by rw [b2]; exact b3⟩

/-- With no budget `fit` returns the initial hypothesis, and asking for the data raises UnboundLocalError. -/
theorem fit_no_iteration (step : H → Py (H × ℝ)) (epsilon : ℝ) (h : H) :
    fit step epsilon 0 h = .ok { h := h, counter := 0, ll := none } ∧
    fitData step epsilon 0 h = .error .unboundLocalError := ⟨rfl, rfl⟩

/-- If the monitored values are bounded by `B`, the number of iterations is at most `(B - ls 0)/epsilon + 2`, where
`ls 0` is the value of the first iteration. -/
theorem fit_bound (step : H → Py (H × ℝ)) (epsilon : ℝ) (he : 0 < epsilon) (maxIt : ℕ) (h : H) (Inv : H → Prop) (B : ℝ)
    (h0 : Inv h) (hinv : ∀ h h' ll, Inv h → step h = .ok (h', ll) → Inv h' ∧ ll ≤ B)
    (st : LoopState H) (hf : fit step epsilon maxIt h = .ok st) (h1 : H) (l0 : ℝ) (hs0 : step h = .ok (h1, l0)) :
    (st.counter : ℝ) ≤ (B - l0) / epsilon + 2 := by
  obtain ⟨k, hs, ls, a1, a2, a3, a4, _, a6, _, a7, _⟩ := fit_iterations _ _ _ _ _ hf
  have hI : ∀ i ≤ k, Inv (hs i) := by
    intro i
    induction i with
    | zero => intro _; rw [a1]; exact h0
    | succ i ih => intro hi; exact (hinv _ _ _ (ih (by omega)) (a2 i (by omega))).1
  have hB : ∀ i < k, ls i ≤ B := fun i hi => (hinv _ _ _ (hI i hi.le) (a2 i hi)).2
  rw [a4]
  have hpos : ∀ x : ℝ, x ≤ B - l0 → x / epsilon ≤ (B - l0) / epsilon := fun x hx =>
    div_le_div_of_nonneg_right hx he.le
  have hl0 : l0 ≤ B := (hinv _ _ _ h0 hs0).2
  have hnn : 0 ≤ (B - l0) / epsilon := div_nonneg (by linarith) he.le
  by_cases hk : k ≤ 2
  · have : (k : ℝ) ≤ 2 := by exact_mod_cast hk
    linarith
  · push Not at hk
    have hls0 : ls 0 = l0 := by
      have := a2 0 (by omega)
      rw [a1, hs0] at this
      injection this with this
      injection this with _ this
      exact this.symm
    have hsum : ∀ i, i + 1 < k → ls 0 + i * epsilon ≤ ls i := by
      intro i
      induction i with
      | zero => intro _; simp
      | succ i ih =>
        intro hi
        have := a7 i (by omega)
        have := ih (by omega)
        push_cast
        linarith
    have h2 := hsum (k - 2) (by omega)
    have h3 := hB (k - 2) (by omega)
    have hc : ((k - 2 : ℕ) : ℝ) = k - 2 := by rw [Nat.cast_sub (by omega)]; norm_num
    rw [hc] at h2
    have h4 : ((k:ℝ) - 2) * epsilon ≤ B - l0 := by linarith
    have h5 : (k:ℝ) - 2 ≤ (B - l0) / epsilon := by rw [le_div_iff₀ he]; exact h4
    linarith

/-- A run that stopped before exhausting its budget is the run for every larger budget, in particular for an infinite
one. -/
theorem fit_stopped (step : H → Py (H × ℝ)) (epsilon : ℝ) (maxIt : ℕ) (h : H) (st : LoopState H)
    (hf : fit step epsilon maxIt h = .ok st) (hlt : st.counter < maxIt) (maxIt' : ℕ) (hm : maxIt ≤ maxIt') :
    fit step epsilon maxIt' h = .ok st :=
  loop_more _ _ _ _ _ hf (by simpa using hlt) _ hm

/-- Both ways of stopping occur: a step function that improves by 1, then by 0. -/
example : (∃ st, fit (fun h : ℕ => .ok (h + 1, if h = 0 then (-1:ℝ) else 0)) (1/2) 10 0 = .ok st ∧ st.counter = 3 ∧ st.h = 3) ∧
    ∃ st, fit (fun h : ℕ => .ok (h + 1, if h = 0 then (-1:ℝ) else 0)) (1/2) 2 0 = .ok st ∧ st.counter = 2 := by
  constructor
  · refine ⟨⟨3, 3, some 0⟩, ?_, rfl, rfl⟩
    unfold fit
    rw [loop_succ _ _ _ _ 1 (-1) (by simp), if_neg (by simp), loop_succ _ _ _ _ 2 0 (by simp), if_neg (by norm_num),
      loop_succ _ _ _ _ 3 0 (by simp), if_pos ⟨0, rfl, by norm_num⟩]
  · refine ⟨⟨2, 2, some 0⟩, ?_, rfl⟩
    unfold fit
    rw [loop_succ _ _ _ _ 1 (-1) (by simp), if_neg (by simp), loop_succ _ _ _ _ 2 0 (by simp), if_neg (by norm_num), loop_zero]

end generic

theorem beta0_le_one {O : Type} {n : ℕ} (tau : Fin n → Fin n → O → ℝ) (f : Fin n → ℝ) (h0 : ∀ s ss o, 0 ≤ tau s ss o)
    (h1 : ∀ s o, ∑ ss, tau s ss o ≤ 1) (hf : ∀ s, f s ≤ 1) (w : List O) (s : Fin n) : beta0 tau f w s ≤ 1 := by
  induction w generalizing s with
  | nil => exact hf s
  | cons o os ih =>
    rw [beta0_cons]
    refine le_trans (Finset.sum_le_sum (fun ss _ => ?_)) (h1 s o)
    calc beta0 tau f os ss * tau s ss o ≤ 1 * tau s ss o := mul_le_mul_of_nonneg_right (ih ss) (h0 _ _ _)
      _ = tau s ss o := one_mul _

theorem totalWeight_le_one {O : Type} {n : ℕ} (init : Fin n → ℝ) (tau : Fin n → Fin n → O → ℝ) (f : Fin n → ℝ)
    (hi : ∀ s, 0 ≤ init s) (hi1 : ∑ s, init s ≤ 1) (h0 : ∀ s ss o, 0 ≤ tau s ss o)
    (h1 : ∀ s o, ∑ ss, tau s ss o ≤ 1) (hf : ∀ s, f s ≤ 1) (w : List O) : totalWeight init tau f w ≤ 1 := by
  rw [totalWeight_eq]
  refine le_trans (Finset.sum_le_sum (fun s _ => ?_)) hi1
  calc init s * beta0 tau f w s ≤ init s * 1 := mul_le_mul_of_nonneg_left (beta0_le_one tau f h0 h1 hf w s) (hi s)
    _ = init s := mul_one _

theorem overSet_log_nonpos {O : Type} (S : TSet O) (P : List O → ℝ) (h0 : ∀ w, 0 ≤ P w) (h1 : ∀ w ∈ S.sequences, P w ≤ 1) :
    overSet S P (fun w => Real.log (P w)) ≤ 0 := by
  unfold overSet
  have e := sum_map_nonneg ((S.sequences.zip S.times).filter (fun x => P x.1 ≠ 0))
    (fun x => (-1) * ((x.2 : ℝ) * Real.log (P x.1))) (fun x hx => by
      have hw := (List.of_mem_zip (List.mem_filter.mp hx).1).1
      have := mul_nonpos_of_nonneg_of_nonpos (Nat.cast_nonneg (α := ℝ) x.2) (Real.log_nonpos (h0 _) (h1 _ hw))
      linarith)
  rw [sum_map_mul] at e
  linarith

section mc
variable {L : Type} [DecidableEq L] {n : ℕ}

theorem MC.lik_le_one (M : MC ℝ L n) (hM : M.Stochastic) (w : List L) : M.lik w ≤ 1 := by
  by_cases hw : w = []
  · subst hw; exact zero_le_one
  · rw [M.lik_eq hM.2.2.2 w hw]
    refine totalWeight_le_one _ _ _ hM.1 hM.2.1.le (M.step_nonneg hM.2.2.1) (fun s o => ?_) (fun _ => le_refl _) w
    unfold MC.step
    rw [← Finset.mul_sum, hM.2.2.2, mul_one]
    split_ifs <;> norm_num

/-- C41, Markov chains: with `epsilon > 0` the learning ends even with an infinite budget, after at most
`-(initial log-likelihood)/epsilon + 2` iterations. -/
theorem MC.fit_terminates (processes : ℕ) (hp : 1 < processes) (S : TSet L) (epsilon : ℝ) (he : 0 < epsilon) (M : MC ℝ L n)
    (hM : M.Stochastic)
    (hne : ∀ w ∈ S.sequences, w ≠ []) (hlen : S.times.length = S.sequences.length) (ht : ∀ t ∈ S.times, 1 ≤ t)
    (w : List L) (hw : w ∈ S.sequences) (hl : M.lik w ≠ 0) :
    ∃ st N, (∀ maxIt, N ≤ maxIt → fit (stepMC processes S) epsilon maxIt M = .ok st) ∧
      (st.counter : ℝ) ≤ -(S.times.sum * avgLogLik M.lik S) / epsilon + 2 := by
  obtain ⟨⟨M1, l0⟩, hr⟩ := (M.bw_step_outcome processes S hM.2.2.2 hne hlen).1 (Or.inl ⟨hp, w, hw, hl⟩)
  have hl0 := (M.bw_step_monotone _ _ _ _ hM hne hlen ht hr).2.2
  have hbound : ∀ N st, fit (stepMC processes S) epsilon N M = .ok st →
      (st.counter : ℝ) ≤ -(S.times.sum * avgLogLik M.lik S) / epsilon + 2 := by
    intro N st h
    have := fit_bound _ epsilon he N M MC.Stochastic 0 hM ?_ st h M1 l0 hr
    · rw [hl0, zero_sub] at this; exact this
    · intro h h' ll hi hs
      refine ⟨MC.bw_step_keeps_stochastic _ _ _ _ _ hi hs, ?_⟩
      rw [(MC.bw_update_spec _ _ _ _ _ hi.2.2.2 hne hs).2.2.2]
      exact overSet_log_nonpos S _ (h.lik_nonneg hi) (fun w _ => h.lik_le_one hi w)
  obtain ⟨N, hN⟩ := exists_nat_gt (-(S.times.sum * avgLogLik M.lik S) / epsilon + 2)
  obtain ⟨st, hst⟩ := M.fit_total processes hp S epsilon N hM hne hlen ht w hw hl
  have hb := hbound N st hst
  refine ⟨st, N, fun maxIt hm => fit_stopped _ _ _ _ _ hst ?_ _ hm, hb⟩
  exact_mod_cast lt_of_le_of_lt hb hN

/-- The hypotheses are met by `exMC` and `exSet`. -/
example : ∃ st N, ∀ maxIt, N ≤ maxIt → fit (stepMC 2 exSet) (1/100) maxIt (exMC ℝ) = .ok st := by
  obtain ⟨st, N, h, _⟩ := (exMC ℝ).fit_terminates 2 (by norm_num) exSet (1/100) (by norm_num) exMC_stochastic (by decide)
    (by decide) (by decide) [2, 0, 1] (by decide) (by rw [exMC_lik.1]; norm_num)
  exact ⟨st, N, h⟩

end mc

section hmm
variable {O : Type} [DecidableEq O] {n : ℕ}

theorem HMM.emit_le_one (M : HMM ℝ O n) (hM : M.Stochastic) (s : Fin n) (o : O) : M.emit s o ≤ 1 := by
  rw [← hM.2.2.2.2.2 s]
  unfold HMM.emit
  refine Finset.sum_le_sum (fun i _ => ?_)
  split_ifs
  · exact le_refl _
  · exact hM.2.2.2.2.1 s i

theorem HMM.lik_le_one (M : HMM ℝ O n) (hM : M.Stochastic) (w : List O) : M.lik w ≤ 1 := by
  by_cases hw : w = []
  · subst hw; exact zero_le_one
  · rw [M.lik_eq hM.2.2.2.1 w hw]
    refine totalWeight_le_one _ _ _ hM.1 hM.2.1.le (M.step_nonneg hM.2.2.1 hM.2.2.2.2.1) (fun s o => ?_)
      (fun _ => le_refl _) w
    unfold HMM.step
    rw [← Finset.mul_sum, hM.2.2.2.1, mul_one]
    exact M.emit_le_one hM s o

/-- C41, hidden Markov models: with `epsilon > 0` the learning ends even with an infinite budget, after at most
`-(initial log-likelihood)/epsilon + 2` iterations. -/
theorem HMM.fit_terminates (processes : ℕ) (hp : 1 < processes) (S : TSet O) (epsilon : ℝ) (he : 0 < epsilon) (M : HMM ℝ O n)
    (hnd : M.alphabet.Nodup) (hM : M.Stochastic)
    (hne : ∀ w ∈ S.sequences, w ≠ []) (hlen : S.times.length = S.sequences.length) (ht : ∀ t ∈ S.times, 1 ≤ t)
    (w : List O) (hw : w ∈ S.sequences) (hl : M.lik w ≠ 0) :
    ∃ st N, (∀ maxIt, N ≤ maxIt → fit (stepHMM processes S) epsilon maxIt M = .ok st) ∧
      (st.counter : ℝ) ≤ -(S.times.sum * avgLogLik M.lik S) / epsilon + 2 := by
  obtain ⟨⟨M1, l0⟩, hr⟩ := (M.bw_step_outcome processes S hnd hM.2.2.2.1 hne hlen).1 (Or.inl ⟨hp, w, hw, hl⟩)
  have hl0 := (M.bw_step_monotone _ _ _ _ hnd hM hne hlen ht hr).2.2
  have hbound : ∀ N st, fit (stepHMM processes S) epsilon N M = .ok st →
      (st.counter : ℝ) ≤ -(S.times.sum * avgLogLik M.lik S) / epsilon + 2 := by
    intro N st h
    have := fit_bound _ epsilon he N M (fun M' => M'.alphabet.Nodup ∧ M'.Stochastic) 0 ⟨hnd, hM⟩ ?_ st h M1 l0 hr
    · rw [hl0, zero_sub] at this; exact this
    · intro h h' ll hi hs
      refine ⟨⟨by rw [HMM.bw_step_alphabet _ _ _ _ _ hs]; exact hi.1, HMM.bw_step_stochastic _ _ _ _ _ hi.1 hi.2 ht hs⟩, ?_⟩
      rw [(HMM.bw_update_spec _ _ _ _ _ hi.1 hi.2.2.2.2.1 hne hs).2.2.2.2]
      exact overSet_log_nonpos S _ (h.lik_nonneg hi.2) (fun w _ => h.lik_le_one hi.2 w)
  obtain ⟨N, hN⟩ := exists_nat_gt (-(S.times.sum * avgLogLik M.lik S) / epsilon + 2)
  obtain ⟨st, hst⟩ := M.fit_total processes hp S epsilon N hnd hM hne hlen ht w hw hl
  have hb := hbound N st hst
  refine ⟨st, N, fun maxIt hm => fit_stopped _ _ _ _ _ hst ?_ _ hm, hb⟩
  exact_mod_cast lt_of_le_of_lt hb hN

example : ∃ st N, ∀ maxIt, N ≤ maxIt → fit (stepHMM 4 exSetHMM) (1/100) maxIt (exHMM ℝ) = .ok st := by
  obtain ⟨st, N, h, _⟩ := (exHMM ℝ).fit_terminates 4 (by norm_num) exSetHMM (1/100) (by norm_num) (by decide)
    exHMM_stochastic (by decide) (by decide) (by decide) [7, 8, 7] (by decide) exHMM_lik.2
  exact ⟨st, N, h⟩

end hmm
end Jajapy
