import Verif.Lemmas.Learn
import Verif.Props.BW

/-!
Properties C33, C34, C36, C42 and C58 of the Baum-Welch learner on hidden Markov models. The observations of the alphabet
are assumed to be distinct.
-/

set_option linter.unusedSectionVars false

namespace Jajapy

open Finset Spec BW

section hmm
variable {O : Type} [DecidableEq O] {n : ℕ}

/-! ### C58 -/

/-- The expected number of times the model leaves `s`, over the training set. -/
noncomputable def HMM.visits (M : HMM ℝ O n) (S : TSet O) (s : Fin n) : ℝ :=
  overSet S M.lik (fun w => expVisits M.initialState M.step (fun _ => 1) (fun _ => 1) w s)

/-- The expected number of transitions from `s` to `ss`, over the training set. -/
noncomputable def HMM.uses (M : HMM ℝ O n) (S : TSet O) (s ss : Fin n) : ℝ :=
  overSet S M.lik (fun w => expUses M.initialState M.step (fun _ => 1) (fun _ => 1) w s ss)

/-- The expected number of times `o` is emitted in `s`, over the training set. -/
noncomputable def HMM.emissions (M : HMM ℝ O n) (S : TSet O) (s : Fin n) (o : O) : ℝ :=
  overSet S M.lik (fun w => expVisits M.initialState M.step (fun _ => 1) (fun o' => if o' = o then 1 else 0) w s)

/-- The expected number of times the model starts in `s`, over the training set. -/
noncomputable def HMM.starts (M : HMM ℝ O n) (S : TSet O) (s : Fin n) : ℝ :=
  overSet S M.lik (fun w => expStart M.initialState M.step (fun _ => 1) w s)

theorem HMM.visits_eq (M : HMM ℝ O n) (S : TSet O) (hm : ∀ s, ∑ s', M.matrix s s' = 1) (hne : ∀ w ∈ S.sequences, w ≠ [])
    (s : Fin n) : M.visits S s = denHMM M S s := by
  rw [denHMM_eq]
  exact overSet_congr S _ _ _ _ (fun w hw => M.lik_eq hm w (hne w hw)) (fun _ _ _ => rfl)

theorem HMM.uses_eq (M : HMM ℝ O n) (S : TSet O) (hm : ∀ s, ∑ s', M.matrix s s' = 1) (hne : ∀ w ∈ S.sequences, w ≠ [])
    (s ss : Fin n) : M.uses S s ss = numAHMM M S s ss := by
  rw [numAHMM_eq]
  exact overSet_congr S _ _ _ _ (fun w hw => M.lik_eq hm w (hne w hw)) (fun _ _ _ => rfl)

theorem HMM.starts_eq (M : HMM ℝ O n) (S : TSet O) (hm : ∀ s, ∑ s', M.matrix s s' = 1) (hne : ∀ w ∈ S.sequences, w ≠ [])
    (s : Fin n) : M.starts S s = initHMM M S s := by
  rw [initHMM_eq]
  exact overSet_congr S _ _ _ _ (fun w hw => M.lik_eq hm w (hne w hw)) (fun _ _ _ => rfl)

theorem HMM.emissions_eq (M : HMM ℝ O n) (S : TSet O) (hm : ∀ s, ∑ s', M.matrix s s' = 1) (hne : ∀ w ∈ S.sequences, w ≠ [])
    (s : Fin n) (i : Fin M.alphabet.length) : M.emissions S s M.alphabet[i] = numBHMM M S s i := by
  rw [numBHMM_eq]
  exact overSet_congr S _ _ _ _ (fun w hw => M.lik_eq hm w (hne w hw)) (fun _ _ _ => rfl)

theorem HMM.emit_not_mem (M : HMM ℝ O n) (s : Fin n) (o : O) (h : o ∉ M.alphabet) : M.emit s o = 0 := by
  unfold HMM.emit
  refine Finset.sum_eq_zero (fun i _ => ?_)
  rw [if_neg]
  intro hi
  exact h (hi ▸ List.getElem_mem _)

theorem HMM.emissions_not_mem (M : HMM ℝ O n) (S : TSet O) (s : Fin n) (o : O) (h : o ∉ M.alphabet) :
    M.emissions S s o = 0 := by
  unfold HMM.emissions
  apply overSet_zero
  intro w _
  unfold expVisits
  rw [Finset.sum_eq_zero, zero_div]
  intro p _
  rw [Finset.mul_sum]
  refine Finset.sum_eq_zero (fun k _ => ?_)
  beta_reduce
  split_ifs with h1 h2
  · have : pathWeight M.initialState M.step (fun _ => 1) w p = 0 := by
      unfold pathWeight
      rw [Finset.prod_eq_zero (Finset.mem_univ k), mul_zero, zero_mul]
      rw [h2]
      simp [HMM.step, M.emit_not_mem _ o h]
    rw [this, zero_mul]
  · rw [mul_zero]
  · rw [mul_zero]

/-- C58, hidden Markov models: one iteration replaces every probability by the corresponding expected frequency, keeps
the rows of the states that are never visited, and reports the log-likelihood of the training set. -/
theorem HMM.bw_update_spec (processes : ℕ) (S : TSet O) (M M' : HMM ℝ O n) (ll : ℝ) (hnd : M.alphabet.Nodup)
    (hm : ∀ s, ∑ s', M.matrix s s' = 1) (hne : ∀ w ∈ S.sequences, w ≠ []) (h : stepHMM processes S M = .ok (M', ll)) :
    M'.alphabet = M.alphabet ∧
    (∀ s, M'.initialState s = M.starts S s / ∑ s', M.starts S s') ∧
    (∀ s ss, M'.matrix s ss = if M.visits S s = 0 then M.matrix s ss else M.uses S s ss / M.visits S s) ∧
    (∀ s o, M'.emit s o = if M.visits S s = 0 then M.emit s o else M.emissions S s o / M.visits S s) ∧
    ll = overSet S M.lik (fun w => Real.log (M.lik w)) := by
  obtain ⟨h1, _, h3, _⟩ := stepHMM_ok _ _ _ _ hnd _ h
  subst h1
  refine ⟨rfl, fun s => ?_, fun s ss => ?_, fun s o => ?_, ?_⟩
  · simp only [M.starts_eq S hm hne]; rfl
  · rw [M.visits_eq S hm hne, M.uses_eq S hm hne]; rfl
  · by_cases ho : o ∈ M.alphabet
    · obtain ⟨i, hi, rfl⟩ := List.mem_iff_getElem.mp ho
      have e1 := M.emit_getElem hnd s ⟨i, hi⟩
      have e2 := (newHMM M S).emit_getElem hnd s ⟨i, hi⟩
      have e3 := M.emissions_eq S hm hne s ⟨i, hi⟩
      rw [M.visits_eq S hm hne]
      exact e2.trans (by
        simp only [newHMM]
        split_ifs
        · exact e1.symm
        · rw [← e3]; rfl)
    · rw [M.emit_not_mem s o ho, M.emissions_not_mem S s o ho, (newHMM M S).emit_not_mem s o ho]
      simp
  · rw [h3]
    exact filter_sum_eq_overSet S _ _ _ _ (fun w hw => M.lik_eq hm w (hne w hw)) (fun w hw => M.lik_eq hm w (hne w hw))

/-- When an iteration succeeds, and what it raises otherwise. -/
theorem HMM.bw_step_outcome (processes : ℕ) (S : TSet O) (M : HMM ℝ O n) (hnd : M.alphabet.Nodup)
    (hm : ∀ s, ∑ s', M.matrix s s' = 1)
    (hne : ∀ w ∈ S.sequences, w ≠ []) (hlen : S.times.length = S.sequences.length) :
    ((1 < processes ∧ ∃ w ∈ S.sequences, M.lik w ≠ 0) ∨ (processes ≤ 1 ∧ S.sequences ≠ [] ∧ ∀ w ∈ S.sequences, M.lik w ≠ 0) →
      ∃ r, stepHMM processes S M = .ok r) ∧
    ((1 < processes ∧ ∀ w ∈ S.sequences, M.lik w = 0) ∨ (processes ≤ 1 ∧ ∃ w ∈ S.sequences, M.lik w = 0) →
      stepHMM processes S M = .error .typeError) := by
  obtain ⟨a1, a2, a3⟩ := collect_outcome .typeError processes S hlen M.lik (fun p => processWorkHMM M p.1 p.2) (wkHMM M)
    (fun x hx => by rw [processWorkHMM_eq M hnd, M.lik_eq hm _ (hne _ (List.of_mem_zip hx).1)])
  constructor
  · intro h
    obtain ⟨r, hr⟩ := a1 h
    unfold stepHMM workHMM
    rw [hr]
    exact ⟨_, rfl⟩
  · rintro (h | h)
    · unfold stepHMM workHMM; rw [a2 h]; rfl
    · unfold stepHMM workHMM; rw [a3 h]; rfl

theorem exHMM_stochastic : (exHMM ℝ).Stochastic := by
  refine ⟨fun s => ?_, ?_, fun s s' => ?_, fun s => ?_, fun s i => ?_, fun s => ?_⟩
  · fin_cases s <;> simp [exHMM]
  · simp [exHMM]
  · fin_cases s <;> fin_cases s' <;> simp [exHMM] <;> norm_num
  · fin_cases s <;> simp [exHMM, Fin.sum_univ_two] <;> norm_num
  · change Fin 2 at i
    fin_cases s <;> fin_cases i <;> simp [exHMM]
    norm_num
  · change ∑ i : Fin 2, _ = _
    fin_cases s <;> simp [exHMM, Fin.sum_univ_two]
    norm_num

theorem exHMM_lik : (exHMM ℝ).lik [8, 8] = 2/9 ∧ (exHMM ℝ).lik [7, 8, 7] ≠ 0 := by
  have he : ∀ s, (exHMM ℝ).emit s 7 = (![1/3, 1] : Fin 2 → ℝ) s ∧ (exHMM ℝ).emit s 8 = (![2/3, 0] : Fin 2 → ℝ) s := by
    intro s
    refine ⟨?_, ?_⟩
    · refine ((exHMM ℝ).emit_getElem (by decide) s ⟨0, by decide⟩).trans ?_
      fin_cases s <;> simp [exHMM]
    · refine ((exHMM ℝ).emit_getElem (by decide) s ⟨1, by decide⟩).trans ?_
      fin_cases s <;> simp [exHMM]
  constructor
  · rw [(exHMM ℝ).lik_eq exHMM_stochastic.2.2.2.1 _ (by simp), totalWeight_eq]
    simp only [beta0, betas, bwd, HMM.step, he, List.headD, Fin.sum_univ_two]
    simp [exHMM]
    norm_num
  · rw [(exHMM ℝ).lik_eq exHMM_stochastic.2.2.2.1 _ (by simp), totalWeight_eq]
    simp only [beta0, betas, bwd, HMM.step, he, List.headD, Fin.sum_univ_two]
    simp [exHMM]
    norm_num

/-- The hypotheses are met, and an iteration on `exHMM` and `exSetHMM` succeeds with any number of processes. -/
example (p : ℕ) : (exHMM ℝ).alphabet.Nodup ∧ (∀ w ∈ exSetHMM.sequences, w ≠ []) ∧
    exSetHMM.times.length = exSetHMM.sequences.length ∧ (∀ t ∈ exSetHMM.times, 1 ≤ t) ∧
    ∃ r, stepHMM p exSetHMM (exHMM ℝ) = .ok r := by
  refine ⟨by decide, by decide, by decide, by decide, ((exHMM ℝ).bw_step_outcome p exSetHMM (by decide)
    exHMM_stochastic.2.2.2.1 (by decide) (by decide)).1 ?_⟩
  have hall : ∀ w ∈ exSetHMM.sequences, (exHMM ℝ).lik w ≠ 0 := by
    intro w hw
    simp only [exSetHMM, List.mem_cons, List.not_mem_nil, or_false] at hw
    rcases hw with rfl | rfl
    · exact exHMM_lik.2
    · rw [exHMM_lik.1]; norm_num
  by_cases hp : 1 < p
  · exact Or.inl ⟨hp, [8, 8], by decide, hall _ (by decide)⟩
  · exact Or.inr ⟨by omega, by decide, hall⟩

/-! ### C33: stochasticity -/

/-- C33, one iteration. -/
theorem HMM.bw_step_stochastic (processes : ℕ) (S : TSet O) (M M' : HMM ℝ O n) (ll : ℝ) (hnd : M.alphabet.Nodup)
    (hM : M.Stochastic) (ht : ∀ t ∈ S.times, 1 ≤ t) (h : stepHMM processes S M = .ok (M', ll)) :
    M'.Stochastic := by
  obtain ⟨h1, h2, _, _⟩ := stepHMM_ok _ _ _ _ hnd _ h
  subst h1
  obtain ⟨hi0, hi1, hm0, hm1, ho0, ho1⟩ := hM
  have hn := numAHMM_nonneg M S hi0 hm0 ho0
  have hb := numBHMM_nonneg M S hi0 hm0 ho0
  have hI := initHMM_nonneg M S hi0 hm0 ho0
  have hd := denHMM_nonneg M S hi0 hm0 ho0
  have hIs : 0 < ∑ s, initHMM M S s := by
    rw [sum_initHMM]
    obtain ⟨x, hx⟩ := List.exists_mem_of_ne_nil _ h2
    refine sum_map_pos _ _ (fun _ _ => Nat.cast_nonneg _) x hx ?_
    have := ht x.2 (List.of_mem_zip (List.mem_filter.mp hx).1).2
    exact_mod_cast this
  refine ⟨fun s => div_nonneg (hI s) hIs.le, ?_, fun s s' => ?_, fun s => ?_, fun s i => ?_, fun s => ?_⟩
  · simp only [newHMM]
    rw [← Finset.sum_div, div_self hIs.ne']
  · simp only [newHMM]
    split_ifs
    · exact hm0 _ _
    · exact div_nonneg (hn _ _) (hd _)
  · simp only [newHMM]
    split_ifs with h0
    · exact hm1 s
    · rw [← Finset.sum_div, sum_numAHMM, div_self h0]
  · simp only [newHMM]
    split_ifs
    · exact ho0 _ _
    · exact div_nonneg (hb _ _) (hd _)
  · simp only [newHMM]
    split_ifs with h0
    · exact ho1 s
    · rw [← Finset.sum_div]
      have := sum_numBHMM M hnd S s
      exact (congrArg (· / denHMM M S s) this).trans (div_self h0)

theorem HMM.bw_step_alphabet (processes : ℕ) (S : TSet O) (M M' : HMM ℝ O n) (ll : ℝ)
    (h : stepHMM processes S M = .ok (M', ll)) : M'.alphabet = M.alphabet := by
  unfold stepHMM at h
  cases hw : workHMM processes S M with
  | error e => rw [hw] at h; cases h
  | ok temp =>
    rw [hw] at h
    injection h with h
    injection h with h1 h2
    rw [← h1]
    rfl

/-- C33: after any number of iterations the learned model is a hidden Markov model. -/
theorem HMM.fit_stochastic (processes : ℕ) (S : TSet O) (epsilon : ℝ) (maxIt : ℕ) (M : HMM ℝ O n) (hnd : M.alphabet.Nodup)
    (hM : M.Stochastic) (ht : ∀ t ∈ S.times, 1 ≤ t)
    (st : LoopState (HMM ℝ O n)) (h : fit (stepHMM processes S) epsilon maxIt M = .ok st) : st.h.Stochastic :=
  (loop_invariant _ _ (fun M' => M'.alphabet.Nodup ∧ M'.Stochastic) (fun _ _ _ hi hs =>
    ⟨by rw [HMM.bw_step_alphabet _ _ _ _ _ hs]; exact hi.1, HMM.bw_step_stochastic _ _ _ _ _ hi.1 hi.2 ht hs⟩)
    _ _ _ ⟨hnd, hM⟩ h).2

/-! ### C34: structure -/

theorem HMM.emit_zero_iff (M : HMM ℝ O n) (hnd : M.alphabet.Nodup) (s : Fin n) (o : O) :
    M.emit s o = 0 ↔ ∀ i : Fin M.alphabet.length, M.alphabet[i] = o → M.output s i = 0 := by
  constructor
  · intro h i hi
    rw [← M.emit_getElem hnd, hi, h]
  · intro h
    unfold HMM.emit
    refine Finset.sum_eq_zero (fun i _ => ?_)
    split_ifs with hi
    · exact h i hi
    · rfl

theorem newHMM_emit_zero (M : HMM ℝ O n) (hnd : M.alphabet.Nodup) (S : TSet O) (s : Fin n) (o : O)
    (h : M.emit s o = 0) : (newHMM M S).emit s o = 0 := by
  rw [(newHMM M S).emit_zero_iff hnd]
  intro i hi
  have h0 := (M.emit_zero_iff hnd s o).mp h i hi
  simp only [newHMM]
  split_ifs
  · exact h0
  · rw [numBHMM_zero M hnd S s i h0, zero_div]

/-- C34, one iteration: what has probability 0 keeps probability 0. -/
theorem HMM.bw_step_zero (processes : ℕ) (S : TSet O) (M M' : HMM ℝ O n) (ll : ℝ) (hnd : M.alphabet.Nodup)
    (h : stepHMM processes S M = .ok (M', ll)) :
    M'.alphabet = M.alphabet ∧ (∀ s s', M.matrix s s' = 0 → M'.matrix s s' = 0) ∧
    (∀ s o, M.emit s o = 0 → M'.emit s o = 0) ∧ (∀ s, M.initialState s = 0 → M'.initialState s = 0) := by
  obtain ⟨h1, _, _, _⟩ := stepHMM_ok _ _ _ _ hnd _ h
  subst h1
  refine ⟨rfl, fun s s' h0 => ?_, fun s o h0 => newHMM_emit_zero M hnd S s o h0, fun s h0 => ?_⟩
  · simp only [newHMM]
    split_ifs
    · exact h0
    · rw [numAHMM_zero M S s s' h0, zero_div]
  · simp only [newHMM]
    rw [initHMM_zero M S s h0, zero_div]

/-- C34: after any number of iterations the alphabet is the same and no transition, emission or initial state has
appeared. -/
theorem HMM.fit_structure (processes : ℕ) (S : TSet O) (epsilon : ℝ) (maxIt : ℕ) (M : HMM ℝ O n) (hnd : M.alphabet.Nodup)
    (st : LoopState (HMM ℝ O n)) (h : fit (stepHMM processes S) epsilon maxIt M = .ok st) :
    st.h.alphabet = M.alphabet ∧ (∀ s s', M.matrix s s' = 0 → st.h.matrix s s' = 0) ∧
    (∀ s o, M.emit s o = 0 → st.h.emit s o = 0) ∧ (∀ s, M.initialState s = 0 → st.h.initialState s = 0) := by
  refine loop_invariant _ _ (fun M' => M'.alphabet = M.alphabet ∧ (∀ s s', M.matrix s s' = 0 → M'.matrix s s' = 0) ∧
    (∀ s o, M.emit s o = 0 → M'.emit s o = 0) ∧ (∀ s, M.initialState s = 0 → M'.initialState s = 0)) ?_ _ _ _
    ⟨rfl, fun _ _ h => h, fun _ _ h => h, fun _ h => h⟩ h
  rintro M1 M2 ll ⟨i1, i2, i3, i4⟩ hs
  obtain ⟨j1, j2, j3, j4⟩ := M1.bw_step_zero _ _ _ _ (by rw [i1]; exact hnd) hs
  exact ⟨j1.trans i1, fun s s' h => j2 s s' (i2 s s' h), fun s o h => j3 s o (i3 s o h), fun s h => j4 s (i4 s h)⟩

/-- A state is visited by the training set if some path of positive probability of some trace leaves it. -/
def HMM.Visited (M : HMM ℝ O n) (S : TSet O) (s : Fin n) : Prop :=
  ∃ w ∈ S.sequences, ∃ p : Fin (w.length + 1) → Fin n, 0 < pathWeight M.initialState M.step (fun _ => 1) w p ∧
    ∃ k : Fin w.length, p k.castSucc = s

/-- C34, one iteration: a state that the training set does not visit keeps its rows. -/
theorem HMM.bw_step_unvisited (processes : ℕ) (S : TSet O) (M M' : HMM ℝ O n) (ll : ℝ) (hnd : M.alphabet.Nodup)
    (hM : M.Stochastic) (hne : ∀ w ∈ S.sequences, w ≠ []) (h : stepHMM processes S M = .ok (M', ll))
    (s : Fin n) (hv : ¬ M.Visited S s) : (∀ s', M'.matrix s s' = M.matrix s s') ∧ ∀ o, M'.emit s o = M.emit s o := by
  obtain ⟨hi0, hi1, hm0, hm1, ho0, ho1⟩ := hM
  obtain ⟨_, _, h3, h4, _⟩ := M.bw_update_spec _ _ _ _ hnd hm1 hne h
  have hz : M.visits S s = 0 := overSet_zero S _ _ (fun w hw => expVisits_zero _ _ _ _ _ _ hi0 (M.step_nonneg hm0 ho0)
    (fun _ => zero_le_one) (fun p hp k hk => hv ⟨w, hw, p, hp, k, hk⟩))
  exact ⟨fun s' => by rw [h3, if_pos hz], fun o => by rw [h4, if_pos hz]⟩

/-! ### C36: the likelihood never decreases -/

theorem HMM.lik_nonneg (M : HMM ℝ O n) (hM : M.Stochastic) (w : List O) : 0 ≤ M.lik w := by
  by_cases hw : w = []
  · subst hw; exact le_refl _
  · rw [M.lik_eq hM.2.2.2.1 w hw]
    exact totalWeight_nonneg _ _ _ (M.step_nonneg hM.2.2.1 hM.2.2.2.2.1) hM.1 (fun _ => zero_le_one) _

/-- C36, one iteration: the log-likelihood of the training set does not decrease, and exactly the same traces are
possible. The value reported by the iteration is the log-likelihood of the model before the iteration. -/
theorem HMM.bw_step_monotone (processes : ℕ) (S : TSet O) (M M' : HMM ℝ O n) (ll : ℝ) (hnd : M.alphabet.Nodup)
    (hM : M.Stochastic) (hne : ∀ w ∈ S.sequences, w ≠ []) (hlen : S.times.length = S.sequences.length)
    (ht : ∀ t ∈ S.times, 1 ≤ t) (h : stepHMM processes S M = .ok (M', ll)) :
    avgLogLik M.lik S ≤ avgLogLik M'.lik S ∧ (∀ w ∈ S.sequences, M.lik w ≠ 0 ↔ M'.lik w ≠ 0) ∧
    ll = S.times.sum * avgLogLik M.lik S := by
  have hM' := M.bw_step_stochastic processes S M' ll hnd hM ht h
  obtain ⟨_, hz1, hz2, hz3⟩ := M.bw_step_zero processes S M' ll hnd h
  obtain ⟨h1, h2, h3, _⟩ := stepHMM_ok _ _ _ _ hnd _ h
  subst h1
  have hl := M.lik_nonneg hM
  have hl' := (newHMM M S).lik_nonneg hM'
  obtain ⟨hi0, hi1, hm0, hm1, ho0, ho1⟩ := hM
  obtain ⟨hpos, hg⟩ := newHMM_gain M hnd S hi0 hi1.le hm0 (fun s => (hm1 s).le) ho0 (fun s => (ho1 s).le) ht
  have e1 := fun w hw => M.lik_eq hm1 w (hne w hw)
  have e2 := fun w hw => (newHMM M S).lik_eq hM'.2.2.2.1 w (hne w hw)
  have hposs : ∀ w ∈ S.sequences, M.lik w ≠ 0 ↔ (newHMM M S).lik w ≠ 0 := by
    intro w hw
    rw [e1 w hw, e2 w hw]
    constructor
    · intro h0
      obtain ⟨t, htm⟩ := mem_zip_of_mem S hlen w hw
      exact (hpos (w, t) (List.mem_filter.mpr ⟨htm, by simpa using h0⟩)).ne'
    · intro h0 hz
      apply h0
      refine totalWeight_zero M.step _ M.initialState _ _ (M.step_nonneg hm0 ho0) hi0 (fun _ => zero_le_one) ?_ hz3 w hz
      intro s ss o hso
      unfold HMM.step at hso ⊢
      rcases mul_eq_zero.mp hso with h | h
      · rw [hz2 s o h, zero_mul]
      · rw [hz1 s ss h, mul_zero]
  have k1 := filter_sum_eq_overSet S _ _ M.lik M.lik e1 e1
  have k2 := filter_sum_eq_overSet S _ _ M.lik (newHMM M S).lik e1 e2
  refine ⟨avgLogLik_mono S _ _ hl hl' hposs ?_, hposs, ?_⟩
  · rw [← k1, ← k2]; exact hg
  · rw [h3, ← overSet_eq_avgLogLik S _ hl ht, ← k1]
    rfl

/-- C36: whatever the number of iterations, the log-likelihood of the learned model is at least the one of the initial
model. -/
theorem HMM.fit_monotone (processes : ℕ) (S : TSet O) (epsilon : ℝ) (maxIt : ℕ) (M : HMM ℝ O n) (hnd : M.alphabet.Nodup)
    (hM : M.Stochastic) (hne : ∀ w ∈ S.sequences, w ≠ []) (hlen : S.times.length = S.sequences.length)
    (ht : ∀ t ∈ S.times, 1 ≤ t)
    (st : LoopState (HMM ℝ O n)) (h : fit (stepHMM processes S) epsilon maxIt M = .ok st) :
    avgLogLik M.lik S ≤ avgLogLik st.h.lik S := by
  have := loop_invariant _ _ (fun M' => M'.alphabet.Nodup ∧ M'.Stochastic ∧ avgLogLik M.lik S ≤ avgLogLik M'.lik S) ?_ _ _ _
    ⟨hnd, hM, le_refl _⟩ h
  · exact this.2.2
  · rintro M1 M2 ll ⟨i0, i1, i2⟩ hs
    exact ⟨by rw [HMM.bw_step_alphabet _ _ _ _ _ hs]; exact i0, M1.bw_step_stochastic _ _ _ _ i0 i1 ht hs,
      le_trans i2 (M1.bw_step_monotone _ _ _ _ i0 i1 hne hlen ht hs).1⟩

/-- `fit` never fails once the initial model can generate a trace of the set (with several processes). -/
theorem HMM.fit_total (processes : ℕ) (hp : 1 < processes) (S : TSet O) (epsilon : ℝ) (maxIt : ℕ) (M : HMM ℝ O n)
    (hnd : M.alphabet.Nodup) (hM : M.Stochastic)
    (hne : ∀ w ∈ S.sequences, w ≠ []) (hlen : S.times.length = S.sequences.length) (ht : ∀ t ∈ S.times, 1 ≤ t)
    (w : List O) (hw : w ∈ S.sequences) (hl : M.lik w ≠ 0) :
    ∃ st, fit (stepHMM processes S) epsilon maxIt M = .ok st := by
  unfold fit
  generalize (0:ℕ) = c
  generalize (none : Option ℝ) = l
  induction maxIt generalizing M c l with
  | zero => exact ⟨_, rfl⟩
  | succ fuel ih =>
    obtain ⟨⟨M', ll⟩, hr⟩ := (M.bw_step_outcome processes S hnd hM.2.2.2.1 hne hlen).1 (Or.inl ⟨hp, w, hw, hl⟩)
    rw [loop_succ _ _ _ _ M' ll hr]
    split_ifs
    · exact ⟨_, rfl⟩
    · exact ih M' (by rw [HMM.bw_step_alphabet _ _ _ _ _ hr]; exact hnd) (M.bw_step_stochastic _ _ _ _ hnd hM ht hr)
        (((M.bw_step_monotone _ _ _ _ hnd hM hne hlen ht hr).2.1 w hw).mp hl) _ _

/-- For `exHMM` and `exSetHMM`, `fit` succeeds with any budget and any tolerance. -/
example (epsilon : ℝ) (maxIt : ℕ) : ∃ st, fit (stepHMM 4 exSetHMM) epsilon maxIt (exHMM ℝ) = .ok st :=
  (exHMM ℝ).fit_total 4 (by norm_num) exSetHMM epsilon maxIt (by decide) exHMM_stochastic (by decide) (by decide)
    (by decide) [7, 8, 7] (by decide) exHMM_lik.2

/-! ### C42: order and processes -/

/-- C42, order and multiplicities: two training sets in which every trace has the same multiplicity give the same
result. -/
theorem HMM.bw_step_mult (processes : ℕ) (S1 S2 : TSet O) (M : HMM ℝ O n) (hnd : M.alphabet.Nodup)
    (hm : ∀ s, ∑ s', M.matrix s s' = 1)
    (hne1 : ∀ w ∈ S1.sequences, w ≠ []) (hne2 : ∀ w ∈ S2.sequences, w ≠ [])
    (hl1 : S1.times.length = S1.sequences.length) (hl2 : S2.times.length = S2.sequences.length)
    (ht1 : ∀ t ∈ S1.times, 1 ≤ t) (ht2 : ∀ t ∈ S2.times, 1 ≤ t) (hmult : ∀ w, S1.mult w = S2.mult w) :
    stepHMM processes S1 M = stepHMM processes S2 M := by
  have hmem := mem_iff_of_mult S1 S2 hl1 hl2 ht1 ht2 hmult
  have hc := collect_mult .typeError processes S1 S2 hl1 hl2 hmem M.lik
    (fun p => processWorkHMM M p.1 p.2) (wkHMM M) (fun p => processWorkHMM M p.1 p.2) (wkHMM M)
    (fun x hx => by rw [processWorkHMM_eq M hnd, M.lik_eq hm _ (hne1 _ (List.of_mem_zip hx).1)])
    (fun x hx => by rw [processWorkHMM_eq M hnd, M.lik_eq hm _ (hne2 _ (List.of_mem_zip hx).1)])
  rcases hc with ⟨r1, r2, k1, k2⟩ | ⟨e, k1, k2⟩
  · have h1 : ∃ r, stepHMM processes S1 M = .ok r := by unfold stepHMM workHMM; rw [k1]; exact ⟨_, rfl⟩
    have h2 : ∃ r, stepHMM processes S2 M = .ok r := by unfold stepHMM workHMM; rw [k2]; exact ⟨_, rfl⟩
    obtain ⟨⟨M1, l1⟩, h1⟩ := h1
    obtain ⟨⟨M2, l2⟩, h2⟩ := h2
    obtain ⟨_, _, _, _, c4⟩ := M.bw_update_spec _ _ _ _ hnd hm hne1 h1
    obtain ⟨_, _, _, _, d4⟩ := M.bw_update_spec _ _ _ _ hnd hm hne2 h2
    obtain ⟨c1, _, _, _⟩ := stepHMM_ok _ _ _ _ hnd _ h1
    obtain ⟨d1, _, _, _⟩ := stepHMM_ok _ _ _ _ hnd _ h2
    have f1 : denHMM M S1 = denHMM M S2 := by
      funext s; rw [denHMM_eq, denHMM_eq]; exact overSet_mult S1 S2 hl1 hl2 hmult _ _
    have f2 : numAHMM M S1 = numAHMM M S2 := by
      funext s ss; rw [numAHMM_eq, numAHMM_eq]; exact overSet_mult S1 S2 hl1 hl2 hmult _ _
    have f3 : numBHMM M S1 = numBHMM M S2 := by
      funext s i; rw [numBHMM_eq, numBHMM_eq]; exact overSet_mult S1 S2 hl1 hl2 hmult _ _
    have f4 : initHMM M S1 = initHMM M S2 := by
      funext s; rw [initHMM_eq, initHMM_eq]; exact overSet_mult S1 S2 hl1 hl2 hmult _ _
    have hM : newHMM M S1 = newHMM M S2 := by unfold newHMM; rw [f1, f2, f3, f4]
    rw [h1, h2, c1, d1, hM, c4, d4, overSet_mult S1 S2 hl1 hl2 hmult]
  · unfold stepHMM workHMM
    rw [k1, k2]

/-- C42, number of processes: the result is the same when every trace is possible, or for any two numbers of processes
greater than 1. -/
theorem HMM.bw_step_processes (p q : ℕ) (S : TSet O) (M : HMM ℝ O n) (hnd : M.alphabet.Nodup)
    (hm : ∀ s, ∑ s', M.matrix s s' = 1) (hne : ∀ w ∈ S.sequences, w ≠ [])
    (hposs : (∀ w ∈ S.sequences, M.lik w ≠ 0) ∨ (1 < p ∧ 1 < q)) : stepHMM p S M = stepHMM q S M := by
  unfold stepHMM workHMM
  rw [collect_processes .typeError p q]
  rcases hposs with hposs | hposs
  · left
    intro x hx
    obtain ⟨y, hy, rfl⟩ := List.mem_map.mp hx
    have hy1 := (List.of_mem_zip hy).1
    rw [processWorkHMM_eq M hnd, if_neg]
    · simp
    · rw [← M.lik_eq hm _ (hne _ hy1)]; exact hposs _ hy1
  · exact Or.inr hposs

end hmm
end Jajapy
