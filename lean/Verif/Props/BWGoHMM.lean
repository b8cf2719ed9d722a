import Verif.Lemmas.Learn
import Verif.Lemmas.BWGoHMM
import Verif.Props.GoHMM
import Verif.Props.BW

/-!
Properties C33, C34, C39, C42 and C58 of the Baum-Welch learner on Gaussian-observation hidden Markov models.
-/

set_option linter.unusedSectionVars false

namespace Jajapy

open Finset Spec BW

section gohmm
variable {n d : ℕ}

/-! ### C58 -/

/-- The expected value, over the training set, of the sum of `φ` over the observations made in `s`. -/
noncomputable def GoHMM.total (M : GoHMM n d) (S : TSet (Fin d → ℝ)) (φ : (Fin d → ℝ) → ℝ) (s : Fin n) : ℝ :=
  overSet S M.lik (fun w => expVisits M.initialState M.step (fun _ => 1) φ w s)

/-- The expected number of observations made in `s`, over the training set. -/
noncomputable def GoHMM.visits (M : GoHMM n d) (S : TSet (Fin d → ℝ)) (s : Fin n) : ℝ := M.total S (fun _ => 1) s

/-- The expected number of transitions from `s` to `ss`, over the training set. -/
noncomputable def GoHMM.uses (M : GoHMM n d) (S : TSet (Fin d → ℝ)) (s ss : Fin n) : ℝ :=
  overSet S M.lik (fun w => expUses M.initialState M.step (fun _ => 1) (fun _ => 1) w s ss)

/-- The expected number of times the model starts in `s`, over the training set. -/
noncomputable def GoHMM.starts (M : GoHMM n d) (S : TSet (Fin d → ℝ)) (s : Fin n) : ℝ :=
  overSet S M.lik (fun w => expStart M.initialState M.step (fun _ => 1) w s)

theorem GoHMM.total_eq (M : GoHMM n d) (S : TSet (Fin d → ℝ)) (hm : ∀ s, ∑ s', M.matrix s s' = 1)
    (hne : ∀ w ∈ S.sequences, w ≠ []) (φ : (Fin d → ℝ) → ℝ) (s : Fin n) : M.total S φ s = avGo M S s φ := by
  have e := overSet_congr S M.lik (twGo M) _ (fun w => expVisits M.initialState M.step (fun _ => 1) φ w s)
    (fun w hw => M.lik_eq hm w (hne w hw)) (fun _ _ _ => rfl)
  refine e.trans ?_
  unfold avGo possGo overSet
  congr 1
  refine List.map_congr_left (fun x _ => ?_)
  rw [expVisits_eq _ _ _ _ _ _ _ (show twGo M x.1 = _ from totalWeight_eq _ _ _ _)]

theorem GoHMM.visits_eq (M : GoHMM n d) (S : TSet (Fin d → ℝ)) (hm : ∀ s, ∑ s', M.matrix s s' = 1)
    (hne : ∀ w ∈ S.sequences, w ≠ []) (s : Fin n) : M.visits S s = denGo M S s := M.total_eq S hm hne _ s

theorem GoHMM.uses_eq (M : GoHMM n d) (S : TSet (Fin d → ℝ)) (hm : ∀ s, ∑ s', M.matrix s s' = 1)
    (hne : ∀ w ∈ S.sequences, w ≠ []) (s ss : Fin n) : M.uses S s ss = numAGo M S s ss := by
  have e := overSet_congr S M.lik (twGo M) _ (fun w => expUses M.initialState M.step (fun _ => 1) (fun _ => 1) w s ss)
    (fun w hw => M.lik_eq hm w (hne w hw)) (fun _ _ _ => rfl)
  refine e.trans ?_
  unfold numAGo possGo overSet
  congr 1
  refine List.map_congr_left (fun x _ => ?_)
  simp only [wkGo]
  rw [expUses_eq _ _ _ _ _ _ _ _ (show twGo M x.1 = _ from totalWeight_eq _ _ _ _)]

theorem GoHMM.starts_eq (M : GoHMM n d) (S : TSet (Fin d → ℝ)) (hm : ∀ s, ∑ s', M.matrix s s' = 1)
    (hne : ∀ w ∈ S.sequences, w ≠ []) (s : Fin n) : M.starts S s = initGo M S s := by
  have e := overSet_congr S M.lik (twGo M) _ (fun w => expStart M.initialState M.step (fun _ => 1) w s)
    (fun w hw => M.lik_eq hm w (hne w hw)) (fun _ _ _ => rfl)
  refine e.trans ?_
  unfold initGo possGo overSet
  congr 1
  refine List.map_congr_left (fun x _ => ?_)
  simp only [wkGo]
  rw [expStart_eq _ _ _ _ _ _ (show twGo M x.1 = _ from totalWeight_eq _ _ _ _)]

/-- C58: one iteration replaces every transition probability by the corresponding expected frequency, and every mean by
the posterior mean of the observations. The new standard deviation is the quadratic mean of the distances between the
observations and the *old* mean. States that are never visited keep their row and means; their standard deviations
become the square roots of the old ones. -/
theorem GoHMM.bw_update_spec (processes : ℕ) (S : TSet (Fin d → ℝ)) (M M' : GoHMM n d) (ll : ℝ)
    (hs : ∀ s i, 0 ≤ M.sigma s i)
    (hm : ∀ s, ∑ s', M.matrix s s' = 1) (hne : ∀ w ∈ S.sequences, w ≠ []) (h : stepGoHMM processes S M = .ok (M', ll)) :
    (∀ s, M'.initialState s = M.starts S s / ∑ s', M.starts S s') ∧
    (∀ s ss, M'.matrix s ss = if M.visits S s = 0 then M.matrix s ss else M.uses S s ss / M.visits S s) ∧
    (∀ s i, M'.mu s i = if M.visits S s = 0 then M.mu s i else M.total S (fun o => o i) s / M.visits S s) ∧
    (∀ s i, M'.sigma s i = if M.visits S s = 0 then Real.sqrt (M.sigma s i)
      else Real.sqrt (M.total S (fun o => (o i - M.mu s i) ^ 2) s / M.visits S s)) ∧
    ll = overSet S M.lik (fun w => Real.log (M.lik w)) := by
  obtain ⟨h1, _, h3, _⟩ := stepGo_ok _ _ _ _ hs _ h
  subst h1
  refine ⟨fun s => ?_, fun s ss => ?_, fun s i => ?_, fun s i => ?_, ?_⟩
  · simp only [M.starts_eq S hm hne]; rfl
  · rw [M.visits_eq S hm hne, M.uses_eq S hm hne]; rfl
  · rw [M.visits_eq S hm hne, M.total_eq S hm hne]; rfl
  · rw [M.visits_eq S hm hne, M.total_eq S hm hne]
    simp only [newGo]
    split_ifs <;> rfl
  · rw [h3]
    exact filter_sum_eq_overSet S _ _ _ _ (fun w hw => M.lik_eq hm w (hne w hw)) (fun w hw => M.lik_eq hm w (hne w hw))

/-- The new standard deviation is not the one of the posterior distribution of the observations: its square is the
variance around the new mean *plus* the square of the distance between the two means. -/
theorem GoHMM.bw_step_sigma (processes : ℕ) (S : TSet (Fin d → ℝ)) (M M' : GoHMM n d) (ll : ℝ) (hM : M.Valid)
    (hne : ∀ w ∈ S.sequences, w ≠ []) (h : stepGoHMM processes S M = .ok (M', ll)) (s : Fin n) (i : Fin d)
    (hv : M.visits S s ≠ 0) :
    M'.sigma s i ^ 2 = M.total S (fun o => (o i - M'.mu s i) ^ 2) s / M.visits S s + (M'.mu s i - M.mu s i) ^ 2 := by
  obtain ⟨hi0, hi1, hm0, hm, hs⟩ := hM
  obtain ⟨h1, _, _, _⟩ := stepGo_ok _ _ _ _ hs _ h
  subst h1
  rw [M.visits_eq S hm hne] at hv ⊢
  rw [M.total_eq S hm hne]
  have e1 : (newGo M S).mu s i = numMuGo M S s i / denGo M S s := by simp only [newGo]; rw [if_neg hv]
  rw [e1, avGo_shift M S s i hv]
  have e2 : (newGo M S).sigma s i ^ 2 = numVaGo M S s i / denGo M S s := by
    simp only [newGo]
    rw [if_neg hv, Real.sq_sqrt (div_nonneg (numVaGo_nonneg M S hi0 hm0 s i) (denGo_nonneg M S hi0 hm0 s))]
  rw [e2]
  field_simp
  ring

/-- When an iteration succeeds, and what it raises otherwise. -/
theorem GoHMM.bw_step_outcome (processes : ℕ) (S : TSet (Fin d → ℝ)) (M : GoHMM n d) (hs : ∀ s i, 0 ≤ M.sigma s i)
    (hm : ∀ s, ∑ s', M.matrix s s' = 1)
    (hne : ∀ w ∈ S.sequences, w ≠ []) (hlen : S.times.length = S.sequences.length) :
    ((1 < processes ∧ ∃ w ∈ S.sequences, M.lik w ≠ 0) ∨ (processes ≤ 1 ∧ S.sequences ≠ [] ∧ ∀ w ∈ S.sequences, M.lik w ≠ 0) →
      ∃ r, stepGoHMM processes S M = .ok r) ∧
    ((1 < processes ∧ ∀ w ∈ S.sequences, M.lik w = 0) ∨ (processes ≤ 1 ∧ ∃ w ∈ S.sequences, M.lik w = 0) →
      stepGoHMM processes S M = .error .typeError) := by
  obtain ⟨a1, a2, a3⟩ := collect_outcome .typeError processes S hlen M.lik (fun p => processWorkGoHMM M p.1 p.2) (wkGo M)
    (fun x hx => by rw [processWorkGo_eq M hs, M.lik_eq hm _ (hne _ (List.of_mem_zip hx).1)]; rfl)
  constructor
  · intro h
    obtain ⟨r, hr⟩ := a1 h
    unfold stepGoHMM workGoHMM
    rw [hr]
    exact ⟨_, rfl⟩
  · rintro (h | h)
    · unfold stepGoHMM workGoHMM; rw [a2 h]; rfl
    · unfold stepGoHMM workGoHMM; rw [a3 h]; rfl

theorem GoHMM.lik_pos (M : GoHMM n d) (hM : M.Valid) (hs : ∀ s i, 0 < M.sigma s i) (w : List (Fin d → ℝ)) (hw : w ≠ []) :
    0 < M.lik w := by
  obtain ⟨hi0, hi1, hm0, hm, _⟩ := hM
  have hsuf : ∀ (w : List (Fin d → ℝ)) (s : Fin n), 0 < sufProb M.matrix M.emit s w := by
    intro w
    induction w with
    | nil => intro s; simp [sufProb]
    | cons o os ih =>
      intro s
      cases os with
      | nil => simpa [sufProb] using M.emit_pos s (hs s) o
      | cons o' os =>
        simp only [sufProb] at ih ⊢
        refine mul_pos (M.emit_pos s (hs s) o) ?_
        by_contra hcon
        have hz := (Finset.sum_eq_zero_iff_of_nonneg (fun s' _ => mul_nonneg (hm0 s s') (ih s').le)).mp
          (le_antisymm (not_lt.mp hcon) (Finset.sum_nonneg (fun s' _ => mul_nonneg (hm0 s s') (ih s').le)))
        have := hm s
        rw [Finset.sum_eq_zero (fun s' hs' => (mul_eq_zero.mp (hz s' hs')).resolve_right (ih s').ne')] at this
        exact zero_ne_one this
  cases w with
  | nil => exact absurd rfl hw
  | cons o os =>
    unfold lik
    rw [listProb_eq_sufProb]
    by_contra hcon
    have hz := (Finset.sum_eq_zero_iff_of_nonneg (fun s' _ => mul_nonneg (hi0 s') (hsuf (o :: os) s').le)).mp
      (le_antisymm (not_lt.mp hcon) (Finset.sum_nonneg (fun s' _ => mul_nonneg (hi0 s') (hsuf _ s').le)))
    rw [Finset.sum_eq_zero (fun s' hs' => (mul_eq_zero.mp (hz s' hs')).resolve_right (hsuf _ s').ne')] at hi1
    exact zero_ne_one hi1

/-- A training set for the example: `[0, 2]` once and `[3]` twice. -/
def exSetGo : TSet (Fin 1 → ℝ) := { sequences := [[fun _ => 0, fun _ => 2], [fun _ => 3]], times := [1, 2], floatTimes := false, type := some 3 }

/-- The hypotheses are met: an iteration on the example succeeds with any number of processes. -/
theorem exGo_step (p : ℕ) : exGo.Valid ∧ (∀ s i, 0 < exGo.sigma s i) ∧ (∀ w ∈ exSetGo.sequences, w ≠ []) ∧
    exSetGo.times.length = exSetGo.sequences.length ∧ (∀ t ∈ exSetGo.times, 1 ≤ t) ∧
    ∃ r, stepGoHMM p exSetGo exGo = .ok r := by
  have hne : ∀ w ∈ exSetGo.sequences, w ≠ [] := by simp [exSetGo]
  refine ⟨exGo_valid, exGo_sigma, hne, rfl, by simp [exSetGo], ?_⟩
  refine (exGo.bw_step_outcome p exSetGo (fun s i => (exGo_sigma s i).le) exGo_valid.2.2.2.1 hne rfl).1 ?_
  have hall : ∀ w ∈ exSetGo.sequences, exGo.lik w ≠ 0 := fun w hw => (exGo.lik_pos exGo_valid exGo_sigma w (hne w hw)).ne'
  by_cases hp : 1 < p
  · exact Or.inl ⟨hp, [fun _ => 3], by simp [exSetGo], hall _ (by simp [exSetGo])⟩
  · exact Or.inr ⟨by omega, by simp [exSetGo], hall⟩

/-! ### C33, C39: the result is a model -/

/-- C33 and C39, one iteration: the rows are distributions and the standard deviations are not negative. -/
theorem GoHMM.bw_step_valid (processes : ℕ) (S : TSet (Fin d → ℝ)) (M M' : GoHMM n d) (ll : ℝ)
    (hM : M.Valid) (ht : ∀ t ∈ S.times, 1 ≤ t) (h : stepGoHMM processes S M = .ok (M', ll)) : M'.Valid := by
  obtain ⟨hi0, hi1, hm0, hm1, hs⟩ := hM
  obtain ⟨h1, h2, _, _⟩ := stepGo_ok _ _ _ _ hs _ h
  subst h1
  have hn := numAGo_nonneg M S hi0 hm0
  have hI := initGo_nonneg M S hi0 hm0
  have hd := denGo_nonneg M S hi0 hm0
  have hIs : 0 < ∑ s, initGo M S s := by
    rw [sum_initGo]
    obtain ⟨x, hx⟩ := List.exists_mem_of_ne_nil _ h2
    refine sum_map_pos _ _ (fun _ _ => Nat.cast_nonneg _) x hx ?_
    have := ht x.2 (List.of_mem_zip (List.mem_filter.mp hx).1).2
    exact_mod_cast this
  refine ⟨fun s => div_nonneg (hI s) hIs.le, ?_, fun s s' => ?_, fun s => ?_, fun s i => Real.sqrt_nonneg _⟩
  · simp only [newGo]
    rw [← Finset.sum_div, div_self hIs.ne']
  · simp only [newGo]
    split_ifs
    · exact hm0 _ _
    · exact div_nonneg (hn _ _) (hd _)
  · simp only [newGo]
    split_ifs with h0
    · exact hm1 s
    · rw [← Finset.sum_div, sum_numAGo, div_self h0]

/-- C33 and C39: after any number of iterations the learned model is a Gaussian-observation hidden Markov model. -/
theorem GoHMM.fit_valid (processes : ℕ) (S : TSet (Fin d → ℝ)) (epsilon : ℝ) (maxIt : ℕ) (M : GoHMM n d)
    (hM : M.Valid) (ht : ∀ t ∈ S.times, 1 ≤ t)
    (st : LoopState (GoHMM n d)) (h : fit (stepGoHMM processes S) epsilon maxIt M = .ok st) : st.h.Valid :=
  loop_invariant _ _ (fun M' => M'.Valid) (fun _ _ _ hi hs => GoHMM.bw_step_valid _ _ _ _ _ hi ht hs) _ _ _ hM h

/-! ### C39: the means -/

/-- C39, one iteration: if all the observations have their `i`-th entry in `[lo, hi]`, the `i`-th mean of every state
that is visited is in `[lo, hi]`; the other states keep their means. -/
theorem GoHMM.bw_step_means (processes : ℕ) (S : TSet (Fin d → ℝ)) (M M' : GoHMM n d) (ll : ℝ) (hM : M.Valid)
    (hne : ∀ w ∈ S.sequences, w ≠ []) (h : stepGoHMM processes S M = .ok (M', ll))
    (i : Fin d) (lo hi : ℝ) (hobs : ∀ w ∈ S.sequences, ∀ o ∈ w, lo ≤ o i ∧ o i ≤ hi) (s : Fin n) :
    (M.visits S s = 0 → M'.mu s i = M.mu s i) ∧ (M.visits S s ≠ 0 → lo ≤ M'.mu s i ∧ M'.mu s i ≤ hi) := by
  obtain ⟨hi0, hi1, hm0, hm, hs⟩ := hM
  obtain ⟨h1, _, _, _⟩ := stepGo_ok _ _ _ _ hs _ h
  subst h1
  rw [M.visits_eq S hm hne]
  refine ⟨fun h0 => by simp only [newGo]; rw [if_pos h0], fun h0 => ?_⟩
  have hd : 0 < denGo M S s := lt_of_le_of_ne (denGo_nonneg M S hi0 hm0 s) (Ne.symm h0)
  have e : (newGo M S).mu s i = numMuGo M S s i / denGo M S s := by simp only [newGo]; rw [if_neg h0]
  rw [e, le_div_iff₀ hd, div_le_iff₀ hd]
  have k1 := avGo_nonneg M S hi0 hm0 s (fun o => o i + -lo) (fun w hw o ho => by have := (hobs w hw o ho).1; linarith)
  have k2 := avGo_nonneg M S hi0 hm0 s (fun o => -1 * o i + hi) (fun w hw o ho => by have := (hobs w hw o ho).2; linarith)
  rw [avGo_add M S s (fun o => o i) (fun _ => -lo), avGo_const] at k1
  rw [avGo_add M S s (fun o => -1 * o i) (fun _ => hi), avGo_smul M S s (-1) (fun o => o i), avGo_const] at k2
  have e2 : avGo M S s (fun o => o i) = numMuGo M S s i := rfl
  rw [e2] at k1 k2
  constructor <;> linarith

/-- C39: after any number of iterations every mean is either the initial one or in the range of the observations. -/
theorem GoHMM.fit_means (processes : ℕ) (S : TSet (Fin d → ℝ)) (epsilon : ℝ) (maxIt : ℕ) (M : GoHMM n d)
    (hM : M.Valid) (ht : ∀ t ∈ S.times, 1 ≤ t) (hne : ∀ w ∈ S.sequences, w ≠ [])
    (i : Fin d) (lo hi : ℝ) (hobs : ∀ w ∈ S.sequences, ∀ o ∈ w, lo ≤ o i ∧ o i ≤ hi) (s : Fin n)
    (st : LoopState (GoHMM n d)) (h : fit (stepGoHMM processes S) epsilon maxIt M = .ok st) :
    st.h.mu s i = M.mu s i ∨ (lo ≤ st.h.mu s i ∧ st.h.mu s i ≤ hi) := by
  refine (loop_invariant _ _ (fun M' => M'.Valid ∧ (M'.mu s i = M.mu s i ∨ (lo ≤ M'.mu s i ∧ M'.mu s i ≤ hi))) ?_ _ _ _
    ⟨hM, Or.inl rfl⟩ h).2
  rintro M1 M2 ll ⟨i1, i2⟩ hs
  refine ⟨M1.bw_step_valid _ _ _ _ i1 ht hs, ?_⟩
  obtain ⟨k1, k2⟩ := M1.bw_step_means _ _ _ _ i1 hne hs i lo hi hobs s
  by_cases h0 : M1.visits S s = 0
  · rw [k1 h0]; exact i2
  · exact Or.inr (k2 h0)

/-! ### C34: structure -/

/-- C34, one iteration: what has probability 0 keeps probability 0, and a standard deviation 0 stays 0. -/
theorem GoHMM.bw_step_zero (processes : ℕ) (S : TSet (Fin d → ℝ)) (M M' : GoHMM n d) (ll : ℝ) (hs : ∀ s i, 0 ≤ M.sigma s i)
    (h : stepGoHMM processes S M = .ok (M', ll)) :
    (∀ s s', M.matrix s s' = 0 → M'.matrix s s' = 0) ∧ (∀ s, M.initialState s = 0 → M'.initialState s = 0) ∧
    (∀ s i, M.sigma s i = 0 → M'.sigma s i = 0) := by
  obtain ⟨h1, _, _, _⟩ := stepGo_ok _ _ _ _ hs _ h
  subst h1
  refine ⟨fun s s' h0 => ?_, fun s h0 => ?_, fun s i h0 => ?_⟩
  · simp only [newGo]
    split_ifs
    · exact h0
    · rw [numAGo_zero M S s s' h0, zero_div]
  · simp only [newGo]
    rw [initGo_zero M S s h0, zero_div]
  · simp only [newGo]
    split_ifs
    · rw [h0, Real.sqrt_zero]
    · have hz : numVaGo M S s i = 0 := by
        unfold numVaGo
        rw [List.sum_eq_zero]
        intro a ha
        obtain ⟨x, _, rfl⟩ := List.mem_map.mp ha
        simp only [wkGo]
        rw [← sum_use]
        refine Finset.sum_eq_zero (fun ss _ => ?_)
        rw [use_congr M.step M.initialState (fun _ => 1) _ (fun _ => 0) _ _ s ss (fun o _ ho => ?_), use_const, zero_mul]
        have : o i = M.mu s i := by
          by_contra hne
          apply ho
          unfold step emit
          rw [Finset.prod_eq_zero (Finset.mem_univ i), zero_mul]
          unfold normalWeight
          rw [if_pos h0]
          simp [hne]
        rw [this]
        ring
      rw [hz, zero_div, Real.sqrt_zero]

/-- C34: after any number of iterations no transition and no initial state has appeared. -/
theorem GoHMM.fit_structure (processes : ℕ) (S : TSet (Fin d → ℝ)) (epsilon : ℝ) (maxIt : ℕ) (M : GoHMM n d)
    (hM : M.Valid) (ht : ∀ t ∈ S.times, 1 ≤ t)
    (st : LoopState (GoHMM n d)) (h : fit (stepGoHMM processes S) epsilon maxIt M = .ok st) :
    (∀ s s', M.matrix s s' = 0 → st.h.matrix s s' = 0) ∧ (∀ s, M.initialState s = 0 → st.h.initialState s = 0) ∧
    (∀ s i, M.sigma s i = 0 → st.h.sigma s i = 0) := by
  have h0 : M.Valid ∧ (∀ s s', M.matrix s s' = 0 → M.matrix s s' = 0) ∧
    (∀ s, M.initialState s = 0 → M.initialState s = 0) ∧ (∀ s i, M.sigma s i = 0 → M.sigma s i = 0) :=
    ⟨hM, fun _ _ h => h, fun _ h => h, fun _ _ h => h⟩
  refine (loop_invariant _ _ (fun M' => M'.Valid ∧ (∀ s s', M.matrix s s' = 0 → M'.matrix s s' = 0) ∧
    (∀ s, M.initialState s = 0 → M'.initialState s = 0) ∧ (∀ s i, M.sigma s i = 0 → M'.sigma s i = 0)) ?_ _ _ _
    h0 h).2
  rintro M1 M2 ll ⟨i1, i2, i3, i4⟩ hs
  obtain ⟨j2, j3, j4⟩ := M1.bw_step_zero _ _ _ _ i1.2.2.2.2 hs
  exact ⟨M1.bw_step_valid _ _ _ _ i1 ht hs, fun s s' h => j2 s s' (i2 s s' h), fun s h => j3 s (i3 s h),
    fun s i h => j4 s i (i4 s i h)⟩

/-- A state is visited by the training set if some path of positive weight of some trace leaves it. -/
def GoHMM.Visited (M : GoHMM n d) (S : TSet (Fin d → ℝ)) (s : Fin n) : Prop :=
  ∃ w ∈ S.sequences, ∃ p : Fin (w.length + 1) → Fin n, 0 < pathWeight M.initialState M.step (fun _ => 1) w p ∧
    ∃ k : Fin w.length, p k.castSucc = s

theorem GoHMM.visits_unvisited (M : GoHMM n d) (S : TSet (Fin d → ℝ)) (hM : M.Valid) (s : Fin n) (hv : ¬ M.Visited S s) :
    M.visits S s = 0 :=
  overSet_zero S _ _ (fun w hw => expVisits_zero _ _ _ _ _ _ hM.1 (M.step_nonneg hM.2.2.1)
    (fun _ => zero_le_one) (fun p hp k hk => hv ⟨w, hw, p, hp, k, hk⟩))

/-- C34, one iteration: a state that the training set does not visit keeps its row and its means. Missing: its standard
deviations should not change either, but they are replaced by their square roots. -/
theorem GoHMM.bw_step_unvisited_partial (processes : ℕ) (S : TSet (Fin d → ℝ)) (M M' : GoHMM n d) (ll : ℝ)
    (hM : M.Valid) (hne : ∀ w ∈ S.sequences, w ≠ []) (h : stepGoHMM processes S M = .ok (M', ll))
    (s : Fin n) (hv : ¬ M.Visited S s) : (∀ s', M'.matrix s s' = M.matrix s s') ∧ (∀ i, M'.mu s i = M.mu s i) ∧
    ∀ i, M'.sigma s i = Real.sqrt (M.sigma s i) := by
  obtain ⟨_, h2, h3, h4, _⟩ := M.bw_update_spec _ _ _ _ hM.2.2.2.2 hM.2.2.2.1 hne h
  have hz := M.visits_unvisited S hM s hv
  exact ⟨fun s' => by rw [h2, if_pos hz], fun i => by rw [h3, if_pos hz], fun i => by rw [h4, if_pos hz]⟩

/-- A model whose second state cannot be reached. -/
noncomputable def exGoUnreached : GoHMM 2 1 where
  matrix := ![![1, 0], ![0, 1]]
  mu := ![![0], ![5]]
  sigma := ![![1], ![1/4]]
  initialState := ![1, 0]

theorem exGoUnreached_valid : exGoUnreached.Valid ∧ ∀ s i, 0 < exGoUnreached.sigma s i := by
  refine ⟨⟨fun s => ?_, ?_, fun s s' => ?_, fun s => ?_, fun s i => ?_⟩, fun s i => ?_⟩
  · fin_cases s <;> simp [exGoUnreached]
  · simp [exGoUnreached]
  · fin_cases s <;> fin_cases s' <;> simp [exGoUnreached]
  · fin_cases s <;> simp [exGoUnreached, Fin.sum_univ_two]
  · fin_cases s <;> fin_cases i <;> simp [exGoUnreached]
  · fin_cases s <;> fin_cases i <;> simp [exGoUnreached]

theorem exGoUnreached_not_visited (S : TSet (Fin 1 → ℝ)) : ¬ exGoUnreached.Visited S 1 := by
  rintro ⟨w, _, p, hp, k, hk⟩
  have h0 : ∀ j : ℕ, (hj : j < w.length + 1) → p ⟨j, hj⟩ = 0 := by
    intro j
    induction j with
    | zero =>
      intro hj
      by_contra hne
      have h1 : p 0 = 1 := by
        have hx : p ⟨0, hj⟩ = p 0 := rfl
        rw [hx] at hne
        exact Fin.eq_one_of_ne_zero _ hne
      unfold pathWeight at hp
      rw [h1] at hp
      simp [exGoUnreached] at hp
    | succ j ih =>
      intro hj
      by_contra hne
      have h1 := Fin.eq_one_of_ne_zero _ hne
      have h2 := ih (by omega)
      unfold pathWeight at hp
      rw [Finset.prod_eq_zero (Finset.mem_univ (⟨j, by omega⟩ : Fin w.length))] at hp
      · simp at hp
      · have e1 : p (Fin.castSucc ⟨j, by omega⟩) = 0 := h2
        have e2 : p (Fin.succ ⟨j, by omega⟩) = 1 := h1
        rw [e1, e2]
        simp [GoHMM.step, exGoUnreached]
  have := h0 k.1 (by omega)
  have h1 : p k.castSucc = 0 := this
  rw [hk] at h1
  exact absurd h1 (by decide)

/-- C34 fails for Gaussian models: an iteration changes the standard deviation of a state that no trace can visit, here
from 1/4 to 1/2. -/
theorem GoHMM.unvisited_changed : ∃ M', (∃ ll, stepGoHMM 4 exSetGo exGoUnreached = .ok (M', ll)) ∧
    ¬ exGoUnreached.Visited exSetGo 1 ∧ exGoUnreached.sigma 1 0 = 1/4 ∧ M'.sigma 1 0 = 1/2 := by
  have hne : ∀ w ∈ exSetGo.sequences, w ≠ [] := by simp [exSetGo]
  obtain ⟨⟨M', ll⟩, hr⟩ := (exGoUnreached.bw_step_outcome 4 exSetGo exGoUnreached_valid.1.2.2.2.2
    exGoUnreached_valid.1.2.2.2.1 hne rfl).1 (Or.inl ⟨by norm_num, [fun _ => 3], by simp [exSetGo],
      (exGoUnreached.lik_pos exGoUnreached_valid.1 exGoUnreached_valid.2 _ (by simp)).ne'⟩)
  have hv := exGoUnreached_not_visited exSetGo
  refine ⟨M', ⟨ll, hr⟩, hv, by simp [exGoUnreached], ?_⟩
  rw [(exGoUnreached.bw_step_unvisited_partial _ _ _ _ exGoUnreached_valid.1 hne hr 1 hv).2.2 0]
  have e : exGoUnreached.sigma 1 0 = (1/2) ^ 2 := by simp [exGoUnreached]; norm_num
  rw [e, Real.sqrt_sq (by norm_num)]

/-! ### C39: the likelihood -/

/-- C39, one iteration: if no standard deviation is 0 before and after the iteration, the log-likelihood of the training
set does not decrease. Missing: the case where a standard deviation becomes 0 (see `GoHMM.likelihood_decreases`). -/
theorem GoHMM.bw_step_monotone_partial (processes : ℕ) (S : TSet (Fin d → ℝ)) (M M' : GoHMM n d) (ll : ℝ)
    (hM : M.Valid) (hs : ∀ s i, 0 < M.sigma s i) (hs' : ∀ s i, 0 < M'.sigma s i)
    (hne : ∀ w ∈ S.sequences, w ≠ []) (ht : ∀ t ∈ S.times, 1 ≤ t) (h : stepGoHMM processes S M = .ok (M', ll)) :
    avgLogLik M.lik S ≤ avgLogLik M'.lik S ∧ ll = S.times.sum * avgLogLik M.lik S := by
  have hM' := M.bw_step_valid processes S M' ll hM ht h
  obtain ⟨h1, h2, h3, _⟩ := stepGo_ok _ _ _ _ hM.2.2.2.2 _ h
  subst h1
  have hl := fun w => show 0 ≤ M.lik w by
    by_cases hw : w = []
    · subst hw; exact le_refl _
    · exact (M.lik_pos hM hs w hw).le
  have hl' := fun w => show 0 ≤ (newGo M S).lik w by
    by_cases hw : w = []
    · subst hw; exact le_refl _
    · exact ((newGo M S).lik_pos hM' hs' w hw).le
  obtain ⟨hpos, hg⟩ := newGo_gain M S hM.1 hM.2.1.le hM.2.2.1 (fun s => (hM.2.2.2.1 s).le) hs hs' ht
  have e1 := fun w hw => M.lik_eq hM.2.2.2.1 w (hne w hw)
  have e2 := fun w hw => (newGo M S).lik_eq hM'.2.2.2.1 w (hne w hw)
  have k1 := filter_sum_eq_overSet S (twGo M) (twGo M) M.lik M.lik e1 e1
  have k2 := filter_sum_eq_overSet S (twGo M) (twGo (newGo M S)) M.lik (newGo M S).lik e1 e2
  refine ⟨avgLogLik_mono S _ _ hl hl' (fun w hw => ?_) ?_, ?_⟩
  · exact iff_of_true (M.lik_pos hM hs w (hne w hw)).ne' ((newGo M S).lik_pos hM' hs' w (hne w hw)).ne'
  · rw [← k1, ← k2]; exact hg
  · rw [h3, ← overSet_eq_avgLogLik S _ hl ht, ← k1]
    rfl

/-- C39: if the learned model has no standard deviation equal to 0, its log-likelihood is at least the one of the initial
model, whatever the number of iterations. -/
theorem GoHMM.fit_monotone_partial (processes : ℕ) (S : TSet (Fin d → ℝ)) (epsilon : ℝ) (maxIt : ℕ) (M : GoHMM n d)
    (hM : M.Valid) (hne : ∀ w ∈ S.sequences, w ≠ []) (ht : ∀ t ∈ S.times, 1 ≤ t)
    (st : LoopState (GoHMM n d)) (h : fit (stepGoHMM processes S) epsilon maxIt M = .ok st)
    (hs : ∀ s i, 0 < st.h.sigma s i) : avgLogLik M.lik S ≤ avgLogLik st.h.lik S := by
  have h0 : M.Valid ∧ ((∀ s i, 0 < M.sigma s i) → (∀ s i, 0 < M.sigma s i) ∧ avgLogLik M.lik S ≤ avgLogLik M.lik S) :=
    ⟨hM, fun h => ⟨h, le_refl _⟩⟩
  refine ((loop_invariant _ _ (fun M' => M'.Valid ∧ ((∀ s i, 0 < M'.sigma s i) →
    (∀ s i, 0 < M.sigma s i) ∧ avgLogLik M.lik S ≤ avgLogLik M'.lik S)) ?_ _ _ _ h0 h).2 hs).2
  rintro M1 M2 ll ⟨i1, i2⟩ hst
  refine ⟨M1.bw_step_valid _ _ _ _ i1 ht hst, fun h2 => ?_⟩
  have h1 : ∀ s i, 0 < M1.sigma s i := fun s i => by
    rcases (i1.2.2.2.2 s i).eq_or_lt with h | h
    · have := (M1.bw_step_zero _ _ _ _ i1.2.2.2.2 hst).2.2 s i h.symm
      exact absurd this (h2 s i).ne'
    · exact h
  exact ⟨(i2 h1).1, (i2 h1).2.trans (M1.bw_step_monotone_partial _ _ _ _ i1 h1 h2 hne ht hst).1⟩

/-- When the new standard deviation is positive: as soon as some path observes in `s` something else than the mean. -/
theorem GoHMM.bw_step_sigma_pos (processes : ℕ) (S : TSet (Fin d → ℝ)) (M M' : GoHMM n d) (ll : ℝ)
    (hM : M.Valid) (hs : ∀ s i, 0 < M.sigma s i) (hne : ∀ w ∈ S.sequences, w ≠ []) (ht : ∀ t ∈ S.times, 1 ≤ t)
    (hlen : S.times.length = S.sequences.length)
    (h : stepGoHMM processes S M = .ok (M', ll)) (s : Fin n) (i : Fin d)
    (hv : M.visits S s = 0 ∨ ∃ w ∈ S.sequences, ∃ p : Fin (w.length + 1) → Fin n,
      0 < pathWeight M.initialState M.step (fun _ => 1) w p ∧ ∃ k : Fin w.length, p k.castSucc = s ∧ w.get k i ≠ M.mu s i) :
    0 < M'.sigma s i := by
  obtain ⟨_, _, _, h4, _⟩ := M.bw_update_spec _ _ _ _ hM.2.2.2.2 hM.2.2.2.1 hne h
  rw [h4]
  split_ifs with h0
  · exact Real.sqrt_pos.mpr (hs s i)
  · obtain ⟨w, hw, p, hp, k, hk, hne'⟩ := hv.resolve_left h0
    have hd : 0 < M.visits S s := lt_of_le_of_ne (by
      rw [M.visits_eq S hM.2.2.2.1 hne]; exact denGo_nonneg M S hM.1 hM.2.2.1 s) (Ne.symm h0)
    refine Real.sqrt_pos.mpr (div_pos ?_ hd)
    obtain ⟨t, htm⟩ := mem_zip_of_mem S hlen w hw
    have hnn : ∀ x ∈ (S.sequences.zip S.times).filter (fun x => M.lik x.1 ≠ 0), 0 ≤ (x.2 : ℝ) *
        expVisits M.initialState M.step (fun _ => 1) (fun o => (o i - M.mu s i) ^ 2) x.1 s := by
      intro x _
      refine mul_nonneg (Nat.cast_nonneg _) (div_nonneg (Finset.sum_nonneg (fun p _ => mul_nonneg ?_
        (Finset.sum_nonneg (fun k _ => by split_ifs; exacts [sq_nonneg _, le_refl _])))) (twGo_nonneg M hM.1 hM.2.2.1 _))
      exact mul_nonneg (mul_nonneg (hM.1 _) (Finset.prod_nonneg (fun k _ => M.step_nonneg hM.2.2.1 _ _ _))) zero_le_one
    have hlw := M.lik_pos hM hs w (hne w hw)
    refine sum_map_pos _ _ hnn (w, t) (List.mem_filter.mpr ⟨htm, by simpa using hlw.ne'⟩) ?_
    have ht1 : (0:ℝ) < t := by exact_mod_cast ht t (List.of_mem_zip htm).2
    refine mul_pos ht1 (div_pos ?_ (by rw [← M.lik_eq hM.2.2.2.1 w (hne w hw)]; exact hlw))
    have hpw : ∀ p, 0 ≤ pathWeight M.initialState M.step (fun _ => 1) w p := fun p =>
      mul_nonneg (mul_nonneg (hM.1 _) (Finset.prod_nonneg (fun k _ => M.step_nonneg hM.2.2.1 _ _ _))) zero_le_one
    refine Finset.sum_pos' (fun p _ => mul_nonneg (hpw p) (Finset.sum_nonneg (fun k _ => by
      split_ifs; exacts [sq_nonneg _, le_refl _]))) ⟨p, Finset.mem_univ _, mul_pos hp ?_⟩
    refine Finset.sum_pos' (fun k _ => by split_ifs; exacts [sq_nonneg _, le_refl _]) ⟨k, Finset.mem_univ _, ?_⟩
    rw [if_pos hk]
    have : w.get k i - M.mu s i ≠ 0 := sub_ne_zero.mpr hne'
    positivity

/-- One state, one observation equal to the mean. -/
noncomputable def exGoPoint : GoHMM 1 1 where
  matrix := fun _ _ => 1
  mu := fun _ _ => 0
  sigma := fun _ _ => 1/10
  initialState := fun _ => 1

def exSetPoint : TSet (Fin 1 → ℝ) := { sequences := [[fun _ => 0]], times := [1], floatTimes := false, type := some 3 }

theorem exGoPoint_valid : exGoPoint.Valid := by
  refine ⟨fun _ => ?_, ?_, fun _ _ => ?_, fun _ => ?_, fun _ _ => ?_⟩ <;> simp [exGoPoint]

/-- C39 fails when the observations of a state are all equal to its mean: the standard deviation becomes 0, and the
log-likelihood decreases (from `log (10/√(2π))` to 0 on this example). -/
theorem GoHMM.likelihood_decreases : ∃ M' ll, stepGoHMM 1 exSetPoint exGoPoint = .ok (M', ll) ∧ M'.sigma 0 0 = 0 ∧
    avgLogLik M'.lik exSetPoint < avgLogLik exGoPoint.lik exSetPoint := by
  have hne : ∀ w ∈ exSetPoint.sequences, w ≠ [] := by simp [exSetPoint]
  have hs : ∀ s i, 0 < exGoPoint.sigma s i := fun _ _ => by simp [exGoPoint]
  have hv := exGoPoint_valid
  obtain ⟨⟨M', ll⟩, hr⟩ := (exGoPoint.bw_step_outcome 1 exSetPoint hv.2.2.2.2 hv.2.2.2.1 hne rfl).1
    (Or.inr ⟨le_refl _, by simp [exSetPoint], fun w hw => (exGoPoint.lik_pos hv hs w (hne w hw)).ne'⟩)
  have hM' := exGoPoint.bw_step_valid _ _ _ _ hv (by simp [exSetPoint]) hr
  have hz : exGoPoint.total exSetPoint (fun o => (o 0 - exGoPoint.mu 0 0) ^ 2) 0 = 0 := by
    refine overSet_zero _ _ _ (fun w hw => ?_)
    simp only [exSetPoint, List.mem_singleton] at hw
    subst hw
    unfold expVisits
    simp [exGoPoint]
  have hvis : exGoPoint.visits exSetPoint 0 ≠ 0 := by
    rw [exGoPoint.visits_eq _ hv.2.2.2.1 hne]
    intro h0
    have hsum := vis_sum exGoPoint.step exGoPoint.initialState (fun _ => 1) (fun _ => 1)
      (((1:ℕ):ℝ) / twGo exGoPoint [fun _ => 0]) [fun _ => 0]
    have hp : 0 < twGo exGoPoint [fun _ => 0] := by
      have := exGoPoint.lik_pos hv hs [fun _ => 0] (by simp)
      rwa [exGoPoint.lik_eq hv.2.2.2.1 _ (by simp)] at this
    rw [← totalWeight_eq] at hsum
    change _ = twGo exGoPoint [fun _ => 0] * _ * _ at hsum
    simp only [Fin.sum_univ_one, List.map_cons, List.map_nil, List.sum_cons, List.sum_nil, add_zero, mul_one, Nat.cast_one] at hsum
    rw [mul_one_div_cancel hp.ne'] at hsum
    have hden : denGo exGoPoint exSetPoint 0 = 1 := by
      unfold denGo possGo exSetPoint
      simp only [List.zip_cons_cons, List.zip_nil_right]
      rw [List.filter_cons_of_pos (by simpa using hp.ne')]
      simp only [List.filter_nil, List.map_cons, List.map_nil, List.sum_cons, List.sum_nil, add_zero, wkGo, Nat.cast_one]
      exact hsum
    rw [hden] at h0
    exact one_ne_zero h0
  obtain ⟨u1, u2, u3, u4, _⟩ := exGoPoint.bw_update_spec _ _ _ _ hv.2.2.2.2 hv.2.2.2.1 hne hr
  have hsig : M'.sigma 0 0 = 0 := by rw [u4, if_neg hvis, hz]; simp
  have hmu : M'.mu 0 0 = 0 := by
    have := ((exGoPoint.bw_step_means _ _ _ _ hv hne hr 0 0 0 (by simp [exSetPoint]) 0).2 hvis)
    linarith [this.1, this.2]
  have hinit : M'.initialState 0 = 1 := by simpa using hM'.2.1
  refine ⟨M', ll, hr, hsig, ?_⟩
  have l1 : M'.lik [fun _ => 0] = 1 := by
    unfold lik
    rw [listProb_eq_sufProb]
    simp [sufProb, hinit, emit, normalWeight, hsig, hmu]
  have l2 : 1 < exGoPoint.lik [fun _ => 0] := by
    unfold lik
    rw [listProb_eq_sufProb]
    simp only [Fin.sum_univ_one, sufProb, emit, Finset.prod_singleton, Fin.prod_univ_one]
    rw [normalWeight_formula _ _ _ (hs 0 0)]
    simp only [exGoPoint]
    have h5 : Real.sqrt (2 * Real.pi) < 10 := by
      rw [Real.sqrt_lt' (by norm_num)]
      have := Real.pi_le_four
      linarith
    have h6 : 0 < Real.sqrt (2 * Real.pi) := Real.sqrt_pos.mpr (by positivity)
    have e : (1:ℝ) * (Real.exp (-(0 - 0) ^ 2 / (2 * (1 / 10) ^ 2)) / (1 / 10 * Real.sqrt (2 * Real.pi)))
        = 10 / Real.sqrt (2 * Real.pi) := by
      simp
      ring
    rw [e, lt_div_iff₀ h6]
    linarith
  unfold avgLogLik
  simp only [exSetPoint, List.zip_cons_cons, List.zip_nil_right, List.sum_cons, List.sum_nil]
  rw [List.filter_cons_of_pos (by simp [l1]), List.filter_cons_of_pos (by simp only [decide_eq_true_eq]; linarith)]
  simp only [List.filter_nil, List.map_cons, List.map_nil, List.sum_cons, List.sum_nil, l1, Real.log_one]
  have := Real.log_pos l2
  simp
  exact this

/-- With positive standard deviations `fit` never fails as long as they stay positive: an iteration succeeds on every
set of non-empty traces. -/
theorem GoHMM.bw_step_total (processes : ℕ) (S : TSet (Fin d → ℝ)) (M : GoHMM n d) (hM : M.Valid)
    (hs : ∀ s i, 0 < M.sigma s i) (hne : ∀ w ∈ S.sequences, w ≠ []) (hlen : S.times.length = S.sequences.length)
    (hS : S.sequences ≠ []) : ∃ r, stepGoHMM processes S M = .ok r := by
  refine (M.bw_step_outcome processes S hM.2.2.2.2 hM.2.2.2.1 hne hlen).1 ?_
  by_cases hp : 1 < processes
  · obtain ⟨w, hw⟩ := List.exists_mem_of_ne_nil _ hS
    exact Or.inl ⟨hp, w, hw, (M.lik_pos hM hs w (hne w hw)).ne'⟩
  · exact Or.inr ⟨by omega, hS, fun w hw => (M.lik_pos hM hs w (hne w hw)).ne'⟩

/-! ### C42: order and processes -/

/-- C42, order and multiplicities: two training sets in which every trace has the same multiplicity give the same
result. -/
theorem GoHMM.bw_step_mult (processes : ℕ) (S1 S2 : TSet (Fin d → ℝ)) (M : GoHMM n d) (hs : ∀ s i, 0 ≤ M.sigma s i)
    (hm : ∀ s, ∑ s', M.matrix s s' = 1)
    (hne1 : ∀ w ∈ S1.sequences, w ≠ []) (hne2 : ∀ w ∈ S2.sequences, w ≠ [])
    (hl1 : S1.times.length = S1.sequences.length) (hl2 : S2.times.length = S2.sequences.length)
    (ht1 : ∀ t ∈ S1.times, 1 ≤ t) (ht2 : ∀ t ∈ S2.times, 1 ≤ t) (hmult : ∀ w, S1.mult w = S2.mult w) :
    stepGoHMM processes S1 M = stepGoHMM processes S2 M := by
  have hmem := mem_iff_of_mult S1 S2 hl1 hl2 ht1 ht2 hmult
  have hc := collect_mult .typeError processes S1 S2 hl1 hl2 hmem M.lik
    (fun p => processWorkGoHMM M p.1 p.2) (wkGo M) (fun p => processWorkGoHMM M p.1 p.2) (wkGo M)
    (fun x hx => by rw [processWorkGo_eq M hs, M.lik_eq hm _ (hne1 _ (List.of_mem_zip hx).1)]; rfl)
    (fun x hx => by rw [processWorkGo_eq M hs, M.lik_eq hm _ (hne2 _ (List.of_mem_zip hx).1)]; rfl)
  rcases hc with ⟨r1, r2, k1, k2⟩ | ⟨e, k1, k2⟩
  · have h1 : ∃ r, stepGoHMM processes S1 M = .ok r := by unfold stepGoHMM workGoHMM; rw [k1]; exact ⟨_, rfl⟩
    have h2 : ∃ r, stepGoHMM processes S2 M = .ok r := by unfold stepGoHMM workGoHMM; rw [k2]; exact ⟨_, rfl⟩
    obtain ⟨⟨M1, l1⟩, h1⟩ := h1
    obtain ⟨⟨M2, l2⟩, h2⟩ := h2
    obtain ⟨_, _, _, _, c4⟩ := M.bw_update_spec _ _ _ _ hs hm hne1 h1
    obtain ⟨_, _, _, _, d4⟩ := M.bw_update_spec _ _ _ _ hs hm hne2 h2
    obtain ⟨c1, _, _, _⟩ := stepGo_ok _ _ _ _ hs _ h1
    obtain ⟨d1, _, _, _⟩ := stepGo_ok _ _ _ _ hs _ h2
    have f0 : ∀ φ s, avGo M S1 s φ = avGo M S2 s φ := by
      intro φ s; rw [← M.total_eq S1 hm hne1, ← M.total_eq S2 hm hne2]; exact overSet_mult S1 S2 hl1 hl2 hmult _ _
    have f1 : denGo M S1 = denGo M S2 := funext (fun s => f0 (fun _ => 1) s)
    have f2 : numAGo M S1 = numAGo M S2 := by
      funext s ss; rw [← M.uses_eq S1 hm hne1, ← M.uses_eq S2 hm hne2]; exact overSet_mult S1 S2 hl1 hl2 hmult _ _
    have f3 : numMuGo M S1 = numMuGo M S2 := funext (fun s => funext (fun i => f0 (fun o => o i) s))
    have f5 : numVaGo M S1 = numVaGo M S2 := funext (fun s => funext (fun i => f0 (fun o => (o i - M.mu s i) ^ 2) s))
    have f4 : initGo M S1 = initGo M S2 := by
      funext s; rw [← M.starts_eq S1 hm hne1, ← M.starts_eq S2 hm hne2]; exact overSet_mult S1 S2 hl1 hl2 hmult _ _
    have hM : newGo M S1 = newGo M S2 := by unfold newGo; rw [f1, f2, f3, f4, f5]
    rw [h1, h2, c1, d1, hM, c4, d4, overSet_mult S1 S2 hl1 hl2 hmult]
  · unfold stepGoHMM workGoHMM
    rw [k1, k2]

/-- C42, number of processes: the result is the same when every trace is possible, or for any two numbers of processes
greater than 1. -/
theorem GoHMM.bw_step_processes (p q : ℕ) (S : TSet (Fin d → ℝ)) (M : GoHMM n d) (hs : ∀ s i, 0 ≤ M.sigma s i)
    (hm : ∀ s, ∑ s', M.matrix s s' = 1) (hne : ∀ w ∈ S.sequences, w ≠ [])
    (hposs : (∀ w ∈ S.sequences, M.lik w ≠ 0) ∨ (1 < p ∧ 1 < q)) : stepGoHMM p S M = stepGoHMM q S M := by
  unfold stepGoHMM workGoHMM
  rw [collect_processes .typeError p q]
  rcases hposs with hposs | hposs
  · left
    intro x hx
    obtain ⟨y, hy, rfl⟩ := List.mem_map.mp hx
    have hy1 := (List.of_mem_zip hy).1
    rw [processWorkGo_eq M hs, if_neg]
    · simp
    · have := hposs _ hy1
      rwa [M.lik_eq hm _ (hne _ hy1)] at this
  · exact Or.inr hposs

end gohmm
end Jajapy
