import Mathlib.Tactic.NormNum
import Verif.Lemmas.BWSet
import Verif.Lemmas.Loop
import Verif.Props.Likelihood

/-!
Properties C32-C36, C42, C58 of the Baum-Welch learner on Markov chains and hidden Markov models.
-/

set_option linter.unusedSectionVars false

namespace Jajapy

open Finset Spec BW

/-- A training set used in the examples: one possible trace of `exMC` seen twice, another one, and an impossible one. -/
def exSet : TSet ℕ := { sequences := [[2, 0, 1], [2, 0, 0], [2, 1]], times := [2, 1, 3], floatTimes := false, type := some 0 }

/-- The part of `exSet` that `exMC` can generate. -/
def exSetPoss : TSet ℕ := { sequences := [[2, 0, 1], [2, 0, 0]], times := [2, 1], floatTimes := false, type := some 0 }

/-- A training set for `exHMM`. -/
def exSetHMM : TSet ℕ := { sequences := [[7, 8, 7], [8, 8]], times := [2, 1], floatTimes := false, type := some 0 }

/-! ### C32: forward and backward tables -/

section tables
variable {K O : Type} [Field K] {n : ℕ}

/-- C32: at every position the products of the two tables are the weights of the paths through each state, and they sum
to the weight of all the paths. -/
theorem forward_backward (tau : Fin n → Fin n → O → K) (init f : Fin n → K) (w : List O) (k : Fin (w.length + 1))
    (a b : Fin n → K) (ha : (alphas tau init w)[k.val]? = some a) (hb : (betas tau f w)[k.val]? = some b) :
    (∀ s, a s * b s = weightAt init tau f w k s) ∧ ∑ s, a s * b s = totalWeight init tau f w :=
  ⟨fun s => weightAt_eq tau f init w k s a b ha hb, by rw [row_sum tau init f w k a b ha hb, totalWeight_eq]⟩

/-- The tables have a row for every position. -/
theorem tables_length (tau : Fin n → Fin n → O → K) (init f : Fin n → K) (w : List O) :
    (alphas tau init w).length = w.length + 1 ∧ (betas tau f w).length = w.length + 1 :=
  ⟨alphas_length tau init w, betas_length tau f w⟩

/-- The occupancies of the states at a position sum to 1. -/
theorem occupancy_sum (tau : Fin n → Fin n → O → K) (init f : Fin n → K) (w : List O) (k : Fin (w.length + 1))
    (h : totalWeight init tau f w ≠ 0) :
    ∑ s, weightAt init tau f w k s / totalWeight init tau f w = 1 := by
  have ha : k.val < (alphas tau init w).length := by rw [alphas_length]; exact k.isLt
  have hb : k.val < (betas tau f w).length := by rw [betas_length]; exact k.isLt
  obtain ⟨h1, h2⟩ := forward_backward tau init f w k _ _ (List.getElem?_eq_getElem ha) (List.getElem?_eq_getElem hb)
  rw [← Finset.sum_div, ← Finset.sum_congr rfl (fun s _ => h1 s), h2, div_self h]

/-- Expected transition counts out of a state add up to its expected occupancy. -/
theorem uses_sum (tau : Fin n → Fin n → O → K) (init f : Fin n → K) (w : List O) (s : Fin n) :
    ∑ ss, expUses init tau f (fun _ => 1) w s ss = expVisits init tau f (fun _ => 1) w s :=
  (expVisits_eq_sum tau f init (fun _ => 1) w s).symm

end tables

/-- C32, Markov chains: what a worker returns for a trace are the likelihood and the expected counts of the trace, and
nothing if the trace is impossible. -/
theorem MC.processWork_spec {K L : Type} [Field K] [DecidableEq K] [DecidableEq L] {n : ℕ} (M : MC K L n)
    (hm : ∀ s, ∑ s', M.matrix s s' = 1) (w : List L) (hw : w ≠ []) (t : ℕ) :
    processWorkMC M w t = if M.lik w = 0 then none else some {
      den := fun s => t * expVisits M.initialState M.step (fun _ => 1) (fun _ => 1) w s
      num := fun s ss => t * expUses M.initialState M.step (fun _ => 1) (fun _ => 1) w s ss
      proba := M.lik w
      times := t } := by
  rw [processWorkMC_eq M (w, t), M.lik_eq hm w hw]
  simp only [wkMC]
  congr 2
  congr 1
  · funext s; exact expVisits_eq _ _ _ _ _ _ _ (totalWeight_eq _ _ _ _) _
  · funext s ss; exact expUses_eq _ _ _ _ _ _ _ _ (totalWeight_eq _ _ _ _) _

example : (∀ s, ∑ s', (exMC ℚ).matrix s s' = 1) ∧ (exMC ℚ).lik [2, 0, 1] = 1/2 ∧
    ((processWorkMC (exMC ℚ) [2, 0, 1] 2).map (fun r => (r.den 0, r.num 0 1, r.proba))) = some (2, 2, 1/2) := by
  decide +kernel

/-- C32, hidden Markov models. -/
theorem HMM.processWork_spec {K O : Type} [Field K] [DecidableEq K] [DecidableEq O] {n : ℕ} (M : HMM K O n)
    (hn : M.alphabet.Nodup) (hm : ∀ s, ∑ s', M.matrix s s' = 1) (w : List O) (hw : w ≠ []) (t : ℕ) :
    processWorkHMM M w t = if M.lik w = 0 then none else some {
      den := fun s => t * expVisits M.initialState M.step (fun _ => 1) (fun _ => 1) w s
      numA := fun s ss => t * expUses M.initialState M.step (fun _ => 1) (fun _ => 1) w s ss
      numB := fun s i => t * expVisits M.initialState M.step (fun _ => 1) (fun o => if o = M.alphabet[i] then 1 else 0) w s
      proba := M.lik w
      times := t
      numInit := fun s => t * expStart M.initialState M.step (fun _ => 1) w s } := by
  rw [processWorkHMM_eq M hn (w, t), M.lik_eq hm w hw]
  simp only [wkHMM]
  congr 2
  congr 1
  · funext s; exact expVisits_eq _ _ _ _ _ _ _ (totalWeight_eq _ _ _ _) _
  · funext s ss; exact expUses_eq _ _ _ _ _ _ _ _ (totalWeight_eq _ _ _ _) _
  · funext s i; exact expVisits_eq _ _ _ _ _ _ _ (totalWeight_eq _ _ _ _) _
  · funext s; exact expStart_eq _ _ _ _ _ _ (totalWeight_eq _ _ _ _) _

example : (exHMM ℚ).alphabet.Nodup ∧ (∀ s, ∑ s', (exHMM ℚ).matrix s s' = 1) ∧
    ((processWorkHMM (exHMM ℚ) [7, 8, 7] 2).map (fun r => r.proba)) = some ((exHMM ℚ).lik [7, 8, 7]) ∧
    (exHMM ℚ).lik [7, 8, 7] ≠ 0 := by
  decide +kernel

/-! ### C58: an iteration computes expected frequencies -/

section steps
variable {L : Type} [DecidableEq L] {n : ℕ}

/-- The expected number of times the chain leaves `s`, over the training set. -/
noncomputable def MC.visits (M : MC ℝ L n) (S : TSet L) (s : Fin n) : ℝ :=
  overSet S M.lik (fun w => expVisits M.initialState M.step (fun _ => 1) (fun _ => 1) w s)

/-- The expected number of transitions from `s` to `ss`, over the training set. -/
noncomputable def MC.uses (M : MC ℝ L n) (S : TSet L) (s ss : Fin n) : ℝ :=
  overSet S M.lik (fun w => expUses M.initialState M.step (fun _ => 1) (fun _ => 1) w s ss)

theorem MC.visits_eq (M : MC ℝ L n) (S : TSet L) (hm : ∀ s, ∑ s', M.matrix s s' = 1) (hne : ∀ w ∈ S.sequences, w ≠ [])
    (s : Fin n) : M.visits S s = denMC M S s := by
  rw [denMC_eq]
  exact overSet_congr S _ _ _ _ (fun w hw => M.lik_eq hm w (hne w hw)) (fun _ _ _ => rfl)

theorem MC.uses_eq (M : MC ℝ L n) (S : TSet L) (hm : ∀ s, ∑ s', M.matrix s s' = 1) (hne : ∀ w ∈ S.sequences, w ≠ [])
    (s ss : Fin n) : M.uses S s ss = numMC M S s ss := by
  rw [numMC_eq]
  exact overSet_congr S _ _ _ _ (fun w hw => M.lik_eq hm w (hne w hw)) (fun _ _ _ => rfl)

theorem MC.stepMC_ll (M : MC ℝ L n) (S : TSet L) (hm : ∀ s, ∑ s', M.matrix s s' = 1) (hne : ∀ w ∈ S.sequences, w ≠ []) :
    ((possMC M S).map (fun x => Real.log (totalWeight M.initialState M.step (fun _ => 1) x.1) * x.2)).sum
      = overSet S M.lik (fun w => Real.log (M.lik w)) := by
  rw [overSet_congr S M.lik (totalWeight M.initialState M.step (fun _ => 1)) _
    (fun w => Real.log (totalWeight M.initialState M.step (fun _ => 1) w)) (fun w hw => M.lik_eq hm w (hne w hw))
    (fun w hw _ => by rw [M.lik_eq hm w (hne w hw)])]
  unfold possMC overSet
  congr 1
  exact List.map_congr_left (fun x _ => mul_comm _ _)

/-- C58, Markov chains: one iteration replaces every transition probability by the expected number of uses of the
transition divided by the expected number of visits of its source, keeps the rows of the states that are never visited,
and reports the log-likelihood of the training set. -/
theorem MC.bw_update_spec (processes : ℕ) (S : TSet L) (M M' : MC ℝ L n) (ll : ℝ) (hm : ∀ s, ∑ s', M.matrix s s' = 1)
    (hne : ∀ w ∈ S.sequences, w ≠ []) (h : stepMC processes S M = .ok (M', ll)) :
    M'.labelling = M.labelling ∧ M'.initialState = M.initialState ∧
    (∀ s ss, M'.matrix s ss = if M.visits S s = 0 then M.matrix s ss else M.uses S s ss / M.visits S s) ∧
    ll = overSet S M.lik (fun w => Real.log (M.lik w)) := by
  obtain ⟨h1, _, h3, _⟩ := stepMC_ok _ _ _ _ _ h
  subst h1
  refine ⟨rfl, rfl, fun s ss => ?_, ?_⟩
  · rw [M.visits_eq S hm hne, M.uses_eq S hm hne]; rfl
  · rw [h3, M.stepMC_ll S hm hne]

theorem mem_possMC (M : MC ℝ L n) (S : TSet L) (x : List L × ℕ) :
    x ∈ possMC M S ↔ x ∈ S.sequences.zip S.times ∧ totalWeight M.initialState M.step (fun _ => 1) x.1 ≠ 0 := by
  unfold possMC
  simp [List.mem_filter]

/-- When an iteration succeeds: with several processes, when some trace is possible; with one process, only when all
the traces are possible. Otherwise it raises TypeError. -/
theorem MC.bw_step_outcome (processes : ℕ) (S : TSet L) (M : MC ℝ L n) (hm : ∀ s, ∑ s', M.matrix s s' = 1)
    (hne : ∀ w ∈ S.sequences, w ≠ []) (hlen : S.times.length = S.sequences.length) :
    ((1 < processes ∧ ∃ w ∈ S.sequences, M.lik w ≠ 0) ∨ (processes ≤ 1 ∧ S.sequences ≠ [] ∧ ∀ w ∈ S.sequences, M.lik w ≠ 0) →
      ∃ r, stepMC processes S M = .ok r) ∧
    ((1 < processes ∧ ∀ w ∈ S.sequences, M.lik w = 0) ∨ (processes ≤ 1 ∧ ∃ w ∈ S.sequences, M.lik w = 0) →
      stepMC processes S M = .error .typeError) := by
  have e : (S.sequences.zip S.times).map (fun p => processWorkMC M p.1 p.2)
      = (S.sequences.zip S.times).map (fun x => if totalWeight M.initialState M.step (fun _ => 1) x.1 = 0 then none else some (wkMC M x)) :=
    List.map_congr_left (fun x _ => processWorkMC_eq M x)
  have hzip : ∀ w ∈ S.sequences, ∃ t, (w, t) ∈ S.sequences.zip S.times := by
    intro w hw
    obtain ⟨i, hi, rfl⟩ := List.mem_iff_getElem.mp hw
    refine ⟨S.times[i]'(by omega), ?_⟩
    rw [List.mem_iff_getElem]
    exact ⟨i, by simp; omega, by simp⟩
  constructor
  · rintro (⟨hp, w, hw, hl⟩ | ⟨hp, h0, hl⟩)
    · obtain ⟨t, ht⟩ := hzip w hw
      have hne' : ((S.sequences.zip S.times).map (fun p => processWorkMC M p.1 p.2)).filterMap id ≠ [] := by
        rw [e, filterMap_ite]
        intro hcon
        have : (w, t) ∈ (S.sequences.zip S.times).filter (fun x => ¬ totalWeight M.initialState M.step (fun _ => 1) x.1 = 0) :=
          List.mem_filter.mpr ⟨ht, by simpa [← M.lik_eq hm w (hne w hw)] using hl⟩
        rw [List.map_eq_nil_iff] at hcon
        rw [hcon] at this
        simp at this
      unfold stepMC workMC
      rw [collect_many _ _ hp _ hne']
      exact ⟨_, rfl⟩
    · unfold stepMC workMC
      rw [collect_one _ _ hp]
      · exact ⟨_, rfl⟩
      · intro hcon
        rw [List.map_eq_nil_iff] at hcon
        obtain ⟨w, hw⟩ := List.exists_mem_of_ne_nil _ h0
        obtain ⟨t, ht⟩ := hzip w hw
        rw [hcon] at ht
        simp at ht
      · intro x hx
        rw [e] at hx
        obtain ⟨y, hy, rfl⟩ := List.mem_map.mp hx
        have hy1 := (List.of_mem_zip hy).1
        rw [if_neg]
        · simp
        · rw [← M.lik_eq hm _ (hne _ hy1)]; exact hl _ hy1
  · rintro (⟨hp, hl⟩ | ⟨hp, w, hw, hl⟩)
    · unfold stepMC workMC
      have : ((S.sequences.zip S.times).map (fun p => processWorkMC M p.1 p.2)).filterMap id = [] := by
        rw [e, filterMap_ite, List.map_eq_nil_iff, List.filter_eq_nil_iff]
        intro x hx
        have hx1 := (List.of_mem_zip hx).1
        simp only [decide_not, Bool.not_eq_true', decide_eq_false_iff_not, not_not]
        rw [← M.lik_eq hm _ (hne _ hx1)]; exact hl _ hx1
      unfold collect
      rw [if_pos hp, this]
      rfl
    · unfold stepMC workMC
      obtain ⟨t, ht⟩ := hzip w hw
      unfold collect
      rw [if_neg (by omega), if_pos]
      · rfl
      · rw [List.any_eq_true]
        refine ⟨none, ?_, rfl⟩
        rw [e]
        refine List.mem_map.mpr ⟨(w, t), ht, ?_⟩
        rw [if_pos]
        rw [← M.lik_eq hm _ (hne _ hw)]; exact hl

theorem exMC_stochastic : (exMC ℝ).Stochastic := by
  refine ⟨fun s => ?_, ?_, fun s s' => ?_, fun s => ?_⟩
  · fin_cases s <;> simp [exMC]
  · simp [exMC, Fin.sum_univ_three]
  · fin_cases s <;> fin_cases s' <;> simp [exMC]
  · fin_cases s <;> simp [exMC, Fin.sum_univ_three] <;> norm_num

theorem exMC_lik : (exMC ℝ).lik [2, 0, 1] = 1/2 ∧ (exMC ℝ).lik [2, 0, 0] = 1/2 ∧ (exMC ℝ).lik [2, 1] = 0 := by
  refine ⟨?_, ?_, ?_⟩ <;>
  · rw [(exMC ℝ).lik_eq exMC_stochastic.2.2.2 _ (by simp), totalWeight_eq]
    simp [beta0, betas, bwd, exMC, MC.step, Fin.sum_univ_three]
    try norm_num

/-- With two or more processes, an iteration on `exMC` and `exSet` succeeds. -/
example : (∀ w ∈ exSet.sequences, w ≠ []) ∧ exSet.times.length = exSet.sequences.length ∧
    ∃ r, stepMC 2 exSet (exMC ℝ) = .ok r := by
  refine ⟨by decide, by decide, ((exMC ℝ).bw_step_outcome 2 exSet exMC_stochastic.2.2.2 (by decide) (by decide)).1
    (Or.inl ⟨by norm_num, [2, 0, 1], by decide, ?_⟩)⟩
  rw [exMC_lik.1]; norm_num

end steps
end Jajapy
