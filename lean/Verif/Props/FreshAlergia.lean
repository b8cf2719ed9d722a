import Verif.Props.Fresh
import Verif.Props.AlergiaError

/-!
Property C121: the parameter `alpha` of Alergia chosen on a test set that is generated after the training set.
-/

set_option autoImplicit false
set_option linter.unusedSectionVars false

namespace Jajapy

open MeasureTheory ProbabilityTheory Spec Tools BW Alergia

variable {n : ℕ}

/-- The likelihoods of a chain whose rows are distributions or zero are between 0 and 1. -/
theorem MC.lik_mem_unit_of_rows {m : ℕ} (M : MC ℝ String m) (hi : ∀ s, 0 ≤ M.initialState s) (hi1 : ∑ s, M.initialState s = 1) (h0 : ∀ i j, 0 ≤ M.matrix i j)
    (h1 : ∀ i, ∑ j, M.matrix i j = 1 ∨ ∀ j, M.matrix i j = 0) (w : List String) : 0 ≤ M.lik w ∧ M.lik w ≤ 1 := by
  classical
  let C : MC ℝ String m := { M with matrix := fun i j => if ∀ j, M.matrix i j = 0 then (if j = i then 1 else 0) else M.matrix i j }
  have hle : ∀ i j, M.matrix i j ≤ C.matrix i j := by
    intro i j
    by_cases h : ∀ j, M.matrix i j = 0
    · simp only [C, if_pos h, h j]
      split_ifs <;> norm_num
    · simp only [C, if_neg h, le_refl]
  have hC : C.Stochastic := by
    refine ⟨hi, hi1, fun i j => (h0 i j).trans (hle i j), fun i => ?_⟩
    by_cases h : ∀ j, M.matrix i j = 0
    · simp only [C, if_pos h, Finset.sum_ite_eq', Finset.mem_univ, if_true]
    · simp only [C, if_neg h]
      exact (h1 i).resolve_right h
  have key : 0 ≤ M.lik w ∧ M.lik w ≤ C.lik w := by
    cases w with
    | nil => exact ⟨le_refl _, le_refl _⟩
    | cons o os =>
      constructor
      · refine Finset.sum_nonneg (fun p _ => mul_nonneg (mul_nonneg (hi _) (Finset.prod_nonneg (fun _ _ => h0 _ _))) (Finset.prod_nonneg (fun _ _ => ?_)))
        beta_reduce
        split_ifs <;> norm_num
      · refine Finset.sum_le_sum (fun p _ => ?_)
        refine mul_le_mul_of_nonneg_right (mul_le_mul_of_nonneg_left (Finset.prod_le_prod (fun _ _ => h0 _ _) (fun _ _ => hle _ _)) (hi _))
          (Finset.prod_nonneg (fun _ _ => ?_))
        beta_reduce
        split_ifs <;> norm_num
  exact ⟨key.1, key.2.trans (C.lik_le_one hC w)⟩

/-- A possible trace starts with the label of a possible initial state. -/
theorem MC.head_of_possible {L : Type} [DecidableEq L] (M : MC ℝ L n) (w : List L) (hw : 0 < M.lik w) : ∃ s, M.initialState s ≠ 0 ∧ w.head? = some (M.labelling s) := by
  cases w with
  | nil => exact absurd hw (lt_irrefl _)
  | cons o os =>
    obtain ⟨p, -, hp⟩ := Finset.exists_ne_zero_of_sum_ne_zero (ne_of_gt hw)
    refine ⟨p 0, fun h => hp (by rw [h, zero_mul, zero_mul]), ?_⟩
    have hb := Finset.prod_ne_zero_iff.1 (right_ne_zero_of_mul hp) 0 (Finset.mem_univ _)
    have : M.labelling (p 0) = o := by
      by_contra hc
      exact hb (if_neg hc)
    rw [this]
    rfl

theorem MC.labels_of_possible {L : Type} [DecidableEq L] (M : MC ℝ L n) (w : List L) (hw : 0 < M.lik w) : ∀ o ∈ w, ∃ s, M.labelling s = o := by
  cases w with
  | nil => intro o ho; cases ho
  | cons o os =>
    obtain ⟨p, -, hp⟩ := Finset.exists_ne_zero_of_sum_ne_zero (ne_of_gt hw)
    intro x hx
    obtain ⟨k, hk, rfl⟩ := List.mem_iff_getElem.1 hx
    have hb := Finset.prod_ne_zero_iff.1 (right_ne_zero_of_mul hp) ⟨k, hk⟩ (Finset.mem_univ _)
    refine ⟨p ⟨k, hk⟩, ?_⟩
    by_contra hc
    exact hb (if_neg hc)

namespace MC

/-- What Alergia learns from the traces of a chain that starts in 'init'. -/
theorem alergia_learns (G : MC ℝ String n) (hstart : ∀ s, G.initialState s ≠ 0 → G.labelling s = "init") (hlab : ∀ s, G.labelling s ≠ "")
    (S : TSet String) (hS : S.Countable) (hp : ∀ w ∈ S.sequences, 0 < G.lik w)
    (α : ℝ) (h0 : 0 < α) (h2 : α ≤ 2) :
    ∃ (states : List ℕ) (M' : MC ℝ String states.length), Alergia.fit ℝ (hoeffding α) S = .ok (some ⟨states, M'⟩) ∧
      (∀ w, 0 ≤ M'.lik w ∧ M'.lik w ≤ 1) ∧ ∀ w ∈ S.sequences, 0 < M'.lik w := by
  have hhead : ∀ w ∈ S.sequences, w.head? = some "init" := by
    intro w hw
    obtain ⟨s, h1, h2⟩ := G.head_of_possible w (hp w hw)
    rw [h2, hstart s h1]
  have hne : ¬ Labels S "" := by
    rintro ⟨w, hw, ho⟩
    obtain ⟨s, hs⟩ := G.labels_of_possible w (hp w hw) _ ho
    exact hlab s hs
  obtain ⟨states, M', e1, e2, e3, e4⟩ := fit_generates_hoeffding_partial S hS hne (Or.inr hhead) α h0 h2
  refine ⟨states, M', e1, ?_, fun w hw => ?_⟩
  · rcases fit_wellFormed (K := ℝ) S hS.1 _ (hoeffding_total α h0 h2) with h | ⟨states', M'', f1, -, -, -, f5, f6⟩
    · rw [e1] at h; cases h.1
    · rw [e1] at f1
      injection f1 with f1
      injection f1 with f1
      injection f1 with f1 f1'
      subst f1
      have f1' := eq_of_heq f1'
      subst f1'
      refine M'.lik_mem_unit_of_rows (fun s => ?_) ?_ e2 e3
      · rw [f6]; split_ifs <;> positivity
      · simp only [f6]
        rw [← Finset.sum_filter, Finset.sum_const, nsmul_eq_mul, mul_one_div, div_self]
        obtain ⟨i, hi⟩ := f5
        exact Nat.cast_ne_zero.2 (Finset.card_ne_zero_of_mem (Finset.mem_filter.2 ⟨Finset.mem_univ i, hi⟩))
  · have := e4 w hw
    unfold withInit at this
    rwa [if_pos (hhead w hw)] at this

/-- C121: Alergia is called with `k` values of `alpha` on a set of `N` traces generated by a Markov chain that starts in 'init'. It returns a chain for each of them, the log-likelihoods
of these chains on a second set, of `N'` traces generated afterwards, exist, and they are precise with a probability of at least `1 - 2 k exp(-2 N' t²)`. -/
theorem holdout_alergia (G : MC ℝ String n) (hG : G.Stochastic) (hstart : ∀ s, G.initialState s ≠ 0 → G.labelling s = "init") (hlab : ∀ s, G.labelling s ≠ "")
    (kind : String → Kind) (steps : ℕ) (hs : 1 ≤ steps) (geom : ℕ → ℕ) (cpus : ℕ) (hc : 2 ≤ cpus)
    {k : ℕ} (α : Fin k → ℝ) (h0 : ∀ i, 0 < α i) (h2 : ∀ i, α i ≤ 2) (N N' : ℕ) (hN' : 1 ≤ N') (t : ℝ) (ht : 0 ≤ t) :
    1 - 2 * k * Real.exp (-(2 * N' * t ^ 2)) ≤ drawsLaw.real {d | ∃ S S', generateSet kind (fun j k => G.run k (fun i => d (j * (steps + 1) + i))) N false none (.int steps) geom = .ok S ∧
      generateSet kind (fun j k => G.run k (fun i => d ((N + j) * (steps + 1) + i))) N' false none (.int steps) geom = .ok S' ∧
      ∀ i, ∃ (states : List ℕ) (M' : MC ℝ String states.length) (l : ℝ), Alergia.fit ℝ (hoeffding (α i)) S = .ok (some ⟨states, M'⟩) ∧
        (∀ w ∈ S.sequences, 0 < M'.lik w) ∧ M'.iface.logLikelihoodMultiproc cpus S' = .ok l ∧
        |l - expectedLogLik (tracesOver (Finset.univ.image G.labelling) (steps + 1)) G.lik M'.lik|
          < t * margin (tracesOver (Finset.univ.image G.labelling) (steps + 1)) M'.lik} := by
  let learn : Fin k → TSet String → Py (Σ m, MC ℝ String m) := fun i S =>
    match Alergia.fit ℝ (hoeffding (α i)) S with
    | .ok (some M') => .ok ⟨_, M'.2⟩
    | _ => .error .valueError
  refine (holdout G hG kind steps hs geom cpus hc learn N N' hN' t ht ?_).trans (measureReal_mono ?_ (measure_ne_top _ _))
  · intro i S M' hS _ hp hl w _
    obtain ⟨states, M'', e1, e2, -⟩ := G.alergia_learns hstart hlab S hS hp (α i) (h0 i) (h2 i)
    simp only [learn, e1] at hl
    injection hl with hl
    subst hl
    exact e2 w
  · rintro d ⟨S, S', a1, a2, ⟨b1, -, b3⟩, a3⟩
    refine ⟨S, S', a1, a2, fun i => ?_⟩
    obtain ⟨states, M', e1, e2, e3⟩ := G.alergia_learns hstart hlab S b1 (fun w hw => (b3 w hw).1) (α i) (h0 i) (h2 i)
    obtain ⟨l, c1, c2⟩ := a3 i ⟨_, M'⟩ (by simp only [learn, e1])
    exact ⟨states, M', l, e1, e3, c1, c2⟩

/-- C121, the choice of `alpha`: with the same probability, none of the other values of `alpha` would give a much better chain than the one with the largest log-likelihood on the
second set. -/
theorem selection_alergia (G : MC ℝ String n) (hG : G.Stochastic) (hstart : ∀ s, G.initialState s ≠ 0 → G.labelling s = "init") (hlab : ∀ s, G.labelling s ≠ "")
    (kind : String → Kind) (steps : ℕ) (hs : 1 ≤ steps) (geom : ℕ → ℕ) (cpus : ℕ) (hc : 2 ≤ cpus)
    {k : ℕ} (α : Fin k → ℝ) (h0 : ∀ i, 0 < α i) (h2 : ∀ i, α i ≤ 2) (N N' : ℕ) (hN' : 1 ≤ N') (t : ℝ) (ht : 0 ≤ t) :
    1 - 2 * k * Real.exp (-(2 * N' * t ^ 2)) ≤ drawsLaw.real {d | ∃ S S', generateSet kind (fun j k => G.run k (fun i => d (j * (steps + 1) + i))) N false none (.int steps) geom = .ok S ∧
      generateSet kind (fun j k => G.run k (fun i => d ((N + j) * (steps + 1) + i))) N' false none (.int steps) geom = .ok S' ∧
      ∀ i j Mi Mj li lj, Alergia.fit ℝ (hoeffding (α i)) S = .ok (some Mi) → Alergia.fit ℝ (hoeffding (α j)) S = .ok (some Mj) →
        Mi.2.iface.logLikelihoodMultiproc cpus S' = .ok li → Mj.2.iface.logLikelihoodMultiproc cpus S' = .ok lj → lj ≤ li →
        expectedLogLik (tracesOver (Finset.univ.image G.labelling) (steps + 1)) G.lik Mj.2.lik
          - t * (margin (tracesOver (Finset.univ.image G.labelling) (steps + 1)) Mi.2.lik + margin (tracesOver (Finset.univ.image G.labelling) (steps + 1)) Mj.2.lik)
          < expectedLogLik (tracesOver (Finset.univ.image G.labelling) (steps + 1)) G.lik Mi.2.lik} := by
  refine (holdout_alergia G hG hstart hlab kind steps hs geom cpus hc α h0 h2 N N' hN' t ht).trans (measureReal_mono ?_ (measure_ne_top _ _))
  rintro d ⟨S, S', a1, a2, a3⟩
  refine ⟨S, S', a1, a2, fun i j Mi Mj li lj fi fj ei ej hle => ?_⟩
  obtain ⟨st, M1, l1, b1, -, b2, b3⟩ := a3 i
  obtain ⟨st', M2, l2, c1, -, c2, c3⟩ := a3 j
  rw [b1] at fi
  rw [c1] at fj
  injection fi with fi
  injection fi with fi
  injection fj with fj
  injection fj with fj
  subst fi fj
  rw [b2] at ei
  rw [c2] at ej
  injection ei with ei
  injection ej with ej
  subst ei ej
  have d1 := (abs_lt.1 b3).2
  have d2 := (abs_lt.1 c3).1
  linarith

end MC

/-- A chain that starts in 'init' and then tosses a coin at each step. -/
noncomputable def coinFromInit : MC ℝ String 3 := ⟨!![0, 1/2, 1/2; 0, 1/2, 1/2; 0, 1/2, 1/2], ["init", "a", "b"].get, fun s => if s = 0 then 1 else 0⟩

theorem coinFromInit_stochastic : coinFromInit.Stochastic := by
  refine ⟨fun s => ?_, by simp [coinFromInit], fun s s' => ?_, fun s => ?_⟩
  · simp only [coinFromInit]; split_ifs <;> norm_num
  · fin_cases s <;> fin_cases s' <;> norm_num [coinFromInit]
  · rw [Fin.sum_univ_three]
    fin_cases s <;> simp [coinFromInit] <;> norm_num [Matrix.cons_val]

/-- Three values of `alpha` compared on 2000 traces. -/
theorem coinFromInit_alpha : (99/100 : ℝ) ≤ drawsLaw.real {d | ∃ S S',
      generateSet (fun _ => .str) (fun j k => coinFromInit.run k (fun i => d (j * (4 + 1) + i))) 100 false none (.int 4) (fun _ => 0) = .ok S ∧
      generateSet (fun _ => .str) (fun j k => coinFromInit.run k (fun i => d ((100 + j) * (4 + 1) + i))) 2000 false none (.int 4) (fun _ => 0) = .ok S' ∧
      ∀ i, ∃ (states : List ℕ) (M' : MC ℝ String states.length) (l : ℝ), Alergia.fit ℝ (hoeffding (![1/1000, 1/20, 1/2] i)) S = .ok (some ⟨states, M'⟩) ∧
        (∀ w ∈ S.sequences, 0 < M'.lik w) ∧ M'.iface.logLikelihoodMultiproc 4 S' = .ok l ∧
        |l - expectedLogLik (tracesOver (Finset.univ.image coinFromInit.labelling) (4 + 1)) coinFromInit.lik M'.lik|
          < 1 / 20 * margin (tracesOver (Finset.univ.image coinFromInit.labelling) (4 + 1)) M'.lik} := by
  have h := coinFromInit.holdout_alergia coinFromInit_stochastic (by intro s; fin_cases s <;> simp [coinFromInit]) (by intro s; fin_cases s <;> simp [coinFromInit])
    (fun _ => .str) 4 (by norm_num) (fun _ => 0) 4 (by norm_num) (k := 3) ![1/1000, 1/20, 1/2] (by intro i; fin_cases i <;> norm_num) (by intro i; fin_cases i <;> norm_num)
    100 2000 (by norm_num) (1/20) (by norm_num)
  have h1 := exp_neg_ten (x := 2 * ((2000:ℕ):ℝ) * (1 / 20) ^ 2) (by norm_num)
  refine le_trans ?_ h
  push_cast at h1 ⊢
  linarith

end Jajapy
