import Mathlib.Probability.Moments.SubGaussian
import Verif.Lemmas.Streams

/-!
Hoeffding's inequality for the frequency of an event among the calls in which another event happens. The number of these calls is
random.
-/

set_option linter.unusedSectionVars false

namespace Jajapy

open MeasureTheory ProbabilityTheory Spec

/-- Hoeffding's lemma for a Bernoulli variable. -/
theorem bernoulli_mgf (p : ℝ) (h0 : 0 ≤ p) (h1 : p ≤ 1) (t : ℝ) :
    p * Real.exp (t * (1 - p)) + (1 - p) * Real.exp (t * (-p)) ≤ Real.exp (t ^ 2 / 8) := by
  let ν : Measure Bool := ENNReal.ofReal p • Measure.dirac true + ENNReal.ofReal (1 - p) • Measure.dirac false
  have hν : IsProbabilityMeasure ν := ⟨by
    simp only [ν, Measure.coe_add, Measure.coe_smul, Pi.add_apply, Pi.smul_apply, measure_univ, smul_eq_mul, mul_one]
    rw [← ENNReal.ofReal_add h0 (by linarith)]
    simp⟩
  have hint : ∀ f : Bool → ℝ, ∫ b, f b ∂ν = p * f true + (1 - p) * f false := by
    intro f
    have i1 : Integrable f (ENNReal.ofReal p • Measure.dirac true) :=
      (Integrable.of_finite (μ := Measure.dirac true)).smul_measure ENNReal.ofReal_ne_top
    have i2 : Integrable f (ENNReal.ofReal (1 - p) • Measure.dirac false) :=
      (Integrable.of_finite (μ := Measure.dirac false)).smul_measure ENNReal.ofReal_ne_top
    simp only [ν]
    rw [integral_add_measure i1 i2, integral_smul_measure, integral_smul_measure, integral_dirac, integral_dirac,
      ENNReal.toReal_ofReal h0, ENNReal.toReal_ofReal (by linarith)]
    rfl
  let X : Bool → ℝ := fun b => if b then 1 - p else -p
  have hs : HasSubgaussianMGF X ((‖(1 - p) - (-p)‖₊ / 2) ^ 2) ν := by
    refine hasSubgaussianMGF_of_mem_Icc_of_integral_eq_zero (measurable_of_finite X).aemeasurable (.of_forall fun b => ?_) ?_
    · cases b <;> simp [X] <;> linarith
    · rw [hint]
      simp [X]
      ring
  have := hs.mgf_le t
  rw [mgf, hint] at this
  simp only [X, if_true, Bool.false_eq_true, if_false] at this
  refine this.trans (le_of_eq ?_)
  congr 1
  have : ‖(1 - p) - (-p)‖ = 1 := by norm_num
  push_cast
  rw [this]
  ring

variable {Ω : Type} [MeasurableSpace Ω] (μ : Measure Ω) [IsProbabilityMeasure μ]

/-- The expectation of a product over the calls. -/
theorem calls_integral_prod (N : ℕ) (f : ℕ → Ω → ℝ) (hf : ∀ j, Measurable (f j)) :
    ∫ D, ∏ j ∈ Finset.range N, f j (D j) ∂callsLaw μ = ∏ j ∈ Finset.range N, ∫ ω, f j ω ∂μ := by
  have hind : iIndepFun (fun (i : ℕ) (D : ℕ → Ω) => D i) (callsLaw μ) :=
    iIndepFun_infinitePi (P := fun _ : ℕ => μ) (X := fun _ ω => ω) (fun _ => measurable_id)
  have h2 := (hind.precomp (g := fun i : Fin N => (i : ℕ)) Fin.val_injective)
  have h3 := h2.integral_fun_prod_comp (f := fun i : Fin N => f i) (fun i => (measurable_pi_apply _).aemeasurable)
    (fun i => (hf i).aestronglyMeasurable)
  simp only [Finset.prod_range]
  rw [h3]
  refine Finset.prod_congr rfl (fun i _ => ?_)
  have h4 := measurePreserving_eval_infinitePi (fun _ : ℕ => μ) (i : ℕ)
  have h5 := integral_map (μ := callsLaw μ) (φ := fun D : ℕ → Ω => D i) (measurable_pi_apply _).aemeasurable
    (f := f i) (hf i).aestronglyMeasurable
  rw [← h5]
  congr 1
  exact h4.map_eq

theorem prod_ite_sub {s T : Finset ℕ} (h : T ⊆ s) (f g : ℕ → ℝ) :
    ∏ j ∈ s, (if j ∈ T then f j else g j) = (∏ j ∈ T, f j) * ∏ j ∈ s \ T, g j := by
  rw [Finset.prod_ite, Finset.filter_mem_eq_inter, Finset.inter_eq_right.2 h, Finset.filter_notMem_eq_sdiff]

open Classical in
/-- The factor of the call `j` in the exponential bound, for the set `T` of the calls with the event `A`. -/
noncomputable def tilt (A B : Set Ω) (p t : ℝ) (T : Finset ℕ) (j : ℕ) (ω : Ω) : ℝ :=
  if j ∈ T then (if ω ∈ A then Real.exp (t * ((if ω ∈ B then 1 else 0) - p)) else 0) else (if ω ∈ A then 0 else 1)

theorem measurable_tilt {A B : Set Ω} (hA : MeasurableSet A) (hB : MeasurableSet B) (p t : ℝ) (T : Finset ℕ) (j : ℕ) :
    Measurable (tilt A B p t T j) := by
  unfold tilt
  split_ifs
  · refine Measurable.ite hA ?_ measurable_const
    exact Real.measurable_exp.comp (((Measurable.ite hB measurable_const measurable_const).sub measurable_const).const_mul t)
  · exact Measurable.ite hA measurable_const measurable_const

theorem tilt_nonneg (A B : Set Ω) (p t : ℝ) (T : Finset ℕ) (j : ℕ) (ω : Ω) : 0 ≤ tilt A B p t T j ω := by
  unfold tilt
  split_ifs <;> first | positivity | norm_num

theorem tilt_le (A B : Set Ω) (p t : ℝ) (h0 : 0 ≤ p) (ht : 0 ≤ t) (T : Finset ℕ) (j : ℕ) (ω : Ω) : tilt A B p t T j ω ≤ Real.exp t := by
  have : 1 ≤ Real.exp t := Real.one_le_exp ht
  unfold tilt
  split_ifs
  · exact Real.exp_le_exp.2 (by nlinarith)
  · exact Real.exp_le_exp.2 (by nlinarith)
  · linarith
  · linarith
  · linarith

theorem integral_tilt {A B : Set Ω} (hA : MeasurableSet A) (hB : MeasurableSet B) (hBA : B ⊆ A) (p t : ℝ) (h0 : 0 ≤ p) (h1 : p ≤ 1)
    (hp : μ.real B = p * μ.real A) (T : Finset ℕ) (j : ℕ) :
    ∫ ω, tilt A B p t T j ω ∂μ ≤ if j ∈ T then μ.real A * Real.exp (t ^ 2 / 8) else 1 - μ.real A := by
  classical
  unfold tilt
  split_ifs with h
  · have e : (fun ω => if ω ∈ A then Real.exp (t * ((if ω ∈ B then 1 else 0) - p)) else 0)
        = fun ω => B.indicator (fun _ => Real.exp (t * (1 - p))) ω + (A \ B).indicator (fun _ => Real.exp (t * (-p))) ω := by
      funext ω
      by_cases ha : ω ∈ A <;> by_cases hb : ω ∈ B <;> simp [ha, hb, Set.indicator]
      exact absurd (hBA hb) ha
    rw [e, integral_add ((integrable_const _).indicator hB) ((integrable_const _).indicator (hA.diff hB)),
      integral_indicator_const _ hB, integral_indicator_const _ (hA.diff hB), measureReal_sdiff hBA hB, hp]
    simp only [smul_eq_mul]
    have := mul_le_mul_of_nonneg_left (bernoulli_mgf p h0 h1 t) (measureReal_nonneg (μ := μ) (s := A))
    linarith
  · have e : (fun ω => if ω ∈ A then (0:ℝ) else 1) = Aᶜ.indicator (fun _ => 1) := by
      funext ω
      by_cases ha : ω ∈ A <;> simp [ha]
    rw [e, integral_indicator_const _ hA.compl, probReal_compl_eq_one_sub hA]
    simp

/-- The upper tail: the event `B` is part of `A`, and has the probability `p` given `A`. -/
theorem occ_upper {A B : Set Ω} (hA : MeasurableSet A) (hB : MeasurableSet B) (hBA : B ⊆ A) (p c : ℝ) (h0 : 0 ≤ p) (h1 : p ≤ 1)
    (hp : μ.real B = p * μ.real A) (hc : 0 ≤ c) (N : ℕ) :
    (callsLaw μ).real {D | 0 < occ D A N ∧ occ D A N * p + Real.sqrt (occ D A N * c) ≤ occ D B N} ≤ Real.exp (-2 * c) := by
  classical
  let E : Finset ℕ → Set (ℕ → Ω) := fun T => {D | (Finset.range N).filter (fun j => D j ∈ A) = T ∧ 0 < T.card ∧
    T.card * p + Real.sqrt (T.card * c) ≤ occ D B N}
  have hcov : {D | 0 < occ D A N ∧ occ D A N * p + Real.sqrt (occ D A N * c) ≤ occ D B N} ⊆ ⋃ T ∈ (Finset.range N).powerset, E T := by
    rintro D ⟨d1, d2⟩
    simp only [Set.mem_iUnion, exists_prop, Finset.mem_powerset]
    refine ⟨(Finset.range N).filter (fun j => D j ∈ A), Finset.filter_subset _ _, ?_, ?_, ?_⟩
    · congr
    · convert d1 using 1
      unfold occ
      congr
    · convert d2 using 1
      unfold occ
      congr
  have key : ∀ T ∈ (Finset.range N).powerset, (callsLaw μ).real (E T)
      ≤ Real.exp (-2 * c) * ∏ j ∈ Finset.range N, (if j ∈ T then μ.real A else 1 - μ.real A) := by
    intro T hT
    rw [Finset.mem_powerset] at hT
    have hpos : 0 ≤ Real.exp (-2 * c) * ∏ j ∈ Finset.range N, (if j ∈ T then μ.real A else 1 - μ.real A) := by
      refine mul_nonneg (Real.exp_pos _).le (Finset.prod_nonneg (fun j _ => ?_))
      have : μ.real A ≤ 1 := measureReal_le_one
      split_ifs
      · exact measureReal_nonneg
      · linarith
    by_cases hT0 : T.card = 0
    · have : E T = ∅ := by
        ext D
        simp only [E, Set.mem_ofPred_eq, Set.mem_empty_iff_false, iff_false]
        rintro ⟨-, d, -⟩
        omega
      rw [this, measureReal_empty]
      exact hpos
    have hm : (0:ℝ) < T.card := by exact_mod_cast Nat.pos_of_ne_zero hT0
    set m : ℝ := (T.card : ℝ) with hmdef
    set t : ℝ := 4 * Real.sqrt (c / m) with ht
    have ht0 : 0 ≤ t := by positivity
    have ht1 : t * Real.sqrt (m * c) = 4 * c := by
      rw [ht, mul_assoc, ← Real.sqrt_mul (by positivity), show c / m * (m * c) = c * c by field_simp, Real.sqrt_mul_self hc]
    have ht2 : t ^ 2 / 8 = 2 * c / m := by
      rw [ht, mul_pow, Real.sq_sqrt (by positivity)]
      ring
    let f : (ℕ → Ω) → ℝ := fun D => Real.exp (-(4 * c)) * ∏ j ∈ Finset.range N, tilt A B p t T j (D j)
    have hfm : Measurable f := by
      refine Measurable.const_mul ?_ _
      exact Finset.measurable_fun_prod _ (fun j _ => (measurable_tilt hA hB p t T j).comp (measurable_pi_apply j))
    have hf0 : ∀ D, 0 ≤ f D := fun D => mul_nonneg (Real.exp_pos _).le (Finset.prod_nonneg (fun j _ => tilt_nonneg _ _ _ _ _ _ _))
    have hfi : Integrable f (callsLaw μ) := by
      refine Integrable.of_bound hfm.aestronglyMeasurable (Real.exp (-(4 * c)) * ∏ j ∈ Finset.range N, Real.exp t) (.of_forall fun D => ?_)
      rw [Real.norm_of_nonneg (hf0 D)]
      refine mul_le_mul_of_nonneg_left ?_ (Real.exp_pos _).le
      exact Finset.prod_le_prod (fun j _ => tilt_nonneg _ _ _ _ _ _ _) (fun j _ => tilt_le A B p t h0 ht0 T j _)
    have hsub : E T ⊆ {D | 1 ≤ f D} := by
      rintro D ⟨d1, -, d2⟩
      have e1 : ∏ j ∈ Finset.range N, tilt A B p t T j (D j)
          = Real.exp (∑ j ∈ Finset.range N, if j ∈ T then t * ((if D j ∈ B then 1 else 0) - p) else 0) := by
        rw [Real.exp_sum]
        refine Finset.prod_congr rfl (fun j hj => ?_)
        have hj' : j ∈ T ↔ D j ∈ A := by rw [← d1, Finset.mem_filter]; simp [hj]
        unfold tilt
        by_cases hjT : j ∈ T
        · rw [if_pos hjT, if_pos hjT, if_pos (hj'.1 hjT)]
        · rw [if_neg hjT, if_neg hjT, if_neg (fun h => hjT (hj'.2 h)), Real.exp_zero]
      have e2 : ∑ j ∈ Finset.range N, (if j ∈ T then t * ((if D j ∈ B then (1:ℝ) else 0) - p) else 0) = t * (occ D B N - m * p) := by
        rw [← Finset.sum_filter, Finset.filter_mem_eq_inter, Finset.inter_eq_right.2 hT, ← Finset.mul_sum, Finset.sum_sub_distrib,
          Finset.sum_const, nsmul_eq_mul, ← Finset.sum_filter, Finset.sum_const, nsmul_eq_mul, mul_one, ← hmdef]
        congr 3
        unfold occ
        congr 1
        ext j
        rw [Finset.mem_filter, Finset.mem_filter, ← d1, Finset.mem_filter]
        constructor
        · rintro ⟨⟨a, -⟩, b⟩
          exact ⟨a, b⟩
        · rintro ⟨a, b⟩
          exact ⟨⟨a, hBA b⟩, b⟩
      show 1 ≤ f D
      simp only [f]
      rw [e1, e2, ← Real.exp_add, ← Real.exp_zero]
      refine Real.exp_le_exp.2 ?_
      have := mul_le_mul_of_nonneg_left (show Real.sqrt (m * c) ≤ occ D B N - m * p by linarith) ht0
      rw [ht1] at this
      linarith
    have hmarkov := mul_meas_ge_le_integral_of_nonneg (μ := callsLaw μ) (.of_forall hf0) hfi 1
    rw [one_mul] at hmarkov
    refine ((measureReal_mono hsub (measure_ne_top _ _)).trans hmarkov).trans ?_
    simp only [f]
    rw [integral_const_mul, calls_integral_prod μ N _ (fun j => measurable_tilt hA hB p t T j)]
    have hle := Finset.prod_le_prod (s := Finset.range N) (fun j _ => integral_nonneg (μ := μ) (fun ω => tilt_nonneg A B p t T j ω))
      (fun j _ => integral_tilt μ hA hB hBA p t h0 h1 hp T j)
    refine (mul_le_mul_of_nonneg_left hle (Real.exp_pos _).le).trans (le_of_eq ?_)
    rw [prod_ite_sub hT (fun _ => μ.real A * Real.exp (t ^ 2 / 8)), prod_ite_sub hT (fun _ => μ.real A), Finset.prod_mul_distrib,
      Finset.prod_const (Real.exp _), ← Real.exp_nat_mul, ht2, ← hmdef, mul_div_cancel₀ _ hm.ne']
    rw [show Real.exp (-2 * c) = Real.exp (-(4 * c)) * Real.exp (2 * c) by rw [← Real.exp_add]; congr 1; ring]
    ring
  calc (callsLaw μ).real {D | 0 < occ D A N ∧ occ D A N * p + Real.sqrt (occ D A N * c) ≤ occ D B N}
      ≤ (callsLaw μ).real (⋃ T ∈ (Finset.range N).powerset, E T) :=
        measureReal_mono hcov (measure_ne_top _ _)
    _ ≤ ∑ T ∈ (Finset.range N).powerset, (callsLaw μ).real (E T) := measureReal_biUnion_finset_le _ _
    _ ≤ ∑ T ∈ (Finset.range N).powerset, Real.exp (-2 * c) * ∏ j ∈ Finset.range N, (if j ∈ T then μ.real A else 1 - μ.real A) :=
        Finset.sum_le_sum key
    _ = Real.exp (-2 * c) := by
        rw [← Finset.mul_sum]
        have := Finset.prod_add (fun _ : ℕ => μ.real A) (fun _ => 1 - μ.real A) (Finset.range N)
        rw [show ∑ T ∈ (Finset.range N).powerset, ∏ j ∈ Finset.range N, (if j ∈ T then μ.real A else 1 - μ.real A)
            = ∏ _j ∈ Finset.range N, (μ.real A + (1 - μ.real A)) from ?_]
        · simp
        · rw [this]
          exact Finset.sum_congr rfl (fun T hT => prod_ite_sub (Finset.mem_powerset.1 hT) _ _)

/-- Both tails: the frequency of `B` among the calls with `A` is not within `√(c/occ A)` of the conditional probability with a
probability of at most `2 exp(-2c)`. -/
theorem occ_tails {A B : Set Ω} (hA : MeasurableSet A) (hB : MeasurableSet B) (hBA : B ⊆ A) (p c : ℝ) (h0 : 0 ≤ p) (h1 : p ≤ 1)
    (hp : μ.real B = p * μ.real A) (hc : 0 ≤ c) (N : ℕ) :
    (callsLaw μ).real {D | 0 < occ D A N ∧ Real.sqrt (1 / occ D A N) * Real.sqrt c ≤ |(occ D B N : ℝ) / occ D A N - p|}
      ≤ 2 * Real.exp (-2 * c) := by
  classical
  have u1 := occ_upper μ hA hB hBA p c h0 h1 hp hc N
  have u2 := occ_upper μ hA (hA.diff hB) Set.sdiff_subset (1 - p) c (by linarith) (by linarith)
    (by rw [measureReal_sdiff hBA hB, hp]; ring) hc N
  have hocc : ∀ D : ℕ → Ω, (occ D (A \ B) N : ℝ) = occ D A N - occ D B N := by
    intro D
    have h : occ D B N + occ D (A \ B) N = occ D A N := by
      unfold occ
      refine (Finset.card_union_of_disjoint ?_).symm.trans ?_
      rotate_left
      · congr 1
        ext j
        simp only [Finset.mem_union, Finset.mem_filter, Set.mem_sdiff]
        constructor
        · rintro (⟨a, b⟩ | ⟨a, b, -⟩)
          · exact ⟨a, hBA b⟩
          · exact ⟨a, b⟩
        · rintro ⟨a, b⟩
          by_cases hb : D j ∈ B
          · exact .inl ⟨a, hb⟩
          · exact .inr ⟨a, b, hb⟩
      · rw [Finset.disjoint_left]
        intro j ha hb
        simp only [Finset.mem_filter] at ha hb
        exact hb.2.2 ha.2
    rw [← h]
    push_cast
    ring
  refine (measureReal_mono (s₂ := {D | 0 < occ D A N ∧ occ D A N * p + Real.sqrt (occ D A N * c) ≤ occ D B N} ∪
    {D | 0 < occ D A N ∧ occ D A N * (1 - p) + Real.sqrt (occ D A N * c) ≤ occ D (A \ B) N}) ?_ (measure_ne_top _ _)).trans
      ((measureReal_union_le _ _).trans (by linarith))
  rintro D ⟨d1, d2⟩
  have hn : (0:ℝ) < occ D A N := by exact_mod_cast d1
  have hs : Real.sqrt (occ D A N * c) = occ D A N * (Real.sqrt (1 / occ D A N) * Real.sqrt c) := by
    rw [Real.sqrt_mul hn.le, ← mul_assoc]
    congr 1
    rw [one_div, Real.sqrt_inv]
    have := Real.mul_self_sqrt hn.le
    have hq : 0 < Real.sqrt (occ D A N) := Real.sqrt_pos.2 hn
    field_simp
    nlinarith
  rcases le_abs.1 d2 with h | h
  · left
    refine ⟨d1, ?_⟩
    rw [hs, ← mul_add]
    have := mul_le_mul_of_nonneg_left (show p + Real.sqrt (1 / occ D A N) * Real.sqrt c ≤ (occ D B N : ℝ) / occ D A N by linarith) hn.le
    rwa [mul_div_cancel₀ _ hn.ne'] at this
  · right
    refine ⟨d1, ?_⟩
    rw [hs, ← mul_add, hocc]
    have := mul_le_mul_of_nonneg_left (show 1 - p + Real.sqrt (1 / occ D A N) * Real.sqrt c ≤ 1 - (occ D B N : ℝ) / occ D A N by linarith) hn.le
    rwa [mul_sub, mul_div_cancel₀ _ hn.ne', mul_one] at this

end Jajapy
