import Mathlib.MeasureTheory.Integral.Pi
import Mathlib.MeasureTheory.Constructions.Pi
import Verif.Spec.Clocks

set_option linter.unusedSectionVars false

/-! The race of independent exponential clocks. -/

namespace Jajapy

open MeasureTheory ProbabilityTheory Spec

theorem expMeasure_Iic {r : ℝ} (hr : 0 < r) (x : ℝ) :
    expMeasure r (Set.Iic x) = ENNReal.ofReal (if 0 ≤ x then 1 - Real.exp (-(r * x)) else 0) := by
  haveI := isProbabilityMeasure_expMeasure hr
  rw [← cdf_expMeasure_eq hr x, ofReal_cdf]

theorem expMeasure_Ioi {r : ℝ} (hr : 0 < r) {x : ℝ} (hx : 0 ≤ x) :
    expMeasure r (Set.Ioi x) = ENNReal.ofReal (Real.exp (-(r * x))) := by
  haveI := isProbabilityMeasure_expMeasure hr
  have h : Real.exp (-(r * x)) ≤ 1 := by
    rw [Real.exp_le_one_iff]; nlinarith [mul_nonneg hr.le hx]
  rw [← Set.compl_Iic, measure_compl measurableSet_Iic (measure_ne_top _ _), measure_univ, expMeasure_Iic hr, if_pos hx,
    ← ENNReal.ofReal_one, ← ENNReal.ofReal_sub _ (by linarith)]
  congr 1
  ring

theorem expMeasure_eq (r : ℝ) : expMeasure r = volume.withDensity (exponentialPDF r) := rfl

theorem expMeasure_singleton {r : ℝ} (x : ℝ) : expMeasure r {x} = 0 := by
  rw [expMeasure_eq]
  exact withDensity_absolutelyContinuous _ _ (by simp)

theorem expMeasure_Ici {r : ℝ} (hr : 0 < r) {x : ℝ} (hx : 0 ≤ x) :
    expMeasure r (Set.Ici x) = ENNReal.ofReal (Real.exp (-(r * x))) := by
  rw [← expMeasure_Ioi hr hx]
  refine le_antisymm ?_ (measure_mono Set.Ioi_subset_Ici_self)
  rw [← Set.Ioi_insert]
  exact (measure_insert_le _ _).trans (by rw [expMeasure_singleton, zero_add])
  where
  measure_insert_le (x : ℝ) (s : Set ℝ) : expMeasure r (insert x s) ≤ expMeasure r {x} + expMeasure r s := by
    rw [Set.insert_eq]; exact measure_union_le _ _

/-- A standard exponential draw times `1/r` has the exponential law of rate `r`. -/
theorem map_scale {r : ℝ} (hr : 0 < r) : expLaw.map (fun x => 1 / r * x) = expMeasure r := by
  haveI := isProbabilityMeasure_expMeasure hr
  haveI : IsProbabilityMeasure (expLaw.map (fun x => 1 / r * x)) :=
    Measure.isProbabilityMeasure_map (by fun_prop)
  refine Measure.ext_of_Iic _ _ (fun x => ?_)
  rw [Measure.map_apply (by fun_prop) measurableSet_Iic, expMeasure_Iic hr]
  have : (fun x => 1 / r * x) ⁻¹' Set.Iic x = Set.Iic (r * x) := by
    ext y
    simp only [Set.mem_preimage, Set.mem_Iic]
    rw [one_div, inv_mul_le_iff₀ hr]
  rw [this]
  unfold expLaw
  rw [expMeasure_Iic one_pos, one_mul]
  by_cases h : 0 ≤ x
  · rw [if_pos h, if_pos (mul_nonneg hr.le h)]
  · rw [if_neg h, if_neg]
    push Not at h ⊢
    exact mul_neg_of_pos_of_neg hr h

/-- The law of the clock of a transition of rate `r`: exponential, or the constant 1024. -/
noncomputable def clock (r : ℝ) : Measure ℝ := if r ≤ 0 then Measure.dirac 1024 else expMeasure r

instance (r : ℝ) : IsProbabilityMeasure (clock r) := by
  unfold clock
  split_ifs with h
  · infer_instance
  · exact isProbabilityMeasure_expMeasure (not_le.1 h)

/-- The waiting times of one step, from the draws. -/
noncomputable def ringTimes {n : ℕ} (r : Fin n → ℝ) (d : Fin n → ℝ) : Fin n → ℝ :=
  fun j => if r j ≤ 0 then 1024 else 1 / r j * d j

theorem measurable_ringTimes {n : ℕ} (r : Fin n → ℝ) : Measurable (ringTimes r) := by
  refine measurable_pi_iff.2 (fun j => ?_)
  unfold ringTimes
  split_ifs
  · exact measurable_const
  · exact (measurable_pi_apply j).const_mul _

theorem map_ringTimes {n : ℕ} (r : Fin n → ℝ) : (stepLaw n).map (ringTimes r) = Measure.pi (fun j => clock (r j)) := by
  unfold stepLaw
  have h : ∀ j, expLaw.map (fun x => if r j ≤ 0 then 1024 else 1 / r j * x) = clock (r j) := by
    intro j
    unfold clock
    split_ifs with h
    · rw [Measure.map_const, measure_univ, one_smul]
    · exact map_scale (not_le.1 h)
  simp_rw [← h]
  refine Measure.pi_map_pi (f := fun j x => if r j ≤ 0 then 1024 else 1 / r j * x) ?_
  · intro j
    split_ifs
    · exact aemeasurable_const
    · fun_prop

theorem clock_Ici {r x : ℝ} (hr : 0 ≤ r) (h0 : 0 ≤ x) (hx : x ≤ 1024 ∨ 0 < r) :
    clock r (Set.Ici x) = ENNReal.ofReal (Real.exp (-(r * x))) := by
  unfold clock
  by_cases h : r ≤ 0
  · have : r = 0 := le_antisymm h hr
    subst this
    rw [if_pos le_rfl, Measure.dirac_apply' _ measurableSet_Ici, Set.indicator_of_mem]
    · simp
    · rcases hx with hx | hx
      · exact hx
      · exact absurd hx (lt_irrefl _)
  · rw [if_neg h]
    exact expMeasure_Ici (not_le.1 h) h0

theorem clock_Ioi {r x : ℝ} (hr : 0 ≤ r) (h0 : 0 ≤ x) (hx : x < 1024 ∨ 0 < r) :
    clock r (Set.Ioi x) = ENNReal.ofReal (Real.exp (-(r * x))) := by
  unfold clock
  by_cases h : r ≤ 0
  · have : r = 0 := le_antisymm h hr
    subst this
    rw [if_pos le_rfl, Measure.dirac_apply' _ measurableSet_Ioi, Set.indicator_of_mem]
    · simp
    · rcases hx with hx | hx
      · exact hx
      · exact absurd hx (lt_irrefl _)
  · rw [if_neg h]
    exact expMeasure_Ioi (not_le.1 h) h0

/-- The clock `i` is the first to ring, and it rings at a time of `A`; when several ring together, the one of smallest index
wins. -/
def Wins {n : ℕ} (i : Fin n) (A : Set ℝ) : Set (Fin n → ℝ) :=
  {x | x i ∈ A ∧ (∀ j, x i ≤ x j) ∧ ∀ j < i, x i < x j}

theorem measurable_wins {n : ℕ} (i : Fin n) {A : Set ℝ} (hA : MeasurableSet A) : MeasurableSet (Wins i A) := by
  unfold Wins
  refine MeasurableSet.inter ((measurable_pi_apply i) hA) (MeasurableSet.inter ?_ ?_)
  · have : {x : Fin n → ℝ | ∀ j, x i ≤ x j} = ⋂ j, {x | x i ≤ x j} := by ext; simp
    have h : MeasurableSet {x : Fin n → ℝ | ∀ j, x i ≤ x j} := by
      rw [this]
      exact MeasurableSet.iInter (fun j => measurableSet_le (measurable_pi_apply i) (measurable_pi_apply j))
    exact h
  · have : {x : Fin n → ℝ | ∀ j < i, x i < x j} = ⋂ j, ⋂ (_ : j < i), {x | x i < x j} := by ext; simp
    have h : MeasurableSet {x : Fin n → ℝ | ∀ j < i, x i < x j} := by
      rw [this]
      exact MeasurableSet.iInter (fun j => MeasurableSet.iInter
        (fun _ => measurableSet_lt (measurable_pi_apply i) (measurable_pi_apply j)))
    exact h

/-- The set of the values with which the clock `j` loses against the clock `i` ringing at time `x`. -/
def losing {n : ℕ} (i j : Fin n) (x : ℝ) : Set ℝ := if j < i then Set.Ioi x else Set.Ici x

/-- Conditioning on the time of the winner. -/
theorem wins_law {n : ℕ} (ν : Fin n → Measure ℝ) [∀ j, IsProbabilityMeasure (ν j)] (i : Fin n) {A : Set ℝ} (hA : MeasurableSet A) :
    Measure.pi ν (Wins i A) = ∫⁻ x in A, ∏ j ∈ Finset.univ.erase i, ν j (losing i j x) ∂(ν i) := by
  obtain ⟨m, rfl⟩ : ∃ m, n = m + 1 := ⟨n - 1, by have := i.2; omega⟩
  have hp := measurePreserving_piFinSuccAbove ν i
  have key : Wins i A = (MeasurableEquiv.piFinSuccAbove (fun _ => ℝ) i) ⁻¹'
      {p | p.1 ∈ A ∧ ∀ k, p.2 k ∈ losing i (i.succAbove k) p.1} := by
    ext x
    simp only [Wins, Set.mem_preimage, Set.mem_ofPred_eq, MeasurableEquiv.piFinSuccAbove_apply, Fin.insertNthEquiv_symm_apply, losing]
    constructor
    · rintro ⟨h1, h2, h3⟩
      refine ⟨h1, fun k => ?_⟩
      split_ifs with h
      · exact h3 _ h
      · exact h2 _
    · rintro ⟨h1, h2⟩
      refine ⟨h1, fun j => ?_, fun j hj => ?_⟩
      · rcases Fin.eq_self_or_eq_succAbove i j with rfl | ⟨k, rfl⟩
        · exact le_rfl
        · have := h2 k
          split_ifs at this with h
          · exact le_of_lt this
          · exact this
      · rcases Fin.eq_self_or_eq_succAbove i j with rfl | ⟨k, rfl⟩
        · exact absurd hj (lt_irrefl _)
        · have := h2 k
          rw [if_pos hj] at this
          exact this
  have hm := measurable_wins i hA
  have hm' : MeasurableSet {p : ℝ × (Fin m → ℝ) | p.1 ∈ A ∧ ∀ k, p.2 k ∈ losing i (i.succAbove k) p.1} := by
    refine MeasurableSet.inter (measurable_fst hA) ?_
    have : {p : ℝ × (Fin m → ℝ) | ∀ k, p.2 k ∈ losing i (i.succAbove k) p.1}
        = ⋂ k, {p : ℝ × (Fin m → ℝ) | p.2 k ∈ losing i (i.succAbove k) p.1} := by ext; simp
    show MeasurableSet {p : ℝ × (Fin m → ℝ) | ∀ k, p.2 k ∈ losing i (i.succAbove k) p.1}
    rw [this]
    refine MeasurableSet.iInter (fun k => ?_)
    unfold losing
    split_ifs
    · exact measurableSet_lt measurable_fst ((measurable_pi_apply k).comp measurable_snd)
    · exact measurableSet_le measurable_fst ((measurable_pi_apply k).comp measurable_snd)
  rw [key, hp.measure_preimage hm'.nullMeasurableSet, Measure.prod_apply hm', ← lintegral_indicator hA]
  refine lintegral_congr (fun x => ?_)
  by_cases hx : x ∈ A
  · rw [Set.indicator_of_mem hx]
    have : (Prod.mk x ⁻¹' {p : ℝ × (Fin m → ℝ) | p.1 ∈ A ∧ ∀ k, p.2 k ∈ losing i (i.succAbove k) p.1})
        = Set.pi Set.univ (fun k => losing i (i.succAbove k) x) := by
      ext y; simp [hx]
    rw [this, Measure.pi_pi]
    rw [show Finset.univ.erase i = Finset.univ.image i.succAbove by
      rw [Fin.image_succAbove_univ]; ext; simp]
    rw [Finset.prod_image (fun a _ b _ h => Fin.succAbove_right_injective h)]
  · rw [Set.indicator_of_notMem hx]
    have : (Prod.mk x ⁻¹' {p : ℝ × (Fin m → ℝ) | p.1 ∈ A ∧ ∀ k, p.2 k ∈ losing i (i.succAbove k) p.1}) = ∅ := by
      ext y; simp [hx]
    rw [this, measure_empty]

/-- The probability that the clock `i`, of positive rate, rings first, at a time of `A`, all the times of `A` being smaller than
1024 or all the rates positive. -/
theorem race_law {n : ℕ} (r : Fin n → ℝ) (hr : ∀ j, 0 ≤ r j) (i : Fin n) (A : Set ℝ) (hA : MeasurableSet A)
    (h : A ⊆ Set.Iio 1024 ∨ ∀ j, 0 < r j) :
    Measure.pi (fun j => clock (r j)) (Wins i A)
      = ∫⁻ t in A ∩ Set.Ici 0, ENNReal.ofReal (r i * Real.exp (-(∑ j, r j) * t)) := by
  rw [wins_law _ i hA]
  by_cases hi : r i ≤ 0
  · have h0 : r i = 0 := le_antisymm hi (hr i)
    have hA' : (1024 : ℝ) ∉ A := by
      rcases h with h | h
      · exact fun hc => absurd (h hc) (by simp)
      · exact absurd (h i) (by rw [h0]; exact lt_irrefl _)
    have : clock (r i) A = 0 := by
      unfold clock
      rw [if_pos hi, Measure.dirac_apply' _ hA, Set.indicator_of_notMem hA']
    rw [Measure.restrict_eq_zero.2 this, lintegral_zero_measure]
    simp [h0]
  · have hi' := not_le.1 hi
    have hmp : Measurable (exponentialPDF (r i)) := (measurable_exponentialPDFReal (r i)).ennreal_ofReal
    rw [show clock (r i) = volume.withDensity (exponentialPDF (r i)) by unfold clock; rw [if_neg hi, expMeasure_eq]]
    rw [restrict_withDensity hA, lintegral_withDensity_eq_lintegral_mul_non_measurable _ hmp
      (Filter.Eventually.of_forall (fun x => ENNReal.ofReal_lt_top))]
    rw [← lintegral_inter_add_sdiff _ A measurableSet_Ici (B := Set.Ici (0:ℝ))]
    have e2 : ∫⁻ x in A \ Set.Ici 0, (exponentialPDF (r i) * fun x => ∏ j ∈ Finset.univ.erase i, clock (r j) (losing i j x)) x = 0 := by
      rw [setLIntegral_congr_fun (g := fun _ => 0) (hA.diff measurableSet_Ici), lintegral_zero]
      rintro x ⟨_, hx⟩
      simp only [Set.mem_Ici, not_le] at hx
      simp only [Pi.mul_apply, exponentialPDF_of_neg hx, zero_mul]
    rw [e2, add_zero]
    refine setLIntegral_congr_fun (hA.inter measurableSet_Ici) ?_
    rintro x ⟨hxA, hx⟩
    have hx0 : 0 ≤ x := hx
    have hlt : ∀ j, x < 1024 ∨ 0 < r j := fun j => h.imp (fun h => h hxA) (fun h => h j)
    simp only [Pi.mul_apply, exponentialPDF_of_nonneg hx0]
    rw [Finset.prod_congr rfl (g := fun j => ENNReal.ofReal (Real.exp (-(r j * x))))]
    · rw [← ENNReal.ofReal_prod_of_nonneg (fun _ _ => (Real.exp_pos _).le), ← Real.exp_sum,
        ← ENNReal.ofReal_mul (mul_nonneg hi'.le (Real.exp_pos _).le), mul_assoc, ← Real.exp_add]
      congr 3
      rw [← Finset.add_sum_erase Finset.univ r (Finset.mem_univ i), neg_mul, add_mul, Finset.sum_mul, Finset.sum_neg_distrib]
      ring
    · intro j _
      unfold losing
      split_ifs
      · exact clock_Ioi (hr j) hx0 (hlt j)
      · exact clock_Ici (hr j) hx0 ((hlt j).imp le_of_lt id)

/-- The probability that the first transition of rate 0 wins: all the other clocks ring after 1024. -/
theorem race_sentinel {n : ℕ} (r : Fin n → ℝ) (hr : ∀ j, 0 ≤ r j) (i : Fin n) (hi : r i = 0) (hf : ∀ j < i, 0 < r j) :
    Measure.pi (fun j => clock (r j)) (Wins i Set.univ) = ENNReal.ofReal (Real.exp (-(∑ j, r j) * 1024)) := by
  rw [wins_law _ i MeasurableSet.univ, Measure.restrict_univ]
  rw [show clock (r i) = Measure.dirac 1024 by unfold clock; rw [if_pos hi.le], lintegral_dirac]
  rw [Finset.prod_congr rfl (g := fun j => ENNReal.ofReal (Real.exp (-(r j * 1024))))]
  · rw [← ENNReal.ofReal_prod_of_nonneg (fun _ _ => (Real.exp_pos _).le), ← Real.exp_sum]
    congr 2
    rw [← Finset.add_sum_erase Finset.univ r (Finset.mem_univ i), neg_mul, add_mul, Finset.sum_mul, Finset.sum_neg_distrib, hi]
    ring
  · intro j _
    unfold losing
    split_ifs with hj
    · exact clock_Ioi (hr j) (by norm_num) (Or.inr (hf j hj))
    · exact clock_Ici (hr j) (by norm_num) (Or.inl le_rfl)

/-- A clock that is not the first of the clocks of rate 0 never wins. -/
theorem race_never {n : ℕ} (r : Fin n → ℝ) (i : Fin n) (hi : r i ≤ 0) (hf : ∃ j < i, r j ≤ 0) :
    Measure.pi (fun j => clock (r j)) (Wins i Set.univ) = 0 := by
  obtain ⟨j, hj, h0⟩ := hf
  rw [wins_law _ i MeasurableSet.univ, Measure.restrict_univ]
  rw [show clock (r i) = Measure.dirac 1024 by unfold clock; rw [if_pos hi], lintegral_dirac]
  refine Finset.prod_eq_zero (i := j) (Finset.mem_erase.2 ⟨hj.ne, Finset.mem_univ _⟩) ?_
  unfold losing clock
  rw [if_pos hj, if_pos h0, Measure.dirac_apply' _ measurableSet_Ioi, Set.indicator_of_notMem]
  simp

/-- The integral of the density of the race. -/
theorem integral_race {c R : ℝ} (hc : 0 ≤ c) (hR : 0 < R) {a b : ℝ} (hab : a ≤ b) :
    ∫⁻ t in Set.Ico a b, ENNReal.ofReal (c * Real.exp (-R * t))
      = ENNReal.ofReal (c / R * (Real.exp (-R * a) - Real.exp (-R * b))) := by
  rw [setLIntegral_congr Ico_ae_eq_Ioc]
  rw [← ofReal_integral_eq_lintegral_ofReal]
  · congr 1
    rw [← intervalIntegral.integral_of_le hab]
    rw [intervalIntegral.integral_eq_sub_of_hasDerivAt (f := fun t => -(c / R) * Real.exp (-R * t))]
    · ring
    · intro x _
      have : HasDerivAt (fun t => Real.exp (-R * t)) (Real.exp (-R * x) * (-R)) x := by
        have := (hasDerivAt_id x).const_mul (-R)
        simpa using this.exp
      have h2 := this.const_mul (-(c / R))
      have e : -(c / R) * (Real.exp (-R * x) * -R) = c * Real.exp (-R * x) := by field_simp
      rw [e] at h2
      exact h2
    · exact (by fun_prop : Continuous _).intervalIntegrable _ _
  · exact ((by fun_prop : Continuous fun t => c * Real.exp (-R * t)).integrableOn_Ioc)
  · exact Filter.Eventually.of_forall (fun t => mul_nonneg hc (Real.exp_pos _).le)

theorem integral_race_top {c R : ℝ} (hc : 0 ≤ c) (hR : 0 < R) (a : ℝ) :
    ∫⁻ t in Set.Ici a, ENNReal.ofReal (c * Real.exp (-R * t)) = ENNReal.ofReal (c / R * Real.exp (-R * a)) := by
  rw [setLIntegral_congr Ioi_ae_eq_Ici.symm]
  have hint : IntegrableOn (fun t => c * Real.exp (-R * t)) (Set.Ioi a) :=
    (exp_neg_integrableOn_Ioi a hR).const_mul c
  rw [← ofReal_integral_eq_lintegral_ofReal hint]
  · congr 1
    rw [integral_const_mul, integral_exp_mul_Ioi (by linarith)]
    field_simp
  · exact Filter.Eventually.of_forall (fun t => mul_nonneg hc (Real.exp_pos _).le)

end Jajapy
