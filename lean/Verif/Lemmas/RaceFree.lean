import Verif.Lemmas.ClocksStep

set_option linter.unusedSectionVars false

/-! The race of the clocks of positive rate: those of rate 0 never ring. -/

namespace Jajapy

open MeasureTheory ProbabilityTheory Spec Finset Tools BW

/-- Conditioning on the time of one clock. -/
theorem pi_condition {n : ℕ} (ν : Fin n → Measure ℝ) [∀ j, IsProbabilityMeasure (ν j)] (i : Fin n) (los : Fin n → ℝ → Set ℝ)
    (hl : ∀ j, MeasurableSet {p : ℝ × ℝ | p.2 ∈ los j p.1}) {A : Set ℝ} (hA : MeasurableSet A) :
    Measure.pi ν {x | x i ∈ A ∧ ∀ j, j ≠ i → x j ∈ los j (x i)} = ∫⁻ x in A, ∏ j ∈ Finset.univ.erase i, ν j (los j x) ∂(ν i) := by
  obtain ⟨m, rfl⟩ : ∃ m, n = m + 1 := ⟨n - 1, by have := i.2; omega⟩
  have hp := measurePreserving_piFinSuccAbove ν i
  have key : {x : Fin (m+1) → ℝ | x i ∈ A ∧ ∀ j, j ≠ i → x j ∈ los j (x i)} = (MeasurableEquiv.piFinSuccAbove (fun _ => ℝ) i) ⁻¹'
      {p | p.1 ∈ A ∧ ∀ k, p.2 k ∈ los (i.succAbove k) p.1} := by
    ext x
    simp only [Set.mem_preimage, Set.mem_ofPred_eq, MeasurableEquiv.piFinSuccAbove_apply, Fin.insertNthEquiv_symm_apply]
    constructor
    · rintro ⟨h1, h2⟩
      exact ⟨h1, fun k => h2 _ (Fin.succAbove_ne i k)⟩
    · rintro ⟨h1, h2⟩
      refine ⟨h1, fun j hj => ?_⟩
      rcases Fin.eq_self_or_eq_succAbove i j with rfl | ⟨k, rfl⟩
      · exact absurd rfl hj
      · exact h2 k
  have hm' : MeasurableSet {p : ℝ × (Fin m → ℝ) | p.1 ∈ A ∧ ∀ k, p.2 k ∈ los (i.succAbove k) p.1} := by
    refine MeasurableSet.inter (measurable_fst hA) ?_
    have : {p : ℝ × (Fin m → ℝ) | ∀ k, p.2 k ∈ los (i.succAbove k) p.1}
        = ⋂ k, {p : ℝ × (Fin m → ℝ) | p.2 k ∈ los (i.succAbove k) p.1} := by ext; simp
    show MeasurableSet {p : ℝ × (Fin m → ℝ) | ∀ k, p.2 k ∈ los (i.succAbove k) p.1}
    rw [this]
    refine MeasurableSet.iInter (fun k => ?_)
    have hf : Measurable (fun p : ℝ × (Fin m → ℝ) => (p.1, p.2 k)) :=
      measurable_fst.prodMk ((measurable_pi_apply k).comp measurable_snd)
    exact hf (hl (i.succAbove k))
  rw [key, hp.measure_preimage hm'.nullMeasurableSet, Measure.prod_apply hm', ← lintegral_indicator hA]
  refine lintegral_congr (fun x => ?_)
  by_cases hx : x ∈ A
  · rw [Set.indicator_of_mem hx]
    have : (Prod.mk x ⁻¹' {p : ℝ × (Fin m → ℝ) | p.1 ∈ A ∧ ∀ k, p.2 k ∈ los (i.succAbove k) p.1})
        = Set.pi Set.univ (fun k => los (i.succAbove k) x) := by
      ext y; simp [hx]
    rw [this, Measure.pi_pi]
    rw [show Finset.univ.erase i = Finset.univ.image i.succAbove by
      rw [Fin.image_succAbove_univ]; ext; simp]
    rw [Finset.prod_image (fun a _ b _ h => Fin.succAbove_right_injective h)]
  · rw [Set.indicator_of_notMem hx]
    have : (Prod.mk x ⁻¹' {p : ℝ × (Fin m → ℝ) | p.1 ∈ A ∧ ∀ k, p.2 k ∈ los (i.succAbove k) p.1}) = ∅ := by
      ext y; simp [hx]
    rw [this, measure_empty]

variable {n : ℕ}

/-- The draws with which the clock `i`, of positive rate, rings at a time of `A`, before the other clocks of positive rate. -/
def freeSet (r : Fin n → ℝ) (i : Fin n) (A : Set ℝ) : Set (Fin n → ℝ) :=
  {d | 0 < r i ∧ 1 / r i * d i ∈ A ∧ (∀ j, 0 < r j → 1 / r i * d i ≤ 1 / r j * d j) ∧
    ∀ j < i, 0 < r j → 1 / r i * d i < 1 / r j * d j}

theorem freeSet_unique {r : Fin n → ℝ} {i j : Fin n} {A B : Set ℝ} {d : Fin n → ℝ} (hi : d ∈ freeSet r i A)
    (hj : d ∈ freeSet r j B) : i = j := by
  rcases lt_trichotomy i j with h | h | h
  · exact absurd (hj.2.2.2 i h hi.1) (not_lt.2 (hi.2.2.1 j hj.1))
  · exact h
  · exact absurd (hi.2.2.2 j h hj.1) (not_lt.2 (hj.2.2.1 i hi.1))

theorem freeSet_disjoint (r : Fin n → ℝ) (A : Set ℝ) (i j : Fin n) (h : i ≠ j) : Disjoint (freeSet r i A) (freeSet r j A) :=
  Set.disjoint_left.2 (fun _ h1 h2 => h (freeSet_unique h1 h2))

/-- The values with which the clock `j` loses against the clock `i` ringing at time `x`. -/
def losingFree (r : Fin n → ℝ) (i j : Fin n) (x : ℝ) : Set ℝ := if 0 < r j then losing i j x else Set.univ

theorem measurable_losingFree (r : Fin n → ℝ) (i j : Fin n) : MeasurableSet {p : ℝ × ℝ | p.2 ∈ losingFree r i j p.1} := by
  unfold losingFree losing
  split_ifs
  · exact measurableSet_lt measurable_fst measurable_snd
  · exact measurableSet_le measurable_fst measurable_snd
  · simp

theorem freeSet_eq (r : Fin n → ℝ) (i : Fin n) (hi : 0 < r i) (A : Set ℝ) :
    freeSet r i A = ringTimes r ⁻¹' {x | x i ∈ A ∧ ∀ j, j ≠ i → x j ∈ losingFree r i j (x i)} := by
  ext d
  simp only [freeSet, Set.mem_ofPred_eq, Set.mem_preimage, ringTimes, losingFree, losing, if_neg (not_le.2 hi), hi, true_and]
  refine and_congr_right (fun _ => ?_)
  constructor
  · rintro ⟨h1, h2⟩ j hj
    split_ifs with h3 h4 h5
    · exact absurd h3 (not_lt.2 h5)
    · exact h2 j h4 h3
    · exact absurd h3 (not_lt.2 (by assumption))
    · exact h1 j h3
    · trivial
    · trivial
  · intro h
    constructor
    · intro j hj
      by_cases hij : j = i
      · rw [hij]
      · have := h j hij
        rw [if_pos hj, if_neg (not_le.2 hj)] at this
        split_ifs at this
        · exact le_of_lt this
        · exact this
    · intro j hji hj
      have := h j hji.ne
      rwa [if_pos hj, if_neg (not_le.2 hj), if_pos hji] at this

theorem measurable_freeSet (r : Fin n → ℝ) (i : Fin n) {A : Set ℝ} (hA : MeasurableSet A) : MeasurableSet (freeSet r i A) := by
  unfold freeSet
  have hf : ∀ j, Measurable (fun d : Fin n → ℝ => 1 / r j * d j) := fun j => (measurable_pi_apply j).const_mul _
  refine MeasurableSet.inter (MeasurableSet.const _) (MeasurableSet.inter (hf i hA) (MeasurableSet.inter ?_ ?_))
  · have : {d : Fin n → ℝ | ∀ j, 0 < r j → 1 / r i * d i ≤ 1 / r j * d j}
        = ⋂ j, ⋂ (_ : 0 < r j), {d | 1 / r i * d i ≤ 1 / r j * d j} := by ext; simp
    have h : MeasurableSet {d : Fin n → ℝ | ∀ j, 0 < r j → 1 / r i * d i ≤ 1 / r j * d j} := by
      rw [this]
      exact MeasurableSet.iInter (fun j => MeasurableSet.iInter (fun _ => measurableSet_le (hf i) (hf j)))
    exact h
  · have : {d : Fin n → ℝ | ∀ j < i, 0 < r j → 1 / r i * d i < 1 / r j * d j}
        = ⋂ j, ⋂ (_ : j < i), ⋂ (_ : 0 < r j), {d | 1 / r i * d i < 1 / r j * d j} := by ext; simp
    have h : MeasurableSet {d : Fin n → ℝ | ∀ j < i, 0 < r j → 1 / r i * d i < 1 / r j * d j} := by
      rw [this]
      exact MeasurableSet.iInter (fun j => MeasurableSet.iInter (fun _ => MeasurableSet.iInter
        (fun _ => measurableSet_lt (hf i) (hf j))))
    exact h

/-- The probability that the clock `i` rings first, at a time of `A`. -/
theorem freeSet_law (r : Fin n → ℝ) (hr : ∀ j, 0 ≤ r j) (i : Fin n) {A : Set ℝ} (hA : MeasurableSet A) :
    stepLaw n (freeSet r i A) = ∫⁻ t in A ∩ Set.Ici 0, ENNReal.ofReal (r i * Real.exp (-(∑ j, r j) * t)) := by
  rcases eq_or_lt_of_le (hr i) with h0 | hi
  · have : freeSet r i A = ∅ := by
      ext d
      simp only [freeSet, Set.mem_ofPred_eq, Set.mem_empty_iff_false, iff_false]
      rintro ⟨h, -⟩
      exact absurd h0 h.ne
    rw [this, measure_empty]
    simp [← h0]
  · have hm : MeasurableSet {x : Fin n → ℝ | x i ∈ A ∧ ∀ j, j ≠ i → x j ∈ losingFree r i j (x i)} := by
      refine MeasurableSet.inter ((measurable_pi_apply i) hA) ?_
      have : {x : Fin n → ℝ | ∀ j, j ≠ i → x j ∈ losingFree r i j (x i)}
          = ⋂ j, ⋂ (_ : j ≠ i), {x | x j ∈ losingFree r i j (x i)} := by ext; simp
      have h : MeasurableSet {x : Fin n → ℝ | ∀ j, j ≠ i → x j ∈ losingFree r i j (x i)} := by
        rw [this]
        refine MeasurableSet.iInter (fun j => MeasurableSet.iInter (fun _ => ?_))
        have hf : Measurable (fun x : Fin n → ℝ => (x i, x j)) := (measurable_pi_apply i).prodMk (measurable_pi_apply j)
        exact hf (measurable_losingFree r i j)
      exact h
    rw [freeSet_eq r i hi, ← Measure.map_apply (measurable_ringTimes r) hm, map_ringTimes,
      pi_condition _ i (losingFree r i) (measurable_losingFree r i) hA]
    have hmp : Measurable (exponentialPDF (r i)) := (measurable_exponentialPDFReal (r i)).ennreal_ofReal
    rw [show clock (r i) = volume.withDensity (exponentialPDF (r i)) by unfold clock; rw [if_neg (not_le.2 hi), expMeasure_eq]]
    rw [restrict_withDensity hA, lintegral_withDensity_eq_lintegral_mul_non_measurable _ hmp
      (Filter.Eventually.of_forall (fun x => ENNReal.ofReal_lt_top))]
    rw [← lintegral_inter_add_sdiff _ A measurableSet_Ici (B := Set.Ici (0:ℝ))]
    have e2 : ∫⁻ x in A \ Set.Ici 0, (exponentialPDF (r i) * fun x => ∏ j ∈ Finset.univ.erase i, clock (r j) (losingFree r i j x)) x
        = 0 := by
      rw [setLIntegral_congr_fun (g := fun _ => 0) (hA.diff measurableSet_Ici), lintegral_zero]
      rintro x ⟨_, hx⟩
      simp only [Set.mem_Ici, not_le] at hx
      simp only [Pi.mul_apply, exponentialPDF_of_neg hx, zero_mul]
    rw [e2, add_zero]
    refine setLIntegral_congr_fun (hA.inter measurableSet_Ici) ?_
    rintro x ⟨hxA, hx⟩
    have hx0 : 0 ≤ x := hx
    simp only [Pi.mul_apply, exponentialPDF_of_nonneg hx0]
    rw [Finset.prod_congr rfl (g := fun j => ENNReal.ofReal (Real.exp (-(r j * x))))]
    · rw [← ENNReal.ofReal_prod_of_nonneg (fun _ _ => (Real.exp_pos _).le), ← Real.exp_sum,
        ← ENNReal.ofReal_mul (mul_nonneg hi.le (Real.exp_pos _).le), mul_assoc, ← Real.exp_add]
      congr 3
      rw [← Finset.add_sum_erase Finset.univ r (Finset.mem_univ i), neg_mul, add_mul, Finset.sum_mul, Finset.sum_neg_distrib]
      ring
    · intro j _
      unfold losingFree losing
      by_cases hj : 0 < r j
      · rw [if_pos hj]
        split_ifs
        · exact clock_Ioi (hr j) hx0 (Or.inr hj)
        · exact clock_Ici (hr j) hx0 (Or.inr hj)
      · have : r j = 0 := le_antisymm (not_lt.1 hj) (hr j)
        rw [if_neg hj, measure_univ, this]
        simp

/-- The probability that the clock `i` rings first. -/
theorem freeSet_univ (r : Fin n → ℝ) (hr : ∀ j, 0 ≤ r j) (hp : ∃ j, 0 < r j) (i : Fin n) :
    stepLaw n (freeSet r i Set.univ) = ENNReal.ofReal (r i / ∑ j, r j) := by
  obtain ⟨j, hj⟩ := hp
  have hR : 0 < ∑ j, r j := lt_of_lt_of_le hj (Finset.single_le_sum (fun j _ => hr j) (Finset.mem_univ j))
  rw [freeSet_law r hr i MeasurableSet.univ, Set.univ_inter, integral_race_top (hr i) hR]
  simp

end Jajapy
