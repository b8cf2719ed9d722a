import Verif.Lemmas.Clocks
import Mathlib.MeasureTheory.Integral.Layercake

set_option linter.unusedSectionVars false

namespace Jajapy

open MeasureTheory ProbabilityTheory Spec Finset Tools BW

variable {n : ℕ}

/-- The winner of a race against the constant 1024 rings before 1024. -/
theorem race_before {n : ℕ} (r : Fin n → ℝ) (i : Fin n) (hi : 0 < r i) (hz : ∃ j, r j ≤ 0) :
    Measure.pi (fun j => clock (r j)) (Wins i Set.univ) = Measure.pi (fun j => clock (r j)) (Wins i (Set.Iio 1024)) := by
  obtain ⟨j, hj⟩ := hz
  have hji : j ≠ i := fun h => absurd hi (not_lt.2 (h ▸ hj))
  refine le_antisymm ?_ (measure_mono (fun x hx => ⟨trivial, hx.2⟩))
  have hsub : Wins i Set.univ ⊆ Wins i (Set.Iio 1024) ∪ (Wins i {(1024:ℝ)} ∪ Wins i (Set.Ioi 1024)) := by
    intro x hx
    rcases lt_trichotomy (x i) 1024 with h | h | h
    · exact Or.inl ⟨h, hx.2⟩
    · exact Or.inr (Or.inl ⟨h, hx.2⟩)
    · exact Or.inr (Or.inr ⟨h, hx.2⟩)
  have h1 : Measure.pi (fun j => clock (r j)) (Wins i {(1024:ℝ)}) = 0 := by
    rw [wins_law _ i (measurableSet_singleton _)]
    rw [Measure.restrict_eq_zero.2, lintegral_zero_measure]
    unfold clock
    rw [if_neg (not_le.2 hi), expMeasure_singleton]
  have h2 : Measure.pi (fun j => clock (r j)) (Wins i (Set.Ioi (1024:ℝ))) = 0 := by
    rw [wins_law _ i measurableSet_Ioi]
    rw [setLIntegral_congr_fun (g := fun _ => 0) measurableSet_Ioi, lintegral_zero]
    intro x hx
    refine Finset.prod_eq_zero (i := j) (Finset.mem_erase.2 ⟨hji, Finset.mem_univ _⟩) ?_
    have hx' : (1024:ℝ) < x := hx
    unfold losing clock
    rw [if_pos hj]
    split_ifs
    · rw [Measure.dirac_apply' _ measurableSet_Ioi, Set.indicator_of_notMem]
      simp only [Set.mem_Ioi, not_lt]; exact hx'.le
    · rw [Measure.dirac_apply' _ measurableSet_Ici, Set.indicator_of_notMem]
      simp only [Set.mem_Ici, not_le]; exact hx'
  refine (measure_mono hsub).trans ((measure_union_le _ _).trans ?_)
  refine (add_le_add_right (measure_union_le _ _) _).trans ?_
  rw [h1, h2]
  simp

namespace CTMC
variable {L : Type}

theorem exitRate_pos (M : CTMC ℝ L n) (h0 : ∀ s s', 0 ≤ M.matrix s s') (s i : Fin n) (hi : 0 < M.matrix s i) :
    0 < ∑ j, M.matrix s j :=
  lt_of_lt_of_le hi (Finset.single_le_sum (fun j _ => h0 s j) (Finset.mem_univ i))

theorem lateProb_nonneg (M : CTMC ℝ L n) (s : Fin n) : 0 ≤ M.lateProb s := by
  unfold lateProb
  split_ifs
  · exact (Real.exp_pos _).le
  · exact le_rfl

theorem lateProb_le_one (M : CTMC ℝ L n) (h0 : ∀ s s', 0 ≤ M.matrix s s') (s : Fin n) : M.lateProb s ≤ 1 := by
  unfold lateProb
  split_ifs
  · rw [Real.exp_le_one_iff]
    have := Finset.sum_nonneg (fun j (_ : j ∈ Finset.univ) => h0 s j)
    nlinarith
  · exact zero_le_one

theorem simProb_nonneg (M : CTMC ℝ L n) (h0 : ∀ s s', 0 ≤ M.matrix s s') (s i : Fin n) : 0 ≤ M.simProb s i := by
  unfold simProb
  split_ifs with h
  · exact mul_nonneg (div_nonneg (h0 _ _) (Finset.sum_nonneg (fun j _ => h0 s j))) (sub_nonneg.2 (M.lateProb_le_one h0 s))
  · exact M.lateProb_nonneg s
  · exact le_rfl

theorem stepSet_univ (M : CTMC ℝ L n) (h0 : ∀ s s', 0 ≤ M.matrix s s') (s i : Fin n) :
    stepLaw n (M.stepSet s i Set.univ) = ENNReal.ofReal (M.simProb s i) := by
  rw [M.stepLaw_stepSet s i MeasurableSet.univ]
  unfold simProb
  by_cases hi : 0 < M.matrix s i
  · have hR := M.exitRate_pos h0 s i hi
    rw [if_pos hi]
    unfold lateProb
    by_cases hz : ∃ j, M.matrix s j = 0
    · rw [if_pos hz, race_before _ i hi (hz.imp (fun j h => h.le)),
        race_law _ (h0 s) i _ measurableSet_Iio (Or.inl subset_rfl), Set.Iio_inter_Ici, integral_race hi.le hR (by norm_num)]
      simp
    · rw [if_neg hz, race_law _ (h0 s) i _ MeasurableSet.univ (Or.inr (fun j => lt_of_le_of_ne (h0 s j) (fun h => hz ⟨j, h.symm⟩))),
        Set.univ_inter, integral_race_top hi.le hR]
      simp
  · have hi0 : M.matrix s i = 0 := le_antisymm (not_lt.1 hi) (h0 s i)
    rw [if_neg hi]
    by_cases hf : ∀ j < i, 0 < M.matrix s j
    · rw [if_pos hf, race_sentinel _ (h0 s) i hi0 hf]
      unfold lateProb
      rw [if_pos ⟨i, hi0⟩]
    · rw [if_neg hf, race_never _ i hi0.le]
      · simp
      · push Not at hf
        exact hf

/-- The next step takes more than `t`. -/
theorem stepLaw_after (M : CTMC ℝ L n) (h0 : ∀ s s', 0 ≤ M.matrix s s') (s : Fin n) (t : ℝ) (ht : 0 ≤ t)
    (h : t < 1024 ∨ ∀ j, 0 < M.matrix s j) :
    stepLaw n {d | ∀ j, t < ringTimes (M.matrix s) d j} = ENNReal.ofReal (Real.exp (-(∑ j, M.matrix s j) * t)) := by
  have e : {d | ∀ j, t < ringTimes (M.matrix s) d j} = ringTimes (M.matrix s) ⁻¹' (Set.pi Set.univ (fun _ => Set.Ioi t)) := by
    ext d; simp
  rw [e, ← Measure.map_apply (measurable_ringTimes _) (MeasurableSet.univ_pi (fun _ => measurableSet_Ioi)), map_ringTimes, Measure.pi_pi]
  rw [Finset.prod_congr rfl (g := fun j => ENNReal.ofReal (Real.exp (-(M.matrix s j * t))))
    (fun j _ => clock_Ioi (h0 s j) ht (h.imp id (fun h => h j)))]
  rw [← ENNReal.ofReal_prod_of_nonneg (fun _ _ => (Real.exp_pos _).le), ← Real.exp_sum, Finset.sum_neg_distrib, ← Finset.sum_mul, neg_mul]

end CTMC
end Jajapy
