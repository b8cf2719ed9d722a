import Mathlib.Probability.ProductMeasure
import Mathlib.MeasureTheory.Measure.Lebesgue.Basic

/-!
Specification of the random numbers used by the simulators: `random()` returns independent numbers uniform on `[0,1)`.
-/

namespace Jajapy.Spec

open MeasureTheory

/-- The uniform law on `[0,1)`. -/
noncomputable def uniform : Measure ℝ := volume.restrict (Set.Ico 0 1)

instance : IsProbabilityMeasure uniform := ⟨by simp [uniform]⟩

/-- The law of an infinite sequence of independent uniform numbers. -/
noncomputable def drawsLaw : Measure (ℕ → ℝ) := Measure.infinitePi (fun _ => uniform)

instance : IsProbabilityMeasure drawsLaw := by unfold drawsLaw; infer_instance

end Jajapy.Spec
