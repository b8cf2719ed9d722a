import Mathlib.Probability.ProductMeasure

/-!
Specification of the random numbers used by a sequence of calls of a simulator: the numbers of the different calls are independent
and have the same law.
-/

namespace Jajapy.Spec

open MeasureTheory

variable {Ω : Type} [MeasurableSpace Ω]

/-- `μ` is the law of the random numbers of one call; `D i` are the numbers of the `i`-th call. -/
noncomputable def callsLaw (μ : Measure Ω) [IsProbabilityMeasure μ] : Measure (ℕ → Ω) := Measure.infinitePi (fun _ => μ)

instance (μ : Measure Ω) [IsProbabilityMeasure μ] : IsProbabilityMeasure (callsLaw μ) := by unfold callsLaw; infer_instance

end Jajapy.Spec
