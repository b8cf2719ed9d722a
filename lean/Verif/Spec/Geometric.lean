import Mathlib.Probability.Distributions.Geometric
import Verif.Spec.Draws

/-!
Specification of the random numbers used by one call of a simulator with a random number of steps: the number of failures before
the first success (`numpy.random.geometric(q)` returns this number plus 1), then the uniform numbers of the simulator.
-/

namespace Jajapy.Spec

open MeasureTheory ProbabilityTheory

/-- The law of the number of failures and of the uniform numbers: they are independent. -/
noncomputable def geoDrawsLaw (q : unitInterval) : Measure (ℕ × (ℕ → ℝ)) := (geometricMeasure q).prod drawsLaw

instance (q : unitInterval) : IsProbabilityMeasure (geoDrawsLaw q) := by unfold geoDrawsLaw; infer_instance

end Jajapy.Spec
