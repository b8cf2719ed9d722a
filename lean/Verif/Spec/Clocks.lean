import Mathlib.Probability.Distributions.Exponential
import Verif.Spec.Draws

/-!
Specification of the random numbers used by the simulator of CTMCs: a uniform number on `[0,1)` that chooses the initial state,
then, for every step and every state, an independent draw of the standard exponential law.
-/

namespace Jajapy.Spec

open MeasureTheory ProbabilityTheory

/-- The standard exponential law, of density `exp(-x)` on the non-negative numbers. -/
noncomputable def expLaw : Measure ℝ := expMeasure 1

instance : IsProbabilityMeasure expLaw := isProbabilityMeasure_expMeasure one_pos

/-- The law of the draws of one step: one independent exponential number for every state. -/
noncomputable def stepLaw (n : ℕ) : Measure (Fin n → ℝ) := Measure.pi (fun _ => expLaw)

instance (n : ℕ) : IsProbabilityMeasure (stepLaw n) := by unfold stepLaw; infer_instance

/-- The law of the draws of all the steps. -/
noncomputable def clocksLaw (n : ℕ) : Measure (ℕ → Fin n → ℝ) := Measure.infinitePi (fun _ => stepLaw n)

instance (n : ℕ) : IsProbabilityMeasure (clocksLaw n) := by unfold clocksLaw; infer_instance

/-- The law of all the numbers drawn by one simulation. -/
noncomputable def simLaw (n : ℕ) : Measure (ℝ × (ℕ → Fin n → ℝ)) := uniform.prod (clocksLaw n)

instance (n : ℕ) : IsProbabilityMeasure (simLaw n) := by unfold simLaw; infer_instance

end Jajapy.Spec
