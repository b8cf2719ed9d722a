import Mathlib.Probability.Distributions.Gaussian.Real
import Mathlib.MeasureTheory.Constructions.Pi
import Verif.Spec.Draws
import Verif.Spec.GoHMM

/-!
Specification for the simulator of GoHMMs: `random()` returns independent uniform numbers, `normal(mu, sigma)` the number `mu + sigma z` for independent
standard normal numbers `z`, one for each entry of an observation.
-/

namespace Jajapy.Spec

open MeasureTheory ProbabilityTheory

/-- The law of the `d` standard normal numbers of one observation. -/
noncomputable def normalLaw (d : ℕ) : Measure (Fin d → ℝ) := Measure.pi (fun _ => gaussianReal 0 1)

instance (d : ℕ) : IsProbabilityMeasure (normalLaw d) := by unfold normalLaw; infer_instance

/-- The law of the normal numbers of all the observations. -/
noncomputable def normalsLaw (d : ℕ) : Measure (ℕ → Fin d → ℝ) := Measure.infinitePi (fun _ => normalLaw d)

instance (d : ℕ) : IsProbabilityMeasure (normalsLaw d) := by unfold normalsLaw; infer_instance

/-- The law of all the numbers a simulation draws. -/
noncomputable def goLaw (d : ℕ) : Measure ((ℕ → ℝ) × (ℕ → Fin d → ℝ)) := drawsLaw.prod (normalsLaw d)

instance (d : ℕ) : IsProbabilityMeasure (goLaw d) := by unfold goLaw; infer_instance

end Jajapy.Spec

namespace Jajapy.GoHMM

open MeasureTheory ProbabilityTheory

variable {n d : ℕ}

/-- The law of an observation made in the state `s`: independent entries, entry `i` normal with mean `mu s i` and standard deviation `sigma s i` (the point
`mu s i` if `sigma s i` is 0). -/
noncomputable def obsLaw (M : GoHMM n d) (s : Fin n) : Measure (Fin d → ℝ) :=
  Measure.pi (fun i => gaussianReal (M.mu s i) (Real.toNNReal (M.sigma s i ^ 2)))

instance (M : GoHMM n d) (s : Fin n) : IsProbabilityMeasure (M.obsLaw s) := by unfold obsLaw; infer_instance

end Jajapy.GoHMM
