import Mathlib.Probability.Distributions.Gaussian.Real
import Verif.Model.GoHMM
import Verif.Spec.Paths

/-!
Specification of Gaussian-observation hidden Markov models, on Mathlib's Gaussian density.
-/

namespace Jajapy.GoHMM

open Finset Spec ProbabilityTheory

variable {n d : ℕ}

/-- The density at `x` of the normal distribution of mean `m` and standard deviation `σ > 0`. For `σ = 0` the
distribution has no density: it is the point `m`, and the weight of `x` is 1 or 0. -/
noncomputable def normalWeight (m σ x : ℝ) : ℝ :=
  if σ = 0 then Set.indicator {m} 1 x else gaussianPDFReal m (Real.toNNReal (σ ^ 2)) x

/-- The entries of an observation are independent. -/
noncomputable def emit (M : GoHMM n d) (s : Fin n) (o : Fin d → ℝ) : ℝ := ∏ i, normalWeight (M.mu s i) (M.sigma s i) (o i)

/-- The density of a trace: the sum over the paths. -/
noncomputable def lik (M : GoHMM n d) : List (Fin d → ℝ) → ℝ := listProb M.initialState M.matrix M.emit

/-- The density of moving from `s` to `s'` while observing `o`. -/
noncomputable def step (M : GoHMM n d) (s s' : Fin n) (o : Fin d → ℝ) : ℝ := M.emit s o * M.matrix s s'

/-- The initial distribution and the rows of the matrix are probability distributions, the standard deviations are not
negative. -/
def Valid (M : GoHMM n d) : Prop :=
  (∀ s, 0 ≤ M.initialState s) ∧ ∑ s, M.initialState s = 1 ∧
  (∀ s s', 0 ≤ M.matrix s s') ∧ (∀ s, ∑ s', M.matrix s s' = 1) ∧ ∀ s i, 0 ≤ M.sigma s i

end Jajapy.GoHMM
