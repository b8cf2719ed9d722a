import Mathlib.MeasureTheory.Integral.Bochner.Set
import Mathlib.MeasureTheory.Constructions.Pi
import Mathlib.Data.Fintype.Pi
import Verif.Spec.CTMCSim

/-!
Specification vocabulary for sets of timed traces generated by CTMCs.
-/

namespace Jajapy.CTMC

open MeasureTheory Spec

variable {L : Type} {n m : ℕ} [DecidableEq L]

/-- The sequences of `k+1` labels of `G`: `k` labels and the last one. -/
def shown (G : CTMC ℝ L n) (k : ℕ) : Finset ((Fin k → L) × L) :=
  (Fintype.piFinset (fun _ => Finset.univ.image G.labelling)) ×ˢ (Finset.univ.image G.labelling)

/-- The expected value, when the timed traces with `k` times have the density of `G`, of the logarithm of the density of `N`. -/
noncomputable def expectedLog (G : CTMC ℝ L n) (N : CTMC ℝ L m) (k : ℕ) : ℝ :=
  ∑ o ∈ G.shown k, ∫ ts in {ts : Fin k → ℝ | ∀ i, 0 ≤ ts i}, G.density (timedTrace o.1 ts o.2) * Real.log (N.density (timedTrace o.1 ts o.2))

/-- The logarithm of the density of the returned trace (0 if an exception is raised). -/
noncomputable def logOf (N : CTMC ℝ L m) : Py (List (Sym L)) → ℝ
  | .ok w => Real.log (N.density w)
  | .error _ => 0

end Jajapy.CTMC
