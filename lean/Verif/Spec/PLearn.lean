import Verif.Spec.BWPCTMC
import Verif.Spec.Observable

/-!
Specification vocabulary for the estimation of the parameters of a PCTMC whose states have pairwise different labels.
-/

namespace Jajapy.PCTMC

open Spec

/-- No transition whose rate contains `p` contains another one of the estimated parameters. -/
def Alone (M : PCTMC ℝ) (toUpdate : List String) (p : String) : Prop :=
  ∀ i j, i < M.matrix.length → j < M.matrix.length → (M.rateExpr i j).Occurs p → ∀ q ∈ toUpdate, (M.rateExpr i j).Occurs q → q = p

/-- The rate from `i` to `j` for `p = 1`, the other parameters having their values. -/
noncomputable def rateAtOne (M : PCTMC ℝ) (p : String) (i j : ℕ) : ℝ :=
  (M.rateExpr i j).den (Function.update (fun q => (M.values.lookup q).getD 0) p 1)

/-- How often the traces use transitions whose rate contains `p`, each use being counted as often as its rate contains `p`. -/
noncomputable def observedUses (M : PCTMC ℝ) (S : TSet (Sym String)) (p : String) : ℝ :=
  ∑ i : Fin M.matrix.length, ∑ j : Fin M.matrix.length,
    (M.rateExpr i j).degree p * (jumpCount S (M.labelling.getD i "") (M.labelling.getD j "") : ℝ)

/-- The expected value of this number in the times that the traces spend in the states, if `p` has the value `x`. -/
noncomputable def expectedUses (M : PCTMC ℝ) (S : TSet (Sym String)) (p : String) (x : ℝ) : ℝ :=
  ∑ i : Fin M.matrix.length, ∑ j : Fin M.matrix.length,
    (M.rateExpr i j).degree p * (totalTime S (M.labelling.getD i "") * (M.rateAtOne p i j * x ^ (M.rateExpr i j).degree p))

end Jajapy.PCTMC
