import Verif.Spec.BWPCTMC
import Verif.Props.BWCTMC
import Verif.Props.BWLearn

/-!
Specification vocabulary for one iteration of the estimation of parameters: expected numbers over the hidden paths.
-/

set_option autoImplicit false

namespace Jajapy.PCTMC

/-- The values of the parameters (0 for a parameter without value). -/
noncomputable def valueNow (M : PCTMC ℝ) (p : String) : ℝ := (M.values.lookup p).getD 0

/-- The CTMC of the current values. -/
noncomputable def chainNow (M : PCTMC ℝ) : CTMC ℝ String M.matrix.length := M.chain M.valueNow

/-- The rate from `i` to `j` when all the estimated parameters are multiplied by `u`. -/
noncomputable def rateTimes (M : PCTMC ℝ) (fixed : List String) (u : ℝ) (i j : ℕ) : ℝ :=
  (M.rateExpr i j).den (fun q => if q ∈ M.names ∧ q ∉ fixed then M.valueNow q * u else M.valueNow q)

/-- Sum over the transitions, each counted as often as its rate contains `p`. -/
noncomputable def overUses (M : PCTMC ℝ) (p : String) (f : Fin M.matrix.length → Fin M.matrix.length → ℝ) : ℝ :=
  ∑ i : Fin M.matrix.length, ∑ j : Fin M.matrix.length, (M.rateExpr i j).degree p * f i j

/-- Timed traces: the expected number of uses of the parameter `p`, over all the paths that produce the traces. -/
noncomputable def usesTimed (M : PCTMC ℝ) (S : TSet (Sym String)) (p : String) : ℝ := M.overUses p (fun i j => M.chainNow.jumps S i j)

/-- Timed traces: the number of uses of `p` predicted for the expected times in the states, all estimated parameters being multiplied by `u`. -/
noncomputable def predictedTimed (M : PCTMC ℝ) (fixed : List String) (S : TSet (Sym String)) (p : String) (u : ℝ) : ℝ :=
  M.overUses p (fun i j => M.chainNow.timeIn S i * M.rateTimes fixed u i j)

/-- Untimed traces: the expected number of uses of `p`. -/
noncomputable def usesUntimed (M : PCTMC ℝ) (S : TSet String) (p : String) : ℝ := M.overUses p (fun i j => M.chainNow.embedded.uses S i j)

/-- Untimed traces: the number of uses predicted for the expected numbers of visits, each visit lasting its expected time. -/
noncomputable def predictedUntimed (M : PCTMC ℝ) (fixed : List String) (S : TSet String) (p : String) (u : ℝ) : ℝ :=
  M.overUses p (fun i j => M.chainNow.embedded.visits S i / (∑ k, M.chainNow.matrix i k) * M.rateTimes fixed u i j)

end Jajapy.PCTMC
