import Verif.Spec.PCTMCSim
import Verif.Spec.TimedEval
import Verif.Spec.TSet

/-!
Specification vocabulary for the sets of timed traces generated by instantiated parametric CTMCs.
-/

namespace Jajapy

/-- The set of timed traces, written as the simulator of parametric CTMCs returns them. -/
def TSet.asTraces (S : TSet (Sym String)) : TSet (String ⊕ WithTop ℝ) where
  sequences := S.sequences.map Spec.asTrace
  times := S.times
  floatTimes := S.floatTimes
  type := S.type

/-- A model that can be simulated, whose states can all be left, and whose initial distribution is a distribution. -/
structure PCTMC.Live (M : PCTMC ℝ) (ρ : String → ℝ) : Prop extends M.Sim ρ where
  leaves : ∀ s, ∃ j, 0 < (M.chain ρ).matrix s j
  init_nonneg : ∀ x ∈ M.initialState, 0 ≤ x
  init_sum : M.initialState.sum = 1

end Jajapy
