import Mathlib.Logic.Equiv.Fin.Basic
import Verif.Spec.MDPSim
import Verif.Model.MC

/-!
Specification vocabulary for C115: the Markov chain that an MDP and a scheduler make together.
-/

set_option autoImplicit false

namespace Jajapy

open Finset Spec

namespace Spec

/-- The observations of a trace of an MDP: every other element, the first one included. -/
def mdpObservations {L : Type} : List L → List L
  | [] => []
  | [o] => [o]
  | o :: _ :: w => o :: mdpObservations w

end Spec

namespace MDP
variable {σ L : Type} {n N : ℕ} [DecidableEq L]

open Classical in
/-- The Markov chain of an MDP under a scheduler whose memory takes the values `mem 0, …, mem (N-1)`: its states are the pairs of a
state of the MDP and a value of the memory, with the label of the first. In a pair, the action is chosen by the scheduler, the
MDP moves and the memory is updated with the label of the state that is left. -/
noncomputable def under (M : MDP ℝ L n) (P : Policy σ L) (mem : Fin N → σ) : MC ℝ L (n * N) where
  matrix := fun x y =>
    let (s, m) := finProdFinEquiv.symm x
    let (s', m') := finProdFinEquiv.symm y
    if mem m' = P.update (mem m) (M.labelling s) then ∑ k : Fin M.actions.length, M.choiceProb P s (mem m) M.actions[k] * M.matrix s k s'
    else 0
  labelling := fun x => M.labelling (finProdFinEquiv.symm x).1
  initialState := fun x => if mem (finProdFinEquiv.symm x).2 = P.start then M.initialState (finProdFinEquiv.symm x).1 else 0

end MDP
end Jajapy
