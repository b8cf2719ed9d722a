import Verif.Model.IOAlergia

/-!
Model of `runSeq` (IOAlergia.py:356-386): can the automaton produce a sequence of actions and observations?
-/

namespace Jajapy.IOAlergia.Auto

/-- IOAlergia.py:371-383, the `while` loop from the state `s`; the list is the rest of the sequence. The first successor with the observation is taken, and the
choice is never revised. `seq[i_current+1]` raises IndexError after a last action, but is only evaluated if the action has a successor. -/
def runFrom (A : Auto) : ℕ → List String → Py Bool
  | _, [] => .ok true
  | s, [a] => if (A.node s).succAction a = [] then .ok false else .error .indexError
  | s, a :: o :: rest =>
    match ((A.node s).succAction a).find? (fun i => (A.node i).obs = o) with
    | some s' => runFrom A s' rest
    | none => .ok false

/-- IOAlergia.py:370-386: the initial states are tried one after the other. -/
def runInitial (A : Auto) (seq : List String) : List ℕ → Py Bool
  | [] => .ok false
  | s :: l => do
    if ← A.runFrom s seq then return true else runInitial A seq l

/-- IOAlergia.py:356-386 `runSeq`. -/
def runSeq (A : Auto) (seq : List String) : Py Bool := A.runInitial seq A.initial

end Jajapy.IOAlergia.Auto
