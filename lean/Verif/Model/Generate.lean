import Verif.Model.TSet

/-!
Model of `generateSet`: `jajapy/base/Model.py` lines 139-204 and `jajapy/mdp/MDP.py` lines 222-270.

The simulator is a parameter: `sim i k` is the outcome of the `i`-th call of `self.run`, with `k` steps (the random
draws of the different calls are different). `geom i` is the `i`-th number drawn by `geometric(param)`.
Simplification: sizes are natural numbers (`run` treats a negative size as 0).
-/

namespace Jajapy

/-- The argument `param`: an int, a list of int, or something else (a float). -/
inductive SizeParam
  | int (k : ℕ)
  | list (l : List ℕ)
  | other

variable {O : Type} [DecidableEq O]

/-- Model.py:183-189 (and MDP.py:254-260): the length of the `i`-th trace. With `param` neither a list nor an int the
variable `curr_size` is not bound. With `distribution == 'geo'` and no `min_size`, `None + int` is a TypeError. -/
def currSize (geo : Bool) (minSize : Option ℕ) (param : SizeParam) (geom : ℕ → ℕ) (i : ℕ) : Py ℕ :=
  if geo then
    match minSize with
    | none => .error .typeError
    | some m => .ok (m + geom i)
  else
    match param with
    | .list l => match l[i]? with
      | some k => .ok k
      | none => .error .indexError
    | .int k => .ok k
    | .other => .error .unboundLocalError

/-- Model.py:196-200: record one more trace. -/
def recordTrace (acc : List (List O) × List ℕ) (trace : List O) : List (List O) × List ℕ :=
  if trace ∉ acc.1 then (acc.1 ++ [trace], acc.2 ++ [1])
  else (acc.1, acc.2.modify (acc.1.idxOf trace) (· + 1))

/-- MDP.py:264-268: the same in the class MDP. -/
def recordTraceMDP (acc : List (List O) × List ℕ) (trace : List O) : List (List O) × List ℕ :=
  let acc := if trace ∉ acc.1 then (acc.1 ++ [trace], acc.2 ++ [0]) else acc
  (acc.1, acc.2.modify (acc.1.idxOf trace) (· + 1))

/-- Model.py:182-200, the loop: `setSize` rounds starting from round `i`. -/
def generateLoop (sim : ℕ → ℕ → Py (List O)) (size : ℕ → Py ℕ)
    (record : List (List O) × List ℕ → List O → List (List O) × List ℕ) :
    ℕ → ℕ → List (List O) × List ℕ → Py (List (List O) × List ℕ)
  | 0, _, acc => .ok acc
  | k + 1, i, acc => do
    let sz ← size i
    let trace ← sim i sz
    generateLoop sim size record k (i+1) (record acc trace)

/-- Model.py:139-202 `generateSet`. -/
def generateSet (kind : O → Kind) (sim : ℕ → ℕ → Py (List O)) (setSize : ℕ) (geo : Bool) (minSize : Option ℕ)
    (param : SizeParam) (geom : ℕ → ℕ) : Py (TSet O) := do
  let r ← generateLoop sim (currSize geo minSize param geom) recordTrace setSize 0 ([], [])
  TSet.mk' kind r.1 (some r.2) none

/-- MDP.py:222-270 `MDP.generateSet`. -/
def generateSetMDP (kind : O → Kind) (sim : ℕ → ℕ → Py (List O)) (setSize : ℕ) (geo : Bool) (minSize : Option ℕ)
    (param : SizeParam) (geom : ℕ → ℕ) : Py (TSet O) := do
  let r ← generateLoop sim (currSize geo minSize param geom) recordTraceMDP setSize 0 ([], [])
  TSet.mk' kind r.1 (some r.2) (some 1)

end Jajapy
