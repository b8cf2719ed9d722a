import Mathlib.Data.List.Basic
import Mathlib.Data.List.Lex
import Mathlib.Order.Lex
import Verif.Model.Basic

/-!
Model of `jajapy/base/Set.py`.

A trace is a list of symbols of a type `α` with decidable equality (Python compares traces with `==`).
Multiplicities are natural numbers. numpy gives the array of multiplicities a float dtype when it is obtained by
`append([], …)` (Set.py:201 on an empty set): the flag `floatTimes` records this, because a float multiplicity is later
refused by `range` (Set.py:98) and printed as `3.0` (Set.py:63).
Simplification: one flag is kept for the whole list of multiplicities, and all traces share one order when sorted.
-/

namespace Jajapy

/-- The attributes of a `Set` object (Set.py:29-48). `type` is 0, 1, 3, 4 or `None`. -/
structure TSet (α : Type) where
  sequences : List (List α)
  times : List ℕ
  floatTimes : Bool
  type : Option ℕ
  deriving DecidableEq, Repr

/-- The Python types that the constructor distinguishes (Set.py:37-39). -/
inductive Kind
  | str | float | list | other
  deriving DecidableEq, Repr

namespace TSet

variable {α : Type} [DecidableEq α]

/-- Set.py:76-81, one round of the loop of `setFromList`: `res[0]` are the traces, `res[1]` the multiplicities. -/
def setFromListStep (res : List (List α) × List ℕ) (s : List α) : List (List α) × List ℕ :=
  let res := if s ∈ res.1 then res else (res.1 ++ [s], res.2 ++ [0])
  (res.1, res.2.modify (res.1.idxOf s) (· + 1))

/-- Set.py:66-83 `setFromList` (the resulting traces and multiplicities). -/
def setFromList (l : List (List α)) : List (List α) × List ℕ :=
  l.foldl setFromListStep ([], [])

omit [DecidableEq α] in
/-- Set.py:37-42, the type given to a set when the caller does not give one. The first trace must have two symbols. -/
def inferType (kind : α → Kind) : List α → Py ℕ
  | x :: y :: _ =>
    if kind y = .float ∧ kind x = .str then .ok 4
    else if kind x = .list then .ok 3
    else .ok 0
  | _ => .error .indexError

/-- Set.py:7-48 `Set.__init__`. -/
def mk' (kind : α → Kind) (sequences : List (List α)) (times : Option (List ℕ)) (t : Option ℕ) : Py (TSet α) :=
  match sequences with
  | [] => .ok { sequences := [], times := [], floatTimes := false, type := t }
  | s0 :: _ => do
    let ty : ℕ ← match t with
      | some t => pure t
      | none => inferType kind s0
    match times with
    | none =>
      let r := setFromList sequences
      return { sequences := r.1, times := r.2, floatTimes := false, type := some ty }
    | some times =>
      return { sequences := sequences, times := times, floatTimes := false, type := some ty }

omit [DecidableEq α] in
/-- Set.py:85-100 `to_list`: the stored traces, then the additional copies. `range(j-1)` refuses a float. -/
def toList (S : TSet α) : Py (List (List α)) :=
  if S.floatTimes ∧ S.times ≠ [] then .error .typeError
  else .ok (S.sequences ++ (S.sequences.zip S.times).flatMap (fun p => List.replicate (p.2 - 1) p.1))

/-- Set.py:124-130, the final loop of `isEqual`. -/
def isEqualLoop (set2 : TSet α) : List (List α × ℕ) → Bool
  | [] => true
  | (s, t1) :: rest =>
    if s ∈ set2.sequences then
      match set2.times[set2.sequences.idxOf s]? with
      | some t2 => if t1 ≠ t2 then false else isEqualLoop set2 rest
      | none => false   -- IndexError in Python; excluded when the two lists have the same length
    else false

/-- Set.py:102-131 `isEqual`. -/
def isEqual (S1 S2 : TSet α) : Bool :=
  if S1.type ≠ S2.type then false
  else if S1.times.sum ≠ S2.times.sum then false
  else if S1.sequences.length ≠ S2.sequences.length then false
  else if (S1.sequences.filter (fun i => i ∈ S2.sequences)).length ≠ S2.sequences.length then false
  else isEqualLoop S2 (S1.sequences.zip S1.times)

/-- The symbols at the positions of `range(0,len(l),2)`. -/
def evens : List α → List α
  | [] => []
  | [x] => [x]
  | x :: _ :: rest => x :: evens rest

/-- `[l[i+1] for i in range(0,len(l)-1,2)]` (Set.py:175). -/
def odds : List α → List α
  | [] => []
  | [_] => []
  | _ :: y :: rest => y :: odds rest

/-- `[l[i] for i in range(0,len(l)-1,2)]` (Set.py:176). -/
def evensBeforeLast : List α → List α
  | [] => []
  | [_] => []
  | x :: _ :: rest => x :: evensBeforeLast rest

/-- Append the symbols of `xs` that are not there yet (Set.py:147-149 and 152-154). -/
def addNew (obs xs : List α) : List α :=
  xs.foldl (fun obs x => if x ∈ obs then obs else obs ++ [x]) obs

/-- Set.py:174-176, the loop of `getActionsObservations`; `[-1]` refuses an empty trace. -/
def actObsLoop : List (List α) → Py (List α × List α)
  | [] => .ok ([], [])
  | seq :: rest =>
    match seq.getLast? with
    | none => .error .indexError
    | some last => do
      let r ← actObsLoop rest
      return (odds seq ++ r.1, evensBeforeLast seq ++ [last] ++ r.2)

/-- Set.py:161-179 `getActionsObservations` for a set of type 1. `list(set(..))` removes the duplicates
(the order of the result is not specified by Python). -/
def getActionsObservations (S : TSet α) : Py (List α × List α) := do
  let r ← actObsLoop S.sequences
  return (r.1.dedup, r.2.dedup)

/-- Set.py:133-158 `getAlphabet`. -/
def getAlphabet (S : TSet α) : Py (List α) :=
  if S.type = some 2 ∨ S.type = some 3 then .ok []
  else if S.type = some 4 then .ok (S.sequences.foldl (fun obs s => addNew obs (evens s)) [])
  else if S.type = some 0 then .ok (S.sequences.foldl addNew [])
  else if S.type = some 1 then do return (← getActionsObservations S).2
  else .ok []

/-- Set.py:198-203, one round of the loop of `addSet`. -/
def addSetStep (S : TSet α) (s2float : Bool) (p : List α × ℕ) : TSet α :=
  if p.1 ∈ S.sequences then
    { S with times := S.times.modify (S.sequences.idxOf p.1) (· + p.2) }
  else
    { S with sequences := S.sequences ++ [p.1], times := S.times ++ [p.2],
             floatTimes := S.times = [] ∨ S.floatTimes ∨ s2float }

/-- Set.py:181-203 `addSet`: returns the new value of `self`. -/
def addSet (S1 S2 : TSet α) : Py (TSet α) :=
  if S1.type ≠ S2.type then .error .typeError
  else .ok ((S2.sequences.zip S2.times).foldl (fun S p => addSetStep S S2.floatTimes p) S1)

/-- The order used by `sorted` on pairs (trace, multiplicity): lexicographic. -/
def pairLe [LinearOrder α] (a b : List α × ℕ) : Bool :=
  a.1 < b.1 ∨ (a.1 = b.1 ∧ a.2 ≤ b.2)

/-- Set.py:205-211 `sort`: returns the new value of `self`. -/
def sort [LinearOrder α] (S : TSet α) : TSet α :=
  let x := (S.sequences.zip S.times).mergeSort pairLe
  { S with sequences := x.map (·.1), times := x.map (·.2) }

end TSet
end Jajapy
