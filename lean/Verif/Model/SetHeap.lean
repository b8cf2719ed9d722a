import Verif.Model.Prep

/-!
`Set` objects (jajapy/base/Set.py) in a memory: the traces are list objects, the attribute `sequences` is a list object too, and both can be shared by several
`Set` objects and by the caller. `times` is never shared: it is a new array (Set.py:48, 83, 201) or a new list (Set.py:212).

Histories of calls; a call that raises an exception can leave its traces in the memory, and the history goes on.
-/

set_option autoImplicit false

namespace Jajapy
namespace SetHeap

/-- A `Set` object: the address of `sequences`, and the other attributes. -/
structure SetRef where
  seq : ℕ
  times : List ℕ
  floatTimes : Bool
  type : Option ℕ
  deriving DecidableEq, Repr

/-- The memory: the traces, the lists of traces (as addresses of traces), the `Set` objects. -/
structure Heap (α : Type) where
  traces : List (List α)
  lists : List (List ℕ)
  sets : List SetRef
  deriving DecidableEq, Repr

variable {α : Type}

/-- A new memory. -/
def Heap.empty : Heap α := ⟨[], [], []⟩

/-- What a `Set` object looks like to someone who reads its attributes. -/
def Heap.view (H : Heap α) (S : SetRef) : TSet α :=
  { sequences := (H.lists.getD S.seq []).map (fun r => H.traces.getD r []), times := S.times, floatTimes := S.floatTimes, type := S.type }

/-- What all the `Set` objects look like. -/
def Heap.views (H : Heap α) : List (TSet α) := H.sets.map H.view

/-- The calls. -/
inductive Op (α : Type)
  /-- `Set(l,times,t)` where `l` is written down for this call. -/
  | make (l : List (List α)) (times : Option (List ℕ)) (t : Option ℕ)
  /-- `Set(s.sequences,times,t)` (or with the list that was given to the constructor of `s`), `s` being object number `i`. -/
  | share (i : ℕ) (times : List ℕ) (t : Option ℕ)
  /-- `s.addSet(s')`. -/
  | addSet (i j : ℕ)
  /-- `s.sort()`, also called by `logLikelihood` on its argument (Model.py:320). -/
  | sort (i : ℕ)
  /-- `fit` with the training set `s` and a model of type `m` (BW.py:1434-1462: the traces may get the label 'init'). -/
  | fit (i : ℕ) (m : Option ℕ)

/-- Set.py:7-48 `Set(l,times,t)` with a list written down for the call. With `times` the list and its traces are kept, without it they are copied: either way
new list objects are made in this call. An empty list is replaced by a new one (Set.py:30-31). -/
def Heap.make [DecidableEq α] (kind : α → Kind) (H : Heap α) (l : List (List α)) (times : Option (List ℕ)) (t : Option ℕ) : Heap α × Option Err :=
  match TSet.mk' kind l times t with
  | .error e => (H, some e)
  | .ok S =>
    (⟨H.traces ++ S.sequences, H.lists ++ [List.range' H.traces.length S.sequences.length], H.sets ++ [⟨H.lists.length, S.times, S.floatTimes, S.type⟩]⟩, none)

/-- Set.py:30-48 `Set(l,times,t)` where `l` is the list `sequences` of another set: the new object keeps the list (Set.py:47), unless it is empty. -/
def Heap.share [DecidableEq α] (kind : α → Kind) (H : Heap α) (i : ℕ) (times : List ℕ) (t : Option ℕ) : Heap α × Option Err :=
  match H.sets[i]? with
  | none => (H, some .indexError)
  | some S0 =>
    match TSet.mk' kind (H.view S0).sequences (some times) t with
    | .error e => (H, some e)
    | .ok S =>
      if (H.view S0).sequences = [] then
        (⟨H.traces, H.lists ++ [[]], H.sets ++ [⟨H.lists.length, S.times, S.floatTimes, S.type⟩]⟩, none)
      else (⟨H.traces, H.lists, H.sets ++ [⟨S0.seq, S.times, S.floatTimes, S.type⟩]⟩, none)

/-- Set.py:198-203, round number `k` of the loop of `addSet`: everything is read from the memory as it is now. When `times[k]` does not exist the trace has
already been appended. -/
def Heap.addStep [DecidableEq α] (H : Heap α) (i j k : ℕ) : Heap α × Option Err :=
  match H.sets[i]?, H.sets[j]? with
  | some S1, some S2 =>
    match (H.lists.getD S2.seq [])[k]? with
    | none => (H, some .indexError)
    | some r =>
      if H.traces.getD r [] ∈ (H.view S1).sequences then
        match S2.times[k]?, S1.times[(H.view S1).sequences.idxOf (H.traces.getD r [])]? with
        | some t, some _ =>
          (⟨H.traces, H.lists, H.sets.set i { S1 with times := S1.times.modify ((H.view S1).sequences.idxOf (H.traces.getD r [])) (· + t) }⟩, none)
        | _, _ => (H, some .indexError)
      else
        match S2.times[k]? with
        | some t =>
          (⟨H.traces, H.lists.modify S1.seq (· ++ [r]),
            H.sets.set i { S1 with times := S1.times ++ [t], floatTimes := S1.times = [] ∨ S1.floatTimes ∨ S2.floatTimes }⟩, none)
        | none => (⟨H.traces, H.lists.modify S1.seq (· ++ [r]), H.sets⟩, some .indexError)
  | _, _ => (H, some .indexError)

/-- The rounds number `k`, …, `k + m - 1`; an exception stops the loop. -/
def Heap.addLoop [DecidableEq α] (i j : ℕ) : ℕ → ℕ → Heap α → Heap α × Option Err
  | _, 0, H => (H, none)
  | k, m + 1, H =>
    match H.addStep i j k with
    | (H, some e) => (H, some e)
    | (H, none) => addLoop i j (k + 1) m H

/-- Set.py:181-203 `addSet`. `range(len(s2.sequences))` is computed once. -/
def Heap.addSet [DecidableEq α] (H : Heap α) (i j : ℕ) : Heap α × Option Err :=
  match H.sets[i]?, H.sets[j]? with
  | some S1, some S2 =>
    if S1.type ≠ S2.type then (H, some .typeError)
    else Heap.addLoop i j 0 (H.lists.getD S2.seq []).length H
  | _, _ => (H, some .indexError)

/-- Set.py:205-212 `sort`: a new list, with the same traces. -/
def Heap.sort [LinearOrder α] (H : Heap α) (i : ℕ) : Heap α × Option Err :=
  match H.sets[i]? with
  | none => (H, some .indexError)
  | some S =>
    let x := ((H.lists.getD S.seq []).zip S.times).mergeSort (fun p q => TSet.pairLe (H.traces.getD p.1 [], p.2) (H.traces.getD q.1 [], q.2))
    (⟨H.traces, H.lists ++ [x.map (·.1)], H.sets.set i { S with seq := H.lists.length, times := x.map (·.2) }⟩, none)

/-- BW.py:1434-1462, the effect of `fit` on the training set. -/
def Heap.fit [DecidableEq α] (kind : α → Kind) (init : α) (H : Heap α) (i : ℕ) (m : Option ℕ) : Heap α × Option Err :=
  match H.sets[i]? with
  | none => (H, some .indexError)
  | some S =>
    match Prep.getTrainingSet kind init m H.traces (.obj ⟨H.lists.getD S.seq [], S.times, S.floatTimes, S.type⟩) with
    | .error e => (H, some e)
    | .ok r => (⟨r.1, H.lists, H.sets⟩, none)

/-- One call. -/
def Heap.step [LinearOrder α] (kind : α → Kind) (init : α) (H : Heap α) : Op α → Heap α × Option Err
  | .make l times t => H.make kind l times t
  | .share i times t => H.share kind i times t
  | .addSet i j => H.addSet i j
  | .sort i => H.sort i
  | .fit i m => H.fit kind init i m

/-- A history: the memory at the end, and what each call raised. -/
def Heap.run [LinearOrder α] (kind : α → Kind) (init : α) : List (Op α) → Heap α → Heap α × List (Option Err)
  | [], H => (H, [])
  | o :: os, H =>
    let r := H.step kind init o
    let s := Heap.run kind init os r.1
    (s.1, r.2 :: s.2)

end SetHeap
end Jajapy
