import Verif.Model.Storm
import Verif.Spec.Models
import Verif.Spec.CreatePCTMC

/-!
What a Storm sparse model means: its states, their names, its transitions and trace probabilities.
-/

namespace Jajapy.Spec.Storm

open Jajapy.Storm

variable {V : Type}

/-- The state `i` has, for its action number `a`, a transition to `j` with the value `v`. -/
def Entry (S : Sparse V) (i a j : ℕ) (v : V) : Prop :=
  ∃ s r, S.states[i]? = some s ∧ s.actions[a]? = some r ∧ (j, v) ∈ r

/-- The labels of the state `i`. -/
def labels (S : Sparse V) (i : ℕ) : List String := ((S.states[i]?).map (·.labels)).getD []

/-- What Storm ensures: the labels of a state are distinct, and so are the columns of a row; the columns are states. -/
structure Valid (S : Sparse V) : Prop where
  labels : ∀ s ∈ S.states, s.labels.Nodup
  columns : ∀ s ∈ S.states, ∀ r ∈ s.actions, (r.map (·.1)).Nodup
  range : ∀ s ∈ S.states, ∀ r ∈ s.actions, ∀ q ∈ r, q.1 < S.states.length

/-- A Markov chain: every state has one action. -/
def OneAction (S : Sparse V) : Prop := ∀ s ∈ S.states, ∃ r, s.actions = [r]

/-- The name of a state in jajapy: its labels other than 'deadlock' and 'init', sorted and joined by '_'; if there are none, 'init' for an initial state,
and 'empty' otherwise. -/
def name (labels : List String) : String :=
  let others := labels.filter (fun l => l ≠ "deadlock" ∧ l ≠ "init")
  if others = [] then (if "init" ∈ labels then "init" else "empty") else String.intercalate "_" (others.insertionSort (· ≤ ·))

/-- The state has a label that jajapy shows beside 'init'. -/
def Named (labels : List String) : Prop := ∃ l ∈ labels, l ≠ "deadlock" ∧ l ≠ "init"

/-- `k` is the only initial state. -/
def OnlyInit (S : Sparse V) (k : ℕ) : Prop := k < S.states.length ∧ ∀ i < S.states.length, "init" ∈ labels S i ↔ i = k

/-- The names of the states, when a state 'init' is added after them. -/
def newLabels (S : Sparse V) : Fin (S.states.length + 1) → String := Fin.lastCases "init" (fun i => name (labels S i))

/-- `order` is a possible result of Python's `list(set(l))`. -/
def SetOrder (order l : List String) : Prop := order.Nodup ∧ ∀ x, x ∈ order ↔ x ∈ l

variable {K : Type} [Field K]

/-- The value of the transitions from `i` to `j` for the action number `a`: the sum of the entries. -/
def value (S : Sparse K) (i a j : ℕ) : K :=
  ((((S.states[i]?.map (·.actions)).getD [])[a]?.getD []).filter (fun q => q.1 = j) |>.map (·.2)).sum

/-- The probability that a sparse Markov chain generates a sequence of names, from the state `k`. -/
def prob (S : Sparse K) (k : ℕ) : List String → K :=
  listProb (n := S.states.length) (fun s => if s.val = k then 1 else 0) (fun s s' => value S s 0 s') (fun s o => if name (labels S s) = o then 1 else 0)

end Jajapy.Spec.Storm
