import Verif.Model.IOAlergia
import Verif.Spec.MDP

/-!
What the theorems about IOAlergia talk about: traces with actions, the number of traces with a prefix, the words that can be read in the
automaton, the configurations of the main loop.
-/

namespace Jajapy.Spec.IOAlergia

open Jajapy.IOAlergia

/-! ### Traces -/

/-- The trace of an initial observation followed by actions and observations. -/
def trace (o : String) : List (String × String) → List String
  | [] => [o]
  | (a, o') :: w => o :: a :: trace o' w

/-- The number of traces of a list of (trace, multiplicity) that start with `w`. -/
def prefixCount (ts : List (List String × ℕ)) (w : List String) : ℕ := ((ts.filter (fun t => decide (w <+: t.1))).map (·.2)).sum

/-- The steps (observation, action, next observation) of a trace. -/
def steps : List String → List (String × String × String)
  | o :: a :: rest => match rest with
    | [] => []
    | o' :: _ => (o, a, o') :: steps rest
  | _ => []

/-- How often, in the traces, `o` is followed by `a` and `o'`. -/
def stepCount (ts : List (List String × ℕ)) (o a o' : String) : ℕ := (ts.map (fun t => (steps t.1).count (o, a, o') * t.2)).sum

/-! ### The automaton -/

/-- In the automaton, the state `x` has, for the action `a`, a transition to the state `y`, with observation `o`, that has the count `c`. -/
def Arc (A : Auto) (x : ℕ) (a o : String) (c y : ℕ) : Prop := a ∈ (A.node x).acts ∧ (c, y) ∈ (A.node x).trans a ∧ (A.node y).obs = o

/-- From `x`, the actions and observations of `w` lead to `z`. -/
def Reads (A : Auto) : ℕ → List (String × String) → ℕ → Prop
  | x, [], z => x = z
  | x, (a, o) :: w, z => ∃ c y, Arc A x a o c y ∧ Reads A y w z

/-- The sum of the counts of the transitions of `x` for the action `a`. -/
def total (A : Auto) (x : ℕ) (a : String) : ℕ := (((A.node x).trans a).map (·.1)).sum

/-- The sum of the counts of the transitions from `x` to `y` for the action `a`. -/
def going (A : Auto) (x : ℕ) (a : String) (y : ℕ) : ℕ := (((A.node x).trans a).map (fun q => if q.2 = y then q.1 else 0)).sum

/-- Two states look alike: same observation, and for every action and observation *for which both have a transition* the frequencies pass
the test. -/
def Alike (bound : ℕ → ℕ → ℕ → ℕ → Py Bool) (A : Auto) (x y : ℕ) : Prop :=
  (A.node x).obs = (A.node y).obs ∧ ∀ a o c1 z1 c2 z2, Arc A x a o c1 z1 → Arc A y a o c2 z2 →
    bound c1 (total A x a) c2 (total A y a) = .ok true

/-- The futures of two states look alike: the states reached by a word look alike, for every word that can be read from both. -/
def AlikeFutures (bound : ℕ → ℕ → ℕ → ℕ → Py Bool) (A : Auto) (x y : ℕ) : Prop :=
  ∀ w z1 z2, Reads A x w z1 → Reads A y w z2 → Alike bound A z1 z2

/-- The count of the transition of `x` for the action `a` and the observation `o` (0 if there is none). -/
def seen (A : Auto) (x : ℕ) (a o : String) : ℕ := (((A.node x).trans a).filter (fun q => (A.node q.2).obs = o)).map (·.1) |>.sum

/-- What the test is for: in both states the action `a` was done, and the frequencies of *every* observation pass the test. -/
def AlikeEverywhere (bound : ℕ → ℕ → ℕ → ℕ → Py Bool) (A : Auto) (x y : ℕ) : Prop :=
  ∀ a ∈ (A.node x).acts, a ∈ (A.node y).acts → ∀ o, bound (seen A x a o) (total A x a) (seen A y a o) (total A y a) = .ok true

/-- The configurations (automaton, red states, blue states) of the main loop started with the tree `A0`: a blue state is merged into the first compatible
red state, or made red. -/
inductive Visited (bound : ℕ → ℕ → ℕ → ℕ → Py Bool) (A0 : Auto) : Auto → List ℕ → List ℕ → Prop
  | start : Visited bound A0 A0 [0] (A0.initial.flatMap (fun i => (A0.node i).successors))
  | merge {A red b blue r A'} : Visited bound A0 A red (b :: blue) → firstCompatible (compatTest bound) A b red = .ok (some r) →
      A.merge (A.size + 1) r b = some A' → Visited bound A0 A' red (nextBlue A' red (b :: blue) b)
  | promote {A red b blue} : Visited bound A0 A red (b :: blue) → firstCompatible (compatTest bound) A b red = .ok none →
      Visited bound A0 A (red ++ [b]) (nextBlue A (red ++ [b]) (b :: blue) b)

/-! ### The training set and the result -/

/-- A training set of traces with actions: every trace starts and ends with an observation, the multiplicities are positive. -/
structure Training (S : TSet String) : Prop where
  nonempty : S.sequences ≠ []
  times : S.times.length = S.sequences.length
  odd : ∀ t ∈ S.sequences, t.length % 2 = 1
  pos : ∀ n ∈ S.times, 0 < n

/-- `A` is the prefix tree that is built for the training set. -/
def IsTree (S : TSet String) (A : Auto) : Prop := ∃ acts obs, S.getActionsObservations = .ok (acts, obs) ∧
  A = build (S.sequences.zip S.times) (obs.insertionSort (· ≤ ·)) (acts.insertionSort (· ≤ ·))

/-- The main loop ends with the automaton `A` and the states `red`. -/
def Learnt (bound : ℕ → ℕ → ℕ → ℕ → Py Bool) (S : TSet String) (A : Auto) (red : List ℕ) : Prop := ∃ A0, IsTree S A0 ∧ Visited bound A0 A red []

/-- The actions that were done in the state `x` are the first ones of the (sorted) list of the actions. -/
def FirstActions (A : Auto) (x : ℕ) : Prop := ∃ k, ∀ a ∈ A.actions, a ∈ (A.node x).acts ↔ a ∈ A.actions.take k

/-- From `s` the MDP can produce the trace: every step has a positive probability. -/
inductive Possible {K : Type} [Field K] [LinearOrder K] {n : ℕ} (M : MDP K String n) : Fin n → List String → Prop
  | last (s : Fin n) : Possible M s [M.labelling s]
  | step {s s' : Fin n} {x : String} {w : List String} : 0 < M.prob s x s' → Possible M s' w → Possible M s (M.labelling s :: x :: w)

end Jajapy.Spec.IOAlergia
