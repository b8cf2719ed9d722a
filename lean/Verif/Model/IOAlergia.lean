import Verif.Model.Create
import Mathlib.Data.List.Lex

/-!
Model of `jajapy/mdp/IOAlergia.py`: the prefix tree of a set of traces with actions, the compatibility test, the merging of its states
and the conversion to an MDP.

The states of the tree are numbered, and changed in place (`self.t` and `self.a` are the same object, IOAlergia.py:439-440). Labels and
actions are strings, multiplicities natural numbers. A recursion or a loop that does not end is a `none`; the theorems show that this does
not happen.
Not modelled here: `runSeq` (see Model/IOAlergiaRun), `__str__`, and the end of `fit` (conversion to Storm; `output_file_prism` raises an AttributeError, since the
object has no attribute `h`).
-/

namespace Jajapy.IOAlergia

/-- IOAlergia.py:8-27 `IOFPTA_state`. The dictionary `transitions` is given by its keys, in their order, and its values; a value, two lists
of the same length, is a list of pairs (count, destination). -/
structure Node where
  obs : String
  counter : ℕ
  label : List String
  acts : List String
  trans : String → List (ℕ × ℕ)

namespace Node

/-- IOAlergia.py:68-80 `successorsAction`. -/
def succAction (s : Node) (a : String) : List ℕ := if a ∈ s.acts then (s.trans a).map (·.2) else []

/-- IOAlergia.py:51-66 `successors`: every destination once, sorted. -/
def successors (s : Node) : List ℕ := (s.acts.flatMap (fun a => (s.trans a).map (·.2))).dedup.insertionSort (· ≤ ·)

/-- IOAlergia.py:83-100 `transitionsAdd`. -/
def transitionsAdd (s : Node) (a : String) (c d : ℕ) : Node :=
  if a ∈ s.acts then { s with trans := fun b => if b = a then s.trans a ++ [(c, d)] else s.trans b }
  else { s with acts := s.acts ++ [a], trans := fun b => if b = a then [(c, d)] else s.trans b }

end Node

/-- IOAlergia.py:115, `l[l.index(old)] = new` on the destinations. -/
def replaceFirst (old new : ℕ) : List (ℕ × ℕ) → List (ℕ × ℕ)
  | [] => []
  | q :: l => if q.2 = old then (q.1, new) :: l else q :: replaceFirst old new l

/-- IOAlergia.py:102-115 `transitionChange`. (`merge` calls it only when `old` is in the list: `index` finds it.) -/
def Node.transitionChange (s : Node) (a : String) (old new : ℕ) : Node :=
  { s with trans := fun b => if b = a then replaceFirst old new (s.trans a) else s.trans b }

/-- IOAlergia.py:117-134 `getTransitionProb`: the count of the first transition to `d`. (It is called for a successor.) -/
def Node.getTransitionProb (s : Node) (a : String) (d : ℕ) : ℕ := (((s.trans a).find? (fun q => q.2 = d)).map (·.1)).getD 0

/-- IOAlergia.py:172-198: the attributes of an `IOFPTA`; `size` is `len(self.states)`. -/
structure Auto where
  size : ℕ
  node : ℕ → Node
  observations : List String
  actions : List String
  initial : List ℕ

namespace Auto

/-- `self.states[x]` is changed. -/
def set (A : Auto) (x : ℕ) (v : Node) : Auto := { A with node := fun y => if y = x then v else A.node y }

/-- IOAlergia.py:200-224 `successor`. -/
def successor (A : Auto) (s : ℕ) (a o : String) : Option ℕ :=
  if a ∈ (A.node s).acts then ((A.node s).succAction a).find? (fun i => (A.node i).obs = o) else none

/-! ### The compatibility test -/

/-- IOAlergia.py:258-296 `hoeffding`; `bound f1 n1 f2 n2` is the test of the last line. -/
def hoeffding (bound : ℕ → ℕ → ℕ → ℕ → Py Bool) (A : Auto) (s1 s2 : ℕ) (a o : String) : Py Bool :=
  match A.successor s1 a o, A.successor s2 a o with
  | some i1, some i2 =>
    let f1 : ℕ := (A.node s1).getTransitionProb a i1
    let n1 : ℕ := (((A.node s1).trans a).map (·.1)).sum
    let f2 : ℕ := (A.node s2).getTransitionProb a i2
    let n2 : ℕ := (((A.node s2).trans a).map (·.1)).sum
    if n1 * n2 = 0 then .ok true else bound f1 n1 f2 n2
  | _, _ => .ok true

/-- IOAlergia.py:250-251, 343-344: the pairs of an action and an observation, in the order of the two nested loops. -/
def keys (acts obs : List String) : List (String × String) := acts.flatMap (fun a => obs.map (fun o => (a, o)))

/-- IOAlergia.py:250-256, the two loops; `rec` is the recursive call. -/
def compatLoop (rec : Option ℕ → Option ℕ → Option (Py Bool)) (bound : ℕ → ℕ → ℕ → ℕ → Py Bool) (A : Auto) (s1 s2 : ℕ) :
    List (String × String) → Option (Py Bool)
  | [] => some (.ok true)
  | (a, o) :: ks =>
    match hoeffding bound A s1 s2 a o with
    | .error e => some (.error e)
    | .ok false => some (.ok false)
    | .ok true =>
      match rec (A.successor s1 a o) (A.successor s2 a o) with
      | none => none
      | some (.error e) => some (.error e)
      | some (.ok false) => some (.ok false)
      | some (.ok true) => compatLoop rec bound A s1 s2 ks

/-- IOAlergia.py:226-256 `compatible`; an argument `none` is Python's `None`. A `none` as a result: too many nested calls. -/
def compatible (bound : ℕ → ℕ → ℕ → ℕ → Py Bool) (A : Auto) : ℕ → Option ℕ → Option ℕ → Option (Py Bool)
  | 0, _, _ => none
  | _ + 1, none, _ => some (.ok true)
  | _ + 1, some _, none => some (.ok true)
  | f + 1, some s1, some s2 =>
    if (A.node s1).obs ≠ (A.node s2).obs then some (.ok false)
    else compatLoop (compatible bound A f) bound A s1 s2 (keys A.actions A.observations)

/-! ### Merging -/

/-- IOAlergia.py:298-319 `findPredec`. -/
def findPredec (A : Auto) (s : ℕ) : List (ℕ × String) :=
  (List.range A.size).flatMap (fun i => (A.node i).acts.flatMap (fun a =>
    (((A.node i).succAction a).filter (fun j => decide (j = s))).map (fun _ => (i, a))))

/-- IOAlergia.py:336-338: the transitions to `s2` go to `s1`. -/
def redirect (A : Auto) (s1 s2 : ℕ) : Auto :=
  (A.findPredec s2).foldl (fun A p => A.set p.1 ((A.node p.1).transitionChange p.2 s2 s1)) A

/-- IOAlergia.py:340-341: the counters. -/
def addCounter (A : Auto) (s1 s2 : ℕ) : Auto :=
  let A1 := A.set s1 { A.node s1 with counter := (A.node s1).counter + (A.node s2).counter }
  A1.set s2 { A1.node s2 with counter := 0 }

/-- IOAlergia.py:343-354, the two loops; `rec` is the recursive call. (When both states have the successor, the count of `s2` is
not added to the count of `s1`.) -/
def mergeLoop (rec : Auto → ℕ → ℕ → Option Auto) (s1 s2 : ℕ) : List (String × String) → Auto → Option Auto
  | [], A => some A
  | (a, o) :: ks, A =>
    match A.successor s2 a o with
    | none => mergeLoop rec s1 s2 ks A
    | some t2 =>
      match A.successor s1 a o with
      | some t1 =>
        match rec A t1 t2 with
        | none => none
        | some A' => mergeLoop rec s1 s2 ks A'
      | none =>
        mergeLoop rec s1 s2 ks (A.set s1 ((A.node s1).transitionsAdd a ((A.node s2).getTransitionProb a t2) t2))

/-- IOAlergia.py:321-354 `merge`. (The arguments are never None: lines 346, 348 and 527.) The list of the actions of `s2` is computed once. -/
def merge : ℕ → Auto → ℕ → ℕ → Option Auto
  | 0, _, _, _ => none
  | f + 1, A, s1, s2 =>
    let A1 := (A.redirect s1 s2).addCounter s1 s2
    mergeLoop (merge f) s1 s2 (keys (A1.node s2).acts A1.observations) A1

end Auto

/-! ### The prefix tree -/

/-- IOAlergia.py:447-448: the prefixes `seq[:i+1]` for `i` in `range(0,len(seq),2)`. -/
def prefixes (seq : List String) : List (List String) :=
  ((List.range seq.length).filter (fun i => i % 2 = 0)).map (fun i => seq.take (i + 1))

/-- IOAlergia.py:448-452: one prefix is counted; the list is that of the states, a state is given by its label and its counter. -/
def addPrefix (times : ℕ) : List (List String × ℕ) → List String → List (List String × ℕ)
  | [], p => [(p, times)]
  | (q, c) :: l, p => if q = p then (q, c + times) :: l else (q, c) :: addPrefix times l p

/-- IOAlergia.py:443-452: the states, in the order in which they are found. -/
def countPrefixes (ts : List (List String × ℕ)) : List (List String × ℕ) :=
  ts.foldl (fun st t => (prefixes t.1).foldl (addPrefix t.2) st) []

/-- IOAlergia.py:454-459: the labels are sorted; a state gets the position of its label. -/
def sortStates (st : List (List String × ℕ)) : List (List String × ℕ) :=
  ((st.map (·.1)).insertionSort (· ≤ ·)).map (fun l => (l, ((st.find? (fun q => q.1 = l)).map (·.2)).getD 0))

/-- IOAlergia.py:463-479, the inner loop: the transitions of the state `s1`; the states after it whose label is longer by an action and an
observation. -/
def treeNode (st : List (List String × ℕ)) (s1 : ℕ) : Node :=
  let p := st.getD s1 ([], 0)
  ((List.range st.length).filter (fun s2 => decide (s1 < s2))).foldl (fun n s2 =>
      let q := st.getD s2 ([], 0)
      if q.1.length = p.1.length + 2 ∧ q.1.take (q.1.length - 2) = p.1 then n.transitionsAdd (q.1.getD (q.1.length - 2) "") q.2 s2 else n)
    ⟨p.1.getLast?.getD "", p.2, p.1, [], fun _ => []⟩

/-- IOAlergia.py:442-484 `_buildIOFPTA`. -/
def build (ts : List (List String × ℕ)) (observations actions : List String) : Auto :=
  let st := sortStates (countPrefixes ts)
  ⟨st.length, treeNode st, observations, actions, (List.range st.length).filter (fun i => (st.getD i ([], 0)).1.length = 1)⟩

/-! ### The loop -/

/-- IOAlergia.py:525-529: the first red state that is compatible with the blue state `b`. -/
def firstCompatible (compat : Auto → ℕ → ℕ → Py Bool) (A : Auto) (b : ℕ) : List ℕ → Py (Option ℕ)
  | [] => .ok none
  | r :: red => do
    if ← compat A r b then return some r else firstCompatible compat A b red

/-- IOAlergia.py:533-541: the blue states of the next round; `b` is the state that was treated. -/
def nextBlue (A : Auto) (red blue : List ℕ) (b : ℕ) : List ℕ :=
  (blue.erase b ++ red.flatMap (fun r => (A.node r).successors.filter (fun x => x ∉ red))).dedup.insertionSort (· ≤ ·)

/-- IOAlergia.py:521-541, the `while` loop; `none`: more than the given number of rounds (or of nested calls). -/
def loop (compat : Auto → ℕ → ℕ → Py Bool) (depth : ℕ) : ℕ → Auto → List ℕ → List ℕ → Py (Option (Auto × List ℕ))
  | 0, _, _, _ => .ok none
  | _ + 1, A, red, [] => .ok (some (A, red))
  | f + 1, A, red, b :: blue => do
    match ← firstCompatible compat A b red with
    | some r =>
      match A.merge depth r b with
      | none => return none
      | some A' => loop compat depth f A' red (nextBlue A' red (b :: blue) b)
    | none => loop compat depth f A (red ++ [b]) (nextBlue A (red ++ [b]) (b :: blue) b)

/-- IOAlergia.py:516-541: the merged automaton and its red states. A number of rounds and a depth of calls bounded by the number of
states: that they are enough is a theorem. -/
def mergeStates (compat : Auto → ℕ → ℕ → Py Bool) (A : Auto) : Py (Option (Auto × List ℕ)) :=
  loop compat (A.size + 1) (A.size + 1) A [0] (A.initial.flatMap (fun i => (A.node i).successors))

/-! ### The MDP -/

/-- IOAlergia.py:411-413: the row for the transitions `l`: each destination gets its share. If all the counts are 0 numpy gives `nan`
(here 0). -/
def cleanRow (K : Type) [Field K] (red : List ℕ) (l : List (ℕ × ℕ)) : ℕ → K :=
  l.foldl (fun row q => fun j => if j = red.idxOf q.2 then (q.1 : K) / ((l.map (·.1)).sum : ℕ) else row j) (fun _ => 0)

/-- IOAlergia.py:410, the actions of the list `actions` that are allowed in a state: `[a for a in actions if s.actionAllowed(a)]`. -/
def allowedList (A : Auto) (s : ℕ) : List String := A.actions.filter (fun a => decide (a ∈ (A.node s).acts))

/-- The array of IOAlergia.py:407-414: `si` is a position in `red` (the last row is that of 'init'), `ai` a position in the list of the
actions *that are allowed in this state*. -/
def cleanMatrix (K : Type) [Field K] (A : Auto) (red : List ℕ) (si ai j : ℕ) : K :=
  if si < red.length then
    match (allowedList A (red.getD si 0))[ai]? with
    | some a => cleanRow K red ((A.node (red.getD si 0)).trans a) j
    | none => 0
  else if ai = 0 ∧ j = 0 then 1 else 0

/-- IOAlergia.py:389-415 `cleanMDP`. `states.index` raises a ValueError for a destination that is not red; without actions
`transitions[-1][0]` raises an IndexError. -/
def cleanMDP (K : Type) [Field K] [LinearOrder K] [FloorRing K] (A : Auto) (red : List ℕ) : Py (MDP K String (red.length + 1)) :=
  if ∀ r ∈ red, ∀ a ∈ allowedList A r, ∀ q ∈ (A.node r).trans a, q.2 ∈ red then
    if A.actions = [] then .error .indexError
    else mkMDP A.actions (fun si ai j => cleanMatrix K A red si ai j) (red.map (fun i => (A.node i).obs) ++ ["init"])
  else .error .valueError

/-- IOAlergia.py:526: the compatibility test that the loop uses. -/
def compatTest (bound : ℕ → ℕ → ℕ → ℕ → Py Bool) (A : Auto) (r b : ℕ) : Py Bool :=
  (A.compatible bound (A.size + 1) (some r) (some b)).getD (.error .runtimeError)

/-- IOAlergia.py:427-440, 514-543 `fit` up to the MDP, for a set of type 1; `bound` is the test of `hoeffding` for the given `epsilon`. An empty set
raises IndexError (`sample.sequences[0]`). -/
def fit (K : Type) [Field K] [LinearOrder K] [FloorRing K] (bound : ℕ → ℕ → ℕ → ℕ → Py Bool) (S : TSet String) :
    Py (Option (Σ red : List ℕ, MDP K String (red.length + 1))) := do
  let ao ← S.getActionsObservations
  if S.sequences = [] then .error .indexError
  else
    match ← mergeStates (compatTest bound) (build (S.sequences.zip S.times) (ao.2.insertionSort (· ≤ ·)) (ao.1.insertionSort (· ≤ ·))) with
    | none => return none
    | some (A, red) => do
      let M ← cleanMDP K A red
      return some ⟨red, M⟩

end Jajapy.IOAlergia
