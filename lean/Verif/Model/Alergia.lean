import Verif.Model.Create

/-!
Model of `jajapy/mc/Alergia.py`: the prefix tree, its merging, and the conversion to a Markov chain.

Nodes are Python objects that are shared and changed in place: a `Heap` maps addresses to nodes. Python's `==` and `in` on
nodes compare addresses. Labels are strings and multiplicities are natural numbers. A recursion that does not end is a
`none` (the first argument bounds the number of nested calls); the theorems show that it does not happen.
Not modelled: `pprint`, and the end of `fit` (conversion to Storm; `output_file_prism` raises an AttributeError, since
the object has no attribute `h`).
-/

namespace Jajapy.Alergia

/-- Alergia.py:6-11 `PTA_node`. A kid is an address and the number of traces that go to it. -/
structure Node where
  label : String
  count : ℕ
  kids : List (ℕ × ℕ)
  parent : Option ℕ

/-- The objects in memory; the addresses below `size` are in use. -/
structure Heap where
  size : ℕ
  node : ℕ → Node

namespace Heap

/-- An object is changed. -/
def set (h : Heap) (x : ℕ) (v : Node) : Heap := ⟨h.size, fun y => if y = x then v else h.node y⟩

/-- A new object. -/
def alloc (h : Heap) (v : Node) : Heap := ⟨h.size + 1, fun y => if y = h.size then v else h.node y⟩

def label (h : Heap) (x : ℕ) : String := (h.node x).label
def count (h : Heap) (x : ℕ) : ℕ := (h.node x).count
def kids (h : Heap) (x : ℕ) : List (ℕ × ℕ) := (h.node x).kids
def parent (h : Heap) (x : ℕ) : Option ℕ := (h.node x).parent

/-- `self.kids = l`. -/
def setKids (h : Heap) (x : ℕ) (l : List (ℕ × ℕ)) : Heap := h.set x { h.node x with kids := l }

/-- `self.count = c`. -/
def setCount (h : Heap) (x : ℕ) (c : ℕ) : Heap := h.set x { h.node x with count := c }

/-- `self.parent = p`. -/
def setParent (h : Heap) (x : ℕ) (p : ℕ) : Heap := h.set x { h.node x with parent := some p }

/-- Alergia.py:13-16 `addKid`: the kid is inserted at the position of its label in the sorted list of the labels. -/
def addKid (h : Heap) (x k c : ℕ) : Heap :=
  let lbls := ((h.kids x).map (fun q => h.label q.1) ++ [h.label k]).insertionSort (· ≤ ·)
  h.setKids x ((h.kids x).insertIdx (lbls.idxOf (h.label k)) (k, c))

/-- Alergia.py:18-22 `findKid`. -/
def findKid (h : Heap) (x : ℕ) (l : String) : Option ℕ := ((h.kids x).find? (fun q => h.label q.1 = l)).map (·.1)

end Heap

/-- The loop of Alergia.py:31-34: the number of the first kid that satisfies the test is increased. -/
def incFirst (test : ℕ → Bool) (c : ℕ) : List (ℕ × ℕ) → List (ℕ × ℕ)
  | [] => []
  | q :: l => if test q.1 then (q.1, q.2 + c) :: l else q :: incFirst test c l

/-- The loop of Alergia.py:37-41: the first kid equal to `s1` becomes `s2`. -/
def replaceFirst (s1 s2 : ℕ) : List (ℕ × ℕ) → List (ℕ × ℕ)
  | [] => []
  | q :: l => if q.1 = s1 then (s2, q.2) :: l else q :: replaceFirst s1 s2 l

namespace Heap

/-- Alergia.py:24-35 `incKid` with a label: the kid found, if any. -/
def incKid (h : Heap) (x : ℕ) (l : String) (c : ℕ) : Heap × Option ℕ :=
  (h.setKids x (incFirst (fun k => h.label k = l) c (h.kids x)), h.findKid x l)

/-- Alergia.py:24-35 `incKid` with a node. -/
def incNode (h : Heap) (x k c : ℕ) : Heap := h.setKids x (incFirst (fun k' => k' = k) c (h.kids x))

/-- Alergia.py:37-42 `replaceKid`. -/
def replaceKid (h : Heap) (x s1 s2 : ℕ) : Heap := h.setKids x (replaceFirst s1 s2 (h.kids x))

end Heap

/-! ### The prefix tree -/

/-- Alergia.py:66-72 `addKids`: a chain of new nodes below `n`; the next node is the last kid. The result is the last node
of the chain. -/
def addKids (h : Heap) (n : ℕ) (c : ℕ) : List String → Heap × ℕ
  | [] => (h, n)
  | l :: s =>
    let h1 := h.alloc ⟨l, 0, [], some n⟩
    let h2 := h1.addKid n h.size c
    addKids h2 (((h2.kids n).getLast?.map (·.1)).getD 0) c s

/-- Alergia.py:44-47: the attributes of a `PTA`. The root has the address 0. -/
structure PTA where
  heap : Heap
  alphabet : List String

/-- Alergia.py:51-64: the `while` loop for one trace, from the node `n`, and the assignment of the count. When a chain is
added the rest of the trace is not added to the alphabet. -/
def insertTrace (p : PTA) (n : ℕ) (time : ℕ) : List String → PTA
  | [] => ⟨p.heap.setCount n time, p.alphabet⟩
  | char :: s =>
    let alphabet := if char ∈ p.alphabet then p.alphabet else p.alphabet ++ [char]
    let r := p.heap.incKid n char time
    match r.2 with
    | none =>
      let q := addKids r.1 n time (char :: s)
      ⟨q.1.setCount q.2 time, alphabet⟩
    | some k => insertTrace ⟨r.1, alphabet⟩ k time s

/-- Alergia.py:46-47: the empty tree. -/
def emptyPTA : PTA := ⟨⟨1, fun _ => ⟨"", 0, [], none⟩⟩, []⟩

/-- Alergia.py:45-64 `PTA.__init__`. -/
def mkPTA (S : TSet String) : PTA :=
  let T := S.sort
  (T.sequences.zip T.times).foldl (fun p q => insertTrace p 0 q.2 q.1) emptyPTA

/-- Alergia.py:241-246 `createPTA`: the caller's set is sorted, the multiplicities follow (those of the first equal
trace). The result is the set before it is sorted again by `PTA.__init__`. -/
def sortSet (S : TSet String) : TSet String :=
  let seqs := S.sequences.mergeSort (fun a b => decide (a ≤ b))
  { S with sequences := seqs, times := seqs.map (fun i => S.times.getD (S.sequences.idxOf i) 0) }

/-- Alergia.py:225-246 `_initialize`: the tree that `fit` works on. (The list `self.alphabet` computed there is not used.) -/
def createPTA (S : TSet String) : PTA := mkPTA (sortSet S)

/-! ### Merging -/

/-- Alergia.py:112-120: the `for` loop of `fold` over the kids of `s2`; `rec` is the recursive call. (Python reads the list of the kids of `s2`
during the loop; it is not changed by it, since the nodes below `s2` are changed only when they have moved.) -/
def foldKids (rec : Heap → ℕ → ℕ → Option Heap) (s1 : ℕ) : List (ℕ × ℕ) → Heap → Option Heap
  | [], h => some h
  | (k2, c) :: rest, h =>
    match h.findKid s1 (h.label k2) with
    | none => foldKids rec s1 rest ((h.addKid s1 k2 c).setParent k2 s1)
    | some k1 =>
      match rec ((h.setCount k1 (h.count k1 + h.count k2)).incNode s1 k1 c) k1 k2 with
      | none => none
      | some h2 => foldKids rec s1 rest h2

/-- Alergia.py:111-120 `fold`. -/
def fold : ℕ → Heap → ℕ → ℕ → Option Heap
  | 0, _, _, _ => none
  | f + 1, h, s1, s2 => foldKids (fold f) s1 (h.kids s2) h

/-- Alergia.py:106-109 `merge`. (The parent of `s2` is not None: only the root has no parent.) -/
def merge (f : ℕ) (h : Heap) (s1 s2 : ℕ) : Option Heap :=
  let h1 := h.setCount s1 (h.count s1 + h.count s2)
  let h2 := match h1.parent s2 with
    | some p => h1.replaceKid p s2 s1
    | none => h1
  fold f h2 s1 s2

/-- The loop of Alergia.py:196-200: the first red node that is compatible. `compat` is the test of the nodes. -/
def mergeFirst (compat : Heap → ℕ → ℕ → Py Bool) (h : Heap) (s1 : ℕ) : List ℕ → Py (Option ℕ)
  | [] => .ok none
  | s2 :: red => do
    if ← compat h s1 s2 then return some s2 else mergeFirst compat h s1 red

/-- Alergia.py:203-205: the kids of the red nodes that are not red, without repetition. -/
def blues (h : Heap) (red : List ℕ) : List ℕ :=
  red.foldl (fun blue s => blue ++ ((h.kids s).map (·.1)).filter (fun k => decide (k ∉ red) && decide (k ∉ blue))) []

/-- Alergia.py:193-205, the `while` loop; `none`: more than the given number of rounds (or of nested calls). -/
def loop (compat : Heap → ℕ → ℕ → Py Bool) (depth : ℕ) : ℕ → Heap → List ℕ → List ℕ → Py (Option (Heap × List ℕ))
  | 0, _, _, _ => .ok none
  | _ + 1, h, red, [] => .ok (some (h, red))
  | f + 1, h, red, s1 :: _ => do
    match ← mergeFirst compat h s1 red with
    | some s2 =>
      match merge depth h s2 s1 with
      | none => return none
      | some h' => loop compat depth f h' red (blues h' red)
    | none => loop compat depth f h (red ++ [s1]) (blues h (red ++ [s1]))

/-- Alergia.py:191-205: the merged tree and its red nodes. A number of rounds and a depth of calls bounded by the number of
nodes: that they are enough is a theorem. -/
def mergeStates (compat : Heap → ℕ → ℕ → Py Bool) (h : Heap) : Py (Option (Heap × List ℕ)) :=
  loop compat (h.size + 1) (h.size + 1) h [0] ((h.kids 0).map (·.1))

/-! ### The compatibility test -/

/-- Alergia.py:81-82: `sum([i for (_,i) in s.kids])`. -/
def leaving (h : Heap) (s : ℕ) : ℕ := ((h.kids s).map (·.2)).sum

/-- Alergia.py:89-98: `leaving1[o] if o in leaving1 else 0`; a label that occurs twice keeps the last number. -/
def freq (h : Heap) (s : ℕ) (o : String) : ℕ :=
  (((h.kids s).filter (fun q => h.label q.1 = o)).getLast?.map (·.2)).getD 0

/-- Alergia.py:96-100: the test for each label of the two lists of kids. (The order in which Python visits the set of the
labels is not specified; only an error could depend on it.) -/
def hoeffdings (bound : ℕ → ℕ → ℕ → ℕ → Py Bool) (h : Heap) (s1 s2 : ℕ) : List String → Py Bool
  | [] => .ok true
  | o :: os => do
    if ← bound (freq h s1 o) (leaving h s1) (freq h s2 o) (leaving h s2) then hoeffdings bound h s1 s2 os else return false

/-- Alergia.py:96: the labels of the kids of two nodes. -/
def kidLabels (h : Heap) (s1 s2 : ℕ) : List String :=
  ((h.kids s1).map (fun q => h.label q.1)) ∪ ((h.kids s2).map (fun q => h.label q.1))

/-- Alergia.py:101-103, the loop over the alphabet; `rec` is the recursive call. -/
def compatibleKids (rec : Option ℕ → Option ℕ → Option (Py Bool)) (h : Heap) (s1 s2 : ℕ) : List String → Option (Py Bool)
  | [] => some (.ok true)
  | char :: chars =>
    match rec (h.findKid s1 char) (h.findKid s2 char) with
    | none => none
    | some (.error e) => some (.error e)
    | some (.ok false) => some (.ok false)
    | some (.ok true) => compatibleKids rec h s1 s2 chars

/-- Alergia.py:74-104 `compatible`; `bound` is the Hoeffding test, an argument `none` is Python's `None`. A `none` as a
result: too many nested calls. -/
def compatible (bound : ℕ → ℕ → ℕ → ℕ → Py Bool) (alphabet : List String) (h : Heap) :
    ℕ → Option ℕ → Option ℕ → Option (Py Bool)
  | 0, _, _ => none
  | _ + 1, none, _ => some (.ok true)
  | _ + 1, some _, none => some (.ok true)
  | f + 1, some s1, some s2 =>
    if h.label s1 ≠ h.label s2 then some (.ok false)
    else if leaving h s1 * leaving h s2 = 0 then some (.ok true)
    else match hoeffdings bound h s1 s2 (kidLabels h s1 s2) with
      | .error e => some (.error e)
      | .ok false => some (.ok false)
      | .ok true => compatibleKids (compatible bound alphabet h f) h s1 s2 alphabet

/-! ### The Markov chain -/

/-- Alergia.py:136-144: the nodes in the order of a breadth-first search; `none`: more than the given number of rounds. -/
def bfs (h : Heap) : ℕ → List ℕ → List ℕ → Option (List ℕ)
  | 0, _, _ => none
  | _ + 1, states, [] => some states
  | f + 1, states, n :: temp =>
    let r := (h.kids n).foldl (fun (r : List ℕ × List ℕ) q =>
      if q.1 ∈ r.1 then r else (r.1 ++ [q.1], r.2 ++ [q.1])) (states, temp)
    bfs h f r.1 r.2

/-- Alergia.py:126-134: the root of the chain, and the tree with the label 'init' at the root if it is not in the
alphabet. -/
def mcRoot (p : PTA) : Py (Heap × ℕ) :=
  if "init" ∈ p.alphabet then
    match p.heap.kids 0 with
    | [(k, _)] => if p.heap.label k = "init" then .ok (p.heap, k) else .error .syntaxError
    | _ => .error .syntaxError
  else .ok (p.heap.set 0 { p.heap.node 0 with label := "init" }, 0)

/-- Alergia.py:148-149: the row of the node `s`: the numbers of its kids, at the positions of these. -/
def rowCounts (h : Heap) (states : List ℕ) (s : ℕ) : ℕ → ℕ :=
  (h.kids s).foldl (fun row q => fun j => if j = states.idxOf q.1 then q.2 else row j) (fun _ => 0)

/-- Alergia.py:146-151: the matrix. -/
def mcMatrix (K : Type) [Field K] (h : Heap) (states : List ℕ) (i j : Fin states.length) : K :=
  let row := rowCounts h states (states.getD i 0)
  if ∃ j : Fin states.length, 0 < row j then (row j : K) / ((List.ofFn (fun j : Fin states.length => row j)).sum : ℕ) else row j

/-- Alergia.py:125-153 `toMC`: the nodes that are the states, and the chain. -/
def toMC (K : Type) [Field K] [LinearOrder K] [FloorRing K] (p : PTA) :
    Py (Option (Σ states : List ℕ, MC K String states.length)) := do
  let (h, root) ← mcRoot p
  match bfs h (h.size + 1) [root] [root] with
  | none => return none
  | some states =>
    let M ← mkMC (mcMatrix K h states) (states.map h.label)
    return some ⟨states, M⟩

/-- Alergia.py:191-206: the end of `fit`, once the tree is built; `bound` is the Hoeffding test for the given `alpha`. -/
def learn (K : Type) [Field K] [LinearOrder K] [FloorRing K] (bound : ℕ → ℕ → ℕ → ℕ → Py Bool) (p : PTA) :
    Py (Option (Σ states : List ℕ, MC K String states.length)) := do
  let compat := fun h s1 s2 => (compatible bound p.alphabet h (h.size + 1) (some s1) (some s2)).getD (.error .runtimeError)
  match ← mergeStates compat p.heap with
  | none => return none
  | some (h, _) => toMC K ⟨h, p.alphabet⟩

/-- Alergia.py:190-206 `fit` up to the Markov chain. -/
def fit (K : Type) [Field K] [LinearOrder K] [FloorRing K] (bound : ℕ → ℕ → ℕ → ℕ → Py Bool) (S : TSet String) :
    Py (Option (Σ states : List ℕ, MC K String states.length)) := learn K bound (createPTA S)

end Jajapy.Alergia
