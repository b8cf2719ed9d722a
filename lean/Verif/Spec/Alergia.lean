import Verif.Model.Alergia

/-!
What the theorems about Alergia talk about: the words of the tree, the number of traces with a prefix, the flow of traces
through the nodes of the merged graph.
-/

namespace Jajapy.Spec.Alergia

open Jajapy.Alergia

/-- The node reached from `x` by a word. -/
def follow (h : Heap) : ℕ → List String → Option ℕ
  | x, [] => some x
  | x, l :: w => match h.findKid x l with
    | none => none
    | some k => follow h k w

/-- The number of traces of a list of (trace, multiplicity) that start with `w`. -/
def prefixCount (ts : List (List String × ℕ)) (w : List String) : ℕ :=
  ((ts.filter (fun t => decide (w <+: t.1))).map (·.2)).sum

/-- The number of traces that are equal to `w`. -/
def traceCount (ts : List (List String × ℕ)) (w : List String) : ℕ :=
  ((ts.filter (fun t => decide (t.1 = w))).map (·.2)).sum

/-- The number of traces on the transitions from `y` to `x`. -/
def edge (h : Heap) (y x : ℕ) : ℕ := (((h.kids y).filter (fun q => decide (q.1 = x))).map (·.2)).sum

/-- The number of traces that arrive in `x` from the nodes of `A`. -/
def inflow (h : Heap) (A : Finset ℕ) (x : ℕ) : ℕ := ∑ y ∈ A, edge h y x

/-- Traces are conserved in the nodes of `A`: `N` traces start in the root, and in every node the number of traces that arrive is
the number of those that end there plus the number of those that leave. -/
def Conserves (h : Heap) (A : Finset ℕ) (N : ℕ) : Prop :=
  ∀ x ∈ A, inflow h A x + (if x = 0 then N else 0) = h.count x + leaving h x

/-- The number of traces that leave `x` with the label `o`. -/
def nextCount (h : Heap) (x : ℕ) (o : String) : ℕ := (((h.kids x).filter (fun q => h.label q.1 = o)).map (·.2)).sum

/-- `o` is the label of a kid of `x`. -/
def Next (h : Heap) (x : ℕ) (o : String) : Prop := ∃ q ∈ h.kids x, h.label q.1 = o

/-- Two nodes look alike: same label, and the frequencies of every next label pass the test (if there are traces leaving both). -/
def Alike (bound : ℕ → ℕ → ℕ → ℕ → Py Bool) (h : Heap) (x y : ℕ) : Prop :=
  h.label x = h.label y ∧ (leaving h x ≠ 0 → leaving h y ≠ 0 → ∀ o, Next h x o ∨ Next h y o →
    bound (nextCount h x o) (leaving h x) (nextCount h y o) (leaving h y) = .ok true)

/-- The futures of two nodes look alike: the nodes reached by a word over the given letters look alike, for every word that can be read from
both. -/
def AlikeFutures (bound : ℕ → ℕ → ℕ → ℕ → Py Bool) (letters : Set String) (h : Heap) (s1 s2 : ℕ) : Prop :=
  ∀ w, (∀ l ∈ w, l ∈ letters) → ∀ x y, follow h s1 w = some x → follow h s2 w = some y → Alike bound h x y

/-! ### The learnt chain -/

/-- The chain `M` has the transition probabilities of `N` traces that all start in the state `start`: there are `c i j` traces that go
from `i` to `j` and `e i` traces that end in `i` (a trace may pass several times); in every state, as many traces arrive as
end there or leave; the probability of a transition is its relative frequency (all 0 if no trace leaves the state). -/
structure Frequencies {K : Type} [Field K] {n : ℕ} (M : MC K String n) (start : Fin n) (N : ℕ) (c : Fin n → Fin n → ℕ) (e : Fin n → ℕ) :
    Prop where
  freq : ∀ i j, M.matrix i j = (c i j : K) / (∑ k, c i k : ℕ)
  flow : ∀ j, ∑ i, c i j + (if j = start then N else 0) = e j + ∑ k, c j k
  ends : ∑ i, e i = N

/-- The labels of the training traces. -/
def Labels (S : TSet String) (l : String) : Prop := ∃ t ∈ S.sequences, l ∈ t

/-- Either no training trace contains the label 'init', or all of them start with it. -/
def InitFirst (S : TSet String) : Prop := (∀ t ∈ S.sequences, "init" ∉ t) ∨ ∀ t ∈ S.sequences, t.head? = some "init"

/-- The trace as the learnt chain generates it: with 'init' in front. -/
def withInit (t : List String) : List String := if t.head? = some "init" then t else "init" :: t

end Jajapy.Spec.Alergia
