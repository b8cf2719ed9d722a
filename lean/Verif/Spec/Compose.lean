import Verif.Model.Compose
import Verif.Spec.PReduce

/-!
What the composition of two CTMCs should be. Each component has the states `0, …, n-1` and its initial state is the state `n`, the
only one labelled 'init'. A state of the composition is a pair of states, or the initial state (`none`).
-/

namespace Jajapy.Compose

variable {K : Type} [Field K]

/-- The component has `n` states labelled `l`, followed by one initial state. -/
def InitLast (m : Part K) (l : List String) : Prop := m.labelling = l ++ ["init"] ∧ "init" ∉ l

/-- The rate of the synchronised transitions from `(i,j)` to `(i',j')`: for each transition of the first component from `i` to `i'`
and each transition of the second one from `j` to `j'` with the same action, the product of the two rates. -/
def syncRate (m1 m2 : Part K) (i j i' j' : ℕ) : K :=
  (m1.sync.map (fun t => (m2.sync.map (fun u =>
    if t.2.1 = u.2.1 ∧ t.1 = i ∧ t.2.2.1 = i' ∧ u.1 = j ∧ u.2.2.1 = j' then t.2.2.2 * u.2.2.2 else 0)).sum)).sum

/-- The rates of the composition: one of the components moves while the other stays, or both move on the same action; from the
initial state, both components leave their initial state. -/
def rate (m1 m2 : Part K) (n1 n2 : ℕ) : Option (ℕ × ℕ) → Option (ℕ × ℕ) → K
  | some a, some b =>
    (if a.2 = b.2 then m1.rate a.1 b.1 else 0) + (if a.1 = b.1 then m2.rate a.2 b.2 else 0) + syncRate m1 m2 a.1 a.2 b.1 b.2
  | none, some b => m1.rate n1 b.1 * m2.rate n2 b.2
  | _, none => 0

/-- The labels of the composition. -/
def label (l1 l2 : List String) : Option (ℕ × ℕ) → String
  | some a => l1.getD a.1 "" ++ "," ++ l2.getD a.2 ""
  | none => "init"

/-- The states of the composition. -/
def IsState (n1 n2 : ℕ) (s : Option (ℕ × ℕ)) : Prop := ∀ a, s = some a → a.1 < n1 ∧ a.2 < n2

/-- `M` is the composition: its states are the list `st` of states of the composition, its rates (with the values of the
parameters) and labels are those of the composition, it starts in the initial state, and no state that can be reached from the
initial state is missing. -/
structure IsComposition (m1 m2 : Part K) (l1 l2 : List String) (M : PCTMC K) (st : List (Option (ℕ × ℕ))) : Prop where
  size : M.matrix.length = st.length
  nodup : st.Nodup
  states : ∀ s ∈ st, IsState l1.length l2.length s
  init : none ∈ st
  rates : ∀ ρ, Spec.Extends ρ M.values → ∀ a b (ha : a < st.length) (hb : b < st.length),
    (M.rateExpr a b).den ρ = rate m1 m2 l1.length l2.length st[a] st[b]
  labels : M.labelling = st.map (label l1 l2)
  starts : M.initialState = st.map (fun s => if s = none then 1 else 0)
  complete : ∀ s, Relation.ReflTransGen (fun a b => IsState l1.length l2.length a ∧ IsState l1.length l2.length b ∧
    rate m1 m2 l1.length l2.length a b ≠ 0) none s → s ∈ st

end Jajapy.Compose
