import Mathlib.Logic.Relation
import Verif.Spec.PCTMC

/-!
What it means for a parametric CTMC to be another one without some of its states.
-/

namespace Jajapy.PCTMC

variable {K : Type} [Field K]

/-- There is a transition from `i` to `j`: the index in the matrix is not 0. -/
def Edge (M : PCTMC K) (i j : ℕ) : Prop :=
  i < M.matrix.length ∧ j < M.matrix.length ∧ (M.matrix.getD i []).getD j 0 ≠ 0

/-- `j` can be reached from a state labelled 'init'. -/
def Reachable (M : PCTMC K) (j : ℕ) : Prop :=
  ∃ i, i < M.matrix.length ∧ M.labelling.getD i "" = "init" ∧ Relation.ReflTransGen M.Edge i j

/-- The entries of `parameter_indexes` are pairs of states. -/
def IndexesInRange (M : PCTMC K) : Prop :=
  ∀ l ∈ M.indexes, ∀ p ∈ l, p.1 < M.matrix.length ∧ p.2 < M.matrix.length

/-- `M'` is `M` restricted to the states of the increasing list `keep`: its state number `a` is the state `keep[a]` of `M`,
with the same label, the same initial probability and the same rate expressions; the transitions recorded for each parameter
are those between kept states; the parameters and their values are the same. -/
structure Restricts (M' M : PCTMC K) (keep : List ℕ) : Prop where
  sorted : keep.Pairwise (· < ·)
  inRange : ∀ k ∈ keep, k < M.matrix.length
  size : M'.matrix.length = keep.length
  square : ∀ row ∈ M'.matrix, row.length = M'.matrix.length
  edge : ∀ a b (ha : a < keep.length) (hb : b < keep.length), M'.Edge a b ↔ M.Edge keep[a] keep[b]
  rate : ∀ a b (ha : a < keep.length) (hb : b < keep.length), M'.rateExpr a b = M.rateExpr keep[a] keep[b]
  labels : M'.labelling = keep.map (fun k => M.labelling.getD k "")
  init : M'.initialState = keep.map (fun k => M.initialState.getD k 0)
  used : M'.indexes.length = M.indexes.length ∧ ∀ p a b, (a, b) ∈ M'.indexes.getD p [] ↔
    ∃ (ha : a < keep.length) (hb : b < keep.length), (keep[a], keep[b]) ∈ M.indexes.getD p []
  names : M'.names = M.names
  values : M'.values = M.values

/-- `M'` is `M` where some expressions have been removed and the others renumbered: each pair of states has the same rate
expression, and nothing else has changed. -/
structure SameRates (M' M : PCTMC K) : Prop where
  size : M'.matrix.length = M.matrix.length
  square : ∀ row ∈ M'.matrix, row.length = M'.matrix.length
  rate : ∀ i j, i < M.matrix.length → j < M.matrix.length → M'.rateExpr i j = M.rateExpr i j
  sub : M'.exprs.Sublist M.exprs
  rest : { M' with matrix := M.matrix, exprs := M.exprs } = M

end Jajapy.PCTMC
