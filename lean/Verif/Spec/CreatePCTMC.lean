import Verif.Model.CreatePCTMC

/-!
What a description of a PCTMC means.
-/

namespace Jajapy.Spec

/-- The expression that a list of transitions gives to the pair (i,j): the one of the last transition from i to j, and 0 if
there is none. -/
def exprOf {K : Type} [Field K] (ts : List (ℕ × ℕ × Expr K)) (i j : ℕ) : Expr K :=
  match (ts.filter (fun t => t.1 = i ∧ t.2.1 = j)).getLast? with
  | some t => t.2.2
  | none => .num 0

/-- The transitions that mention the parameter `p`. -/
def mentions {K : Type} [Field K] (ts : List (ℕ × ℕ × Expr K)) (p : String) : List (ℕ × ℕ) :=
  (ts.filter (fun t => p ∈ t.2.2.free)).map (fun t => (t.1, t.2.1))

/-- `M` is the PCTMC described by transitions between the states 0, …, n-1, their labels and the transitions from the added
initial state n. -/
structure IsDescribed {K : Type} [Field K] (M : PCTMC K) (n : ℕ) (ts init : List (ℕ × ℕ × Expr K)) (labels params : List String)
    (inst : List (String × Option K)) (sync : List (ℕ × String × ℕ × Expr K)) : Prop where
  size : M.matrix.length = n + 1 ∧ ∀ r ∈ M.matrix, r.length = n + 1
  labels : M.labelling = labels ++ ["init"]
  initial : ∀ s, s < n + 1 → M.initialState[s]? = some (if s = n then 1 else 0)
  expr : ∀ i j, i < n + 1 → j < n + 1 → M.transitionExpression i j = .ok (exprOf (ts ++ init) i j)
  names : M.names = params
  indexes : M.indexes = params.map (mentions (ts ++ init))
  values : ∀ p x, (p, x) ∈ M.values ↔ p ∈ params ∧ (p, some x) ∈ inst
  sync : M.sync = sync

end Jajapy.Spec
