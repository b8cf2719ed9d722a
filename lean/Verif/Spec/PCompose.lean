import Verif.Model.PCompose
import Verif.Spec.Compose

/-!
What the composition of several parametric CTMCs should be, once the parameters have values.
-/

namespace Jajapy.PCompose

open PCTMC Spec

variable {K : Type} [Field K]

/-- A component with the states `0, …, labels.length - 1`, its rates, the rates out of its initial state, and its synchronous
transitions (source, action, destination, rate). -/
structure Sys (K : Type) where
  labels : List String
  rate : ℕ → ℕ → K
  init : ℕ → K
  sync : List (ℕ × String × ℕ × K)

/-- The composition of two components; the pair `(i, j)` is the state `i * n + j`, where `n` is the number of states of the
second component. One component moves while the other stays; both leave their initial states together; two transitions with
the same action give one synchronous transition of the composition, with the product of the rates. -/
def Sys.prod (A B : Sys K) : Sys K where
  labels := A.labels.flatMap (fun a => B.labels.map (fun b => a ++ "," ++ b))
  rate := fun x y =>
    (if x % B.labels.length = y % B.labels.length then A.rate (x / B.labels.length) (y / B.labels.length) else 0) +
    (if x / B.labels.length = y / B.labels.length then B.rate (x % B.labels.length) (y % B.labels.length) else 0)
  init := fun y => A.init (y / B.labels.length) * B.init (y % B.labels.length)
  sync := A.sync.flatMap (fun t => B.sync.filterMap (fun u =>
    if t.2.1 = u.2.1 then
      some (t.1 * B.labels.length + u.1, t.2.1, t.2.2.1 * B.labels.length + u.2.2.1, t.2.2.2 * u.2.2.2)
    else none))

/-- All the rates of a composition, the synchronous transitions included. `none` is the initial state. -/
def Sys.total (A : Sys K) : Option ℕ → Option ℕ → K
  | some x, some y => A.rate x y + (A.sync.map (fun t => if t.1 = x ∧ t.2.2.1 = y then t.2.2.2 else 0)).sum
  | none, some y => A.init y
  | _, none => 0

/-- The component that a model is, when the parameters have the values `ρ`: it has the states `l`, and then its initial state. -/
def sysOf (M : PCTMC K) (l : List String) (S : List (Sync K)) (ρ : String → K) : Sys K where
  labels := l
  rate := fun i j => (M.rateExpr i j).den ρ
  init := fun j => (M.rateExpr l.length j).den ρ
  sync := S.map (fun t => (t.1, t.2.1, t.2.2.1, t.2.2.2.den ρ))

/-- The label of a state. -/
def Sys.label (A : Sys K) : Option ℕ → String
  | some x => A.labels.getD x ""
  | none => "init"

/-- The states. -/
def Sys.IsState (A : Sys K) (s : Option ℕ) : Prop := ∀ x, s = some x → x < A.labels.length

/-- `M` is the system `A` without some states that cannot be reached: its states are the list `st` of states of `A`, its rates
(with the values `ρ` of the parameters) and labels are those of `A`, it starts in the initial state, and no state that can be
reached from the initial state is missing. -/
structure Realises (M : PCTMC K) (A : Sys K) (ρ : String → K) (st : List (Option ℕ)) : Prop where
  size : M.matrix.length = st.length
  nodup : st.Nodup
  states : ∀ s ∈ st, A.IsState s
  init : none ∈ st
  rates : ∀ a b (ha : a < st.length) (hb : b < st.length), (M.rateExpr a b).den ρ = A.total st[a] st[b]
  labels : M.labelling = st.map A.label
  starts : M.initialState = st.map (fun s => if s = none then 1 else 0)
  complete : ∀ s, Relation.ReflTransGen (fun a b => A.IsState a ∧ A.IsState b ∧ A.total a b ≠ 0) none s → s ∈ st

/-- A component that can be composed: a well-formed model whose only initial state is the last one, whose first expression is 0,
whose initial rates have values, and whose synchronous transitions `S` are between states that are not initial and use declared
parameters. -/
structure Ok (M : PCTMC K) (l : List String) (S : List (Sync K)) : Prop where
  wf : M.WF
  lab : M.labelling = l ++ ["init"]
  noinit : "init" ∉ l
  zero : M.exprs[0]? = some (.num 0)
  initKnown : ∀ j < l.length, ∀ p, (M.rateExpr l.length j).Occurs p → Known M.values p
  sync : ∀ t ∈ S, t.1 < l.length ∧ t.2.2.1 < l.length
  syncDecl : ∀ t ∈ S, ∀ p, t.2.2.2.Occurs p → p ∈ M.names

/-- `order` is an iteration order of the set of the parameter names of the two models. -/
def IsOrder (m1 m2 : PCTMC K) (order : List String) : Prop :=
  order.Nodup ∧ ∀ p, p ∈ order ↔ p ∈ m1.names ∨ p ∈ m2.names

end Jajapy.PCompose
