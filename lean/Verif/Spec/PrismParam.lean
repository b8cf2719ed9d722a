import Verif.Spec.Prism
import Verif.Spec.Storm

/-!
What Storm builds from a Prism program with parameters (C77).
-/

set_option autoImplicit false

namespace Jajapy

/-- The value of an expression when each parameter `p` has the value `ρ p`. -/
def Expr.at {K : Type} [Field K] (ρ : String → K) : Expr K → K
  | .num c => c
  | .sym p => ρ p
  | .add a b => a.at ρ + b.at ρ
  | .mul a b => a.at ρ * b.at ρ
  | .pow a k => a.at ρ ^ k

namespace Spec.Prism

variable {K : Type} [Field K]

/-- `ρ` gives to the constants of the program that have a value this value. -/
def Agrees {V : Type} (P : Program K V) (ρ : String → K) : Prop := ∀ c ∈ P.consts, ∀ v, c.value = some v → ρ (String.ofList c.name) = v

/-- The rate from `s` to `j` when the constants have the values `ρ`: the rates of all the enabled commands are added. -/
def rateAt (P : Program K (Expr K)) (ρ : String → K) (s j : ℕ) : K :=
  ((enabled P s).map (fun c => ((c.updates.filter (fun u => u.2 = j)).map (fun u => u.1.at ρ)).sum)).sum

/-- The states that can be reached by transitions whose rate is not 0 for all the values of the parameters. -/
inductive ReachableP (P : Program K (Expr K)) : ℕ → Prop
  | init : ReachableP P P.init
  | step {s j : ℕ} (ρ : String → K) (hs : ReachableP P s) (hρ : Agrees P ρ) (hj : rateAt P ρ s j ≠ 0) : ReachableP P j

/-- The value of a transition of the sparse model: the rate of the program; a state without enabled command gets a loop of rate 1. -/
def builtAt (P : Program K (Expr K)) (ρ : String → K) (s j : ℕ) : K :=
  if enabled P s = [] then (if s = j then 1 else 0) else rateAt P ρ s j

/-- `S` is the sparse parametric CTMC of the program `P` some of whose constants have no value: the state number `i` of `S` is the reachable state `e i`
of `P`. The entries of `S` are expressions in the constants without value (the other constants are replaced by their values), equal to the rates of `P`
(Storm may write them in another way). -/
structure BuiltP (P : Program K (Expr K)) (S : Jajapy.Storm.Sparse (Expr K)) (e : Fin S.states.length → ℕ) : Prop where
  valid : Spec.Storm.Valid S
  one : Spec.Storm.OneAction S
  inj : Function.Injective e
  range : ∀ s, ReachableP P s ↔ ∃ i, e i = s
  labels : ∀ (i : Fin S.states.length) (l : String), l ∈ Spec.Storm.labels S i ↔
    (l = "init" ∧ e i = P.init) ∨ (l = "deadlock" ∧ enabled P (e i) = []) ∨ holds P l.toList (e i)
  free : ∀ (i j : ℕ) (x : Expr K), Spec.Storm.Entry S i 0 j x → ∀ p ∈ x.free, ∃ c ∈ P.consts, c.value = none ∧ String.ofList c.name = p
  entry : ∀ (i j : Fin S.states.length) (x : Expr K), Spec.Storm.Entry S i 0 j x → ∀ ρ, Agrees P ρ → x.at ρ = builtAt P ρ (e i) (e j)
  missing : ∀ i j : Fin S.states.length, (∀ x, ¬ Spec.Storm.Entry S i 0 j x) → ∀ ρ, Agrees P ρ → builtAt P ρ (e i) (e j) = 0

/-- The program when all the constants have values: the numbers in place of the expressions. -/
def evaluated (P : Program K (Expr K)) (ρ : String → K) : Program K K :=
  { P with consts := [], commands := P.commands.map (fun c => ⟨c.action, c.guard, c.updates.map (fun u => (u.1.at ρ, u.2))⟩) }

/-- `M'` is the part of the parametric CTMC with the expressions `rate` (`none`: no transition) made of the states `f i`: it contains the initial state and
all that can be reached, the labels and the initial probabilities are the same, and so are the rates for all the values `ρ` of the parameters that agree
with the values `vals`. A state without transitions has a loop of rate 1. -/
structure PartP {n : ℕ} (M' : PCTMC K) (f : ℕ → Fin n) (vals : Valuation K) (rate : Fin n → Fin n → Option (Expr K)) (label : Fin n → String)
    (init : Fin n → K) : Prop where
  inj : ∀ i j, i < M'.matrix.length → j < M'.matrix.length → f i = f j → i = j
  initial : ∀ s, init s ≠ 0 → ∃ i < M'.matrix.length, f i = s
  closed : ∀ i < M'.matrix.length, ∀ s x (ρ : String → K), rate (f i) s = some x → (∀ p v, vals.lookup p = some v → ρ p = v) → x.at ρ ≠ 0 →
    ∃ j < M'.matrix.length, f j = s
  labels : M'.labelling = (List.range M'.matrix.length).map (fun i => label (f i))
  init : M'.initialState = (List.range M'.matrix.length).map (fun i => init (f i))
  rates : ∀ i j, i < M'.matrix.length → j < M'.matrix.length → ∃ x, M'.transitionExpression i j = .ok x ∧
    ∀ ρ : String → K, (∀ p v, vals.lookup p = some v → ρ p = v) →
      x.at ρ = if ∀ s, rate (f i) s = none then (if i = j then 1 else 0) else ((rate (f i) (f j)).map (Expr.at ρ)).getD 0
  params : ∀ p ∈ M'.names, vals.lookup p = none
  values : M'.values = []

end Spec.Prism
end Jajapy
