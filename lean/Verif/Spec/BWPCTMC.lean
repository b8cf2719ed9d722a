import Verif.Model.BWPCTMC
import Verif.Spec.PCTMC

/-!
Specification vocabulary for the estimation of the parameters of a PCTMC.
-/

namespace Jajapy

namespace Expr
variable {K : Type} [Field K]

/-- The expression is a monomial in the parameters of `est`: a product of an expression without these parameters, of
parameters and of powers of parameters, where no parameter of `est` occurs twice (sympy writes `x*x` as `x**2`). -/
inductive Monomial (est : String → Prop) : Expr K → Prop
  | const (e : Expr K) : (∀ p, est p → ¬ e.Occurs p) → Monomial est e
  | sym (p : String) : Monomial est (sym p)
  | pow (p : String) (k : ℕ) : 0 < k → Monomial est (pow (sym p) k)
  | mul (a b : Expr K) : Monomial est a → Monomial est b → (∀ p, est p → a.Occurs p → ¬ b.Occurs p) →
      Monomial est (mul a b)

/-- The degree of an expression in the parameter `p`. -/
def degree (p : String) : Expr K → ℕ
  | num _ => 0
  | sym q => if q = p then 1 else 0
  | add a b => max (a.degree p) (b.degree p)
  | mul a b => a.degree p + b.degree p
  | pow a k => k * a.degree p

end Expr

namespace PCTMC
open Spec

/-- The models on which the theorems about the estimation of the parameters other than `fixed` are proved. -/
structure Estimable (M : PCTMC ℝ) (fixed : List String) : Prop where
  wf : M.WF
  /-- every parameter has a value -/
  full : M.Full
  names : M.names.Nodup
  /-- the transitions recorded for an estimated parameter are those whose rate contains it, once each -/
  indexes : ∀ p ∈ M.names, p ∉ fixed → (M.indexesOf p).Nodup ∧
    ∀ i j, (i, j) ∈ M.indexesOf p ↔ i < M.matrix.length ∧ j < M.matrix.length ∧ (M.rateExpr i j).Occurs p
  /-- the rates are monomials in the estimated parameters -/
  monomial : ∀ i j, i < M.matrix.length → j < M.matrix.length →
    (M.rateExpr i j).Monomial (fun p => p ∈ M.names ∧ p ∉ fixed)
  /-- no rate and no initial probability is negative -/
  valid : ∀ ρ, Extends ρ M.values → (M.chain ρ).Valid
  /-- no estimated parameter is negative -/
  nonneg : ∀ p ∈ M.names, p ∉ fixed → ∀ x, M.values.lookup p = some x → 0 ≤ x

/-- The density of a timed trace under the current values of the parameters. -/
noncomputable def density (M : PCTMC ℝ) (w : List (Sym String)) : ℝ := (M.chain (fun p => (M.values.lookup p).getD 0)).density w

/-- The probability of an untimed trace under the current values of the parameters. -/
noncomputable def lik (M : PCTMC ℝ) (w : List String) : ℝ := (M.chain (fun p => (M.values.lookup p).getD 0)).embedded.lik w

/-- The sum of the rates out of a state, under the current values of the parameters. -/
noncomputable def exitRate (M : PCTMC ℝ) (s : ℕ) : ℝ :=
  ((List.range M.matrix.length).map (fun j => (M.rateExpr s j).den (fun p => (M.values.lookup p).getD 0))).sum

/-- The label `o` is observed in a trace of the set. -/
def Shows : Traces → String → Prop
  | .untimed S, o => ∃ w ∈ S.sequences, o ∈ w
  | .timed S, o => ∃ w ∈ S.sequences, ∃ k, w[2 * k]? = some (.obs o)

/-- The type of the set is the one of its traces. -/
def Typed : Traces → Prop
  | .untimed S => S.type = some 0
  | .timed S => S.type = some 4

end PCTMC
end Jajapy
