import Verif.Model.PCTMC
import Verif.Spec.CTMC

/-!
Specification vocabulary for parametric CTMCs.
-/

namespace Jajapy

variable {K : Type} [Field K]

namespace Expr

/-- The usual meaning of an expression, once every parameter has a value. -/
def den (ρ : String → K) : Expr K → K
  | num c => c
  | sym p => ρ p
  | add a b => a.den ρ + b.den ρ
  | mul a b => a.den ρ * b.den ρ
  | pow a k => a.den ρ ^ k

/-- The parameter `p` occurs in the expression. -/
inductive Occurs (p : String) : Expr K → Prop
  | sym : Occurs p (sym p)
  | addL (a b : Expr K) : Occurs p a → Occurs p (add a b)
  | addR (a b : Expr K) : Occurs p b → Occurs p (add a b)
  | mulL (a b : Expr K) : Occurs p a → Occurs p (mul a b)
  | mulR (a b : Expr K) : Occurs p b → Occurs p (mul a b)
  | pow (a : Expr K) (k : ℕ) : Occurs p a → Occurs p (pow a k)

end Expr

namespace Spec

/-- The dictionary gives a value to `p`. -/
def Known (v : Valuation K) (p : String) : Prop := ∃ x, (p, x) ∈ v

/-- `ρ` gives to each parameter of the dictionary its value there. -/
def Extends (ρ : String → K) (v : Valuation K) : Prop := ∀ p x, v.lookup p = some x → ρ p = x

/-- The assignment of the values `xs` to the names `ps`, in order, over the assignment `ρ`: a name that is given several
times gets its last value. -/
def assign (ρ : String → Option K) : List (String × K) → String → Option K
  | [] => ρ
  | q :: qs => assign (fun p => if p = q.1 then some q.2 else ρ p) qs

end Spec

namespace PCTMC
open Spec

/-- The expression of the rate from `i` to `j`. -/
def rateExpr (M : PCTMC K) (i j : ℕ) : Expr K := M.exprs.getD ((M.matrix.getD i []).getD j 0) (.num 0)

/-- The shape of the models accepted by the constructor when it is given a square array of indexes, and expressions whose
symbols are declared parameters. -/
structure WF (M : PCTMC K) : Prop where
  square : ∀ row ∈ M.matrix, row.length = M.matrix.length
  labels : M.labelling.length = M.matrix.length
  init : M.initialState.length = M.matrix.length
  bound : ∀ row ∈ M.matrix, ∀ t ∈ row, t < M.exprs.length
  declared : ∀ x ∈ M.exprs, ∀ p, x.Occurs p → p ∈ M.names

/-- Every parameter has a value. -/
def Full (M : PCTMC K) : Prop := ∀ p ∈ M.names, Known M.values p

/-- The CTMC whose rates are the values of the expressions. -/
def chain (M : PCTMC K) (ρ : String → K) : CTMC K String M.matrix.length where
  matrix := fun i j => (M.rateExpr i j).den ρ
  labelling := fun s => M.labelling.getD s ""
  initialState := fun s => M.initialState.getD s 0

/-- No rate that has a value is negative: for each pair of states whose index is not 0 ("no transition"), if all the
parameters of the expression have a value in `v` then its value is not negative. -/
def RatesOK [LinearOrder K] (M : PCTMC K) (v : Valuation K) : Prop :=
  ∀ i j, i < M.matrix.length → j < M.matrix.length → (M.matrix.getD i []).getD j 0 ≠ 0 →
    (∀ p, (M.rateExpr i j).Occurs p → Known v p) → ∀ ρ, Extends ρ v → 0 ≤ (M.rateExpr i j).den ρ

end PCTMC
end Jajapy
