import Verif.Model.Files

/-!
What the theorems about files talk about: values made of finite numbers, and one-line names.
-/

namespace Jajapy
namespace Spec

open Files

/-- A value whose floats are all finite (in the domain of the contract on floats). -/
inductive FiniteVal {K : Type} (IO : FloatIO K) : Val K → Prop
  | none : FiniteVal IO .none
  | int (z : ℤ) : FiniteVal IO (.int z)
  | str (s : List Char) : FiniteVal IO (.str s)
  | float {x : K} (h : IO.dom x) : FiniteVal IO (.float x)
  | list {l : List (Val K)} (h : ∀ v ∈ l, FiniteVal IO v) : FiniteVal IO (.list l)

/-- A name that fits on one line. -/
def OneLine (name : List Char) : Prop := '\n' ∉ name ∧ '\r' ∉ name

/-- `p` is what an interrupted write of `text` leaves: a strict prefix. -/
def CutOf (p text : List Char) : Prop := p <+: text ∧ p ≠ text

end Spec
end Jajapy
