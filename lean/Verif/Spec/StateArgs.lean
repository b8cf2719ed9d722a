import Verif.Model.StateArgs

/-!
Specification for the arguments that stand for a state.
-/

namespace Jajapy.StateArgs

/-- The exception documented for a value that is not the number of one of the `n` states: TypeError if it is not an `int`,
IndexError if it is one that is negative or too big. -/
def fault (n : ℕ) : Arg → Option Err
  | .int i => if 0 ≤ i ∧ i < n then none else some .indexError
  | _ => some .typeError

/-- A method with one state argument answers about the states and raises on everything else. -/
def StatesOnly {α : Type} (n : ℕ) (method : Arg → Py α) (answer : Fin n → Py α) : Prop :=
  (∀ i : Fin n, method (.int (i : ℕ)) = answer i) ∧ ∀ a e, fault n a = some e → method a = .error e

/-- The same for two state arguments; the first one is examined first. -/
def StatesOnly₂ {α : Type} (n : ℕ) (method : Arg → Arg → Py α) (answer : Fin n → Fin n → Py α) : Prop :=
  (∀ i j : Fin n, method (.int (i : ℕ)) (.int (j : ℕ)) = answer i j) ∧
  (∀ a b e, fault n a = some e → method a b = .error e) ∧
  ∀ (i : Fin n) b e, fault n b = some e → method (.int (i : ℕ)) b = .error e

/-- A method without a check: a negative integer stands for another state, counted from the end. -/
def CountsFromEnd {α : Type} (n : ℕ) (method : ℤ → Py α) (answer : Fin n → Py α) : Prop :=
  (∀ i : Fin n, method (i : ℕ) = answer i) ∧ (∀ i : Fin n, method ((i : ℕ) - n) = answer i) ∧
  ∀ z : ℤ, z < -n ∨ n ≤ z → method z = .error .indexError

end Jajapy.StateArgs

namespace Jajapy

/-- For a PCTMC: the value is the number of a state, as an `int` or as a numpy integer. -/
def PCTMC.Names {K : Type} (M : PCTMC K) (s : Arg) (i : Fin M.nb) : Prop := s = .int (i : ℕ) ∨ s = .npInt (i : ℕ)

end Jajapy
