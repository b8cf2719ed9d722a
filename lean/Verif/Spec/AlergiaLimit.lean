import Verif.Spec.AlergiaError

/-!
C103: which labels the test of compatibility looks at.
-/

namespace Jajapy.Spec.Alergia

/-- A label that the prefix tree of a large training set notices; `lik` is the probability that a trace (with `len` labels) starts with a word. The
label can be the first one of a trace, or it belongs to the larger one of two possible words that differ only in their last label. -/
def Noticed (lik : List String → ℝ) (len : ℕ) (l : String) : Prop :=
  (1 ≤ len ∧ 0 < lik [l]) ∨
    ∃ z o o', z.length + 1 ≤ len ∧ o < o' ∧ l ∈ z ++ [o'] ∧ 0 < lik (z ++ [o]) ∧ 0 < lik (z ++ [o'])

end Jajapy.Spec.Alergia
