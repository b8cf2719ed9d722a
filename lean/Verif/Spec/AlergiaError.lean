import Verif.Spec.Alergia
import Verif.Spec.Models

/-!
C102: what the theorems about the errors of Alergia's test talk about.
-/

namespace Jajapy.Spec.Alergia

open Jajapy.Alergia

/-- The answer of the test of compatibility that Alergia applies to the two states of the prefix tree of `S` that are reached by the
words `u` and `v` (there is no answer if a word is not a prefix of a training trace). -/
def Answers (bound : ℕ → ℕ → ℕ → ℕ → Py Bool) (S : TSet String) (u v : List String) (b : Bool) : Prop :=
  ∃ x y, follow (createPTA S).heap 0 u = some x ∧ follow (createPTA S).heap 0 v = some y ∧
    compatible bound (createPTA S).alphabet (createPTA S).heap ((createPTA S).heap.size + 1) (some x) (some y) = some (.ok b)

/-- After `u` and after `v` all the continuations have the same conditional probability; `lik` is the probability that a trace starts with a
word. -/
def SameFutures (lik : List String → ℝ) (u v : List String) : Prop := ∀ w, lik (u ++ w) * lik v = lik (v ++ w) * lik u

end Jajapy.Spec.Alergia
