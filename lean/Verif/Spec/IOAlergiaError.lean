import Verif.Spec.IOAlergia
import Verif.Spec.Models

/-!
C116: what the theorems about the errors of IOAlergia's test talk about.
-/

set_option autoImplicit false

namespace Jajapy.Spec.IOAlergia

open Jajapy.IOAlergia

/-- The trace made of actions and observations. -/
def letters (w : List (String × String)) : List String := w.flatMap (fun k => [k.1, k.2])

/-- The answer of the test of compatibility that IOAlergia applies to the two states of the prefix tree of `S` that are reached by the
words `u` and `v` (there is no answer if one of them is not the beginning of a training trace, up to an observation). -/
def Answers (bound : ℕ → ℕ → ℕ → ℕ → Py Bool) (S : TSet String) (u v : List String) (b : Bool) : Prop :=
  ∃ A x y, IsTree S A ∧ x < A.size ∧ y < A.size ∧ (A.node x).label = u ∧ (A.node y).label = v ∧ compatTest bound A x y = .ok b

/-- After `u` and after `v` the system responds in the same way: whatever is done and observed in between, the conditional probability of an
observation after an action is the same. `lik` is the probability that a trace starts with a word that ends with an observation, `O` are the
observations; the probability that the action `a` is done after `p` is the sum of the probabilities that it is done and `o` is observed. -/
def SameResponses (lik : List String → ℝ) (O : Finset String) (u v : List String) : Prop := ∀ (w : List (String × String)) (a o : String),
  lik (u ++ letters w ++ [a, o]) * ∑ o' ∈ O, lik (v ++ letters w ++ [a, o']) =
    lik (v ++ letters w ++ [a, o]) * ∑ o' ∈ O, lik (u ++ letters w ++ [a, o'])

end Jajapy.Spec.IOAlergia
