import Verif.Model.Prep

/-!
What the theorems about the preparation of a training talk about.
-/

namespace Jajapy
namespace Spec

variable {α : Type}

/-- `x` occurs as an observation in the trace `s` of a set of type `t`: anywhere in a trace of labels; at an even position
in a timed trace; at an even position, or at the end, in a trace of actions and labels. -/
def Occurs (t : ℕ) (s : List α) (x : α) : Prop :=
  if t = 0 then x ∈ s
  else if t = 4 then ∃ k, s[2 * k]? = some x
  else if t = 1 then (∃ k, 2 * k + 1 < s.length ∧ s[2 * k]? = some x) ∨ s.getLast? = some x
  else False

/-- The type of data `t` can be used to learn a model of type `m`: labels for MC, HMM, CTMC, PCTMC (and MDP: a plain list
of traces of actions and labels is typed 0), actions and labels for MDP, vectors for GoHMM, timed labels for CTMC and
PCTMC. -/
def Usable (t m : ℕ) : Prop :=
  (t = 0 ∧ (m = 0 ∨ m = 1 ∨ m = 2 ∨ m = 4 ∨ m = 5)) ∨ (t = 1 ∧ m = 1) ∨ (t = 3 ∧ m = 3) ∨ (t = 4 ∧ (m = 4 ∨ m = 5))

instance (t m : ℕ) : Decidable (Usable t m) := by unfold Usable; infer_instance

/-- Earlier calls that do not disturb a call `c` on the same learner. -/
def Undisturbed (history : List Prep.Call) : Prep.Call → Prop
  | .fit m t =>
    if m = 5 then True
    else if m = 1 ∨ (m = 4 ∧ t = 4) then ∀ c ∈ history, ∀ t', c ≠ .fit 5 t' ∧ c ≠ .params t'
    else ∀ c ∈ history, c ≠ .fit 4 4 ∧ ∀ t', c ≠ .fit 1 t' ∧ c ≠ .fit 5 t' ∧ c ≠ .params t'
  | .params _ => ∀ c ∈ history, ∀ m t, c ≠ .fit m t

end Spec
end Jajapy
