import Mathlib.Algebra.BigOperators.Fin
import Mathlib.Algebra.BigOperators.Group.Finset.Basic
import Mathlib.Algebra.Field.Basic

/-!
Specification of the expected counts of a hidden process: sums over the paths of hidden states.

A path for a trace `w` of length `T` has `T+1` states: step `k` goes from state `p k` to state `p (k+1)` while
`w k` is observed. `f` weighs the last state.
-/

namespace Jajapy.Spec

open Finset

variable {K O : Type} [Field K] {n : ℕ}

/-- The weight (joint probability, or density, with the trace) of a path. -/
def pathWeight (init : Fin n → K) (tau : Fin n → Fin n → O → K) (f : Fin n → K) (w : List O)
    (p : Fin (w.length + 1) → Fin n) : K :=
  init (p 0) * (∏ k : Fin w.length, tau (p k.castSucc) (p k.succ) (w.get k)) * f (p (Fin.last _))

/-- The weight of all the paths. -/
def totalWeight (init : Fin n → K) (tau : Fin n → Fin n → O → K) (f : Fin n → K) (w : List O) : K :=
  ∑ p, pathWeight init tau f w p

/-- The weight of the paths that are in state `s` at time `k`. -/
def weightAt (init : Fin n → K) (tau : Fin n → Fin n → O → K) (f : Fin n → K) (w : List O) (k : Fin (w.length + 1))
    (s : Fin n) : K :=
  ∑ p with p k = s, pathWeight init tau f w p

/-- The expected value, given the trace `w`, of the sum of `φ (w k)` over the steps `k` at which the process leaves `s`. -/
def expVisits (init : Fin n → K) (tau : Fin n → Fin n → O → K) (f : Fin n → K) (φ : O → K) (w : List O) (s : Fin n) : K :=
  (∑ p, pathWeight init tau f w p * ∑ k : Fin w.length, if p k.castSucc = s then φ (w.get k) else 0)
    / totalWeight init tau f w

/-- The expected value, given the trace `w`, of the sum of `φ (w k)` over the steps `k` from `s` to `ss`. -/
def expUses (init : Fin n → K) (tau : Fin n → Fin n → O → K) (f : Fin n → K) (φ : O → K) (w : List O) (s ss : Fin n) : K :=
  (∑ p, pathWeight init tau f w p * ∑ k : Fin w.length, if p k.castSucc = s ∧ p k.succ = ss then φ (w.get k) else 0)
    / totalWeight init tau f w

/-- The probability, given the trace `w`, of having started in `s`. -/
def expStart (init : Fin n → K) (tau : Fin n → Fin n → O → K) (f : Fin n → K) (w : List O) (s : Fin n) : K :=
  weightAt init tau f w 0 s / totalWeight init tau f w

end Jajapy.Spec
