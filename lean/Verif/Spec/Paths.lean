import Mathlib.Algebra.BigOperators.Fin
import Mathlib.Algebra.BigOperators.Group.Finset.Basic
import Mathlib.Analysis.SpecialFunctions.Log.Basic
import Verif.Model.TSet

/-!
Specification of hidden Markov processes: sums over state paths.
-/

namespace Jajapy.Spec

open Finset

variable {K O : Type} [CommSemiring K] {n : ℕ}

/-- The probability of generating the observations `w 0, …, w t`: the sum, over all paths `p 0, …, p t` of hidden
states, of the probability of the path times the probability of the observations along it. -/
def traceProb (init : Fin n → K) (a : Fin n → Fin n → K) (b : Fin n → O → K) {t : ℕ} (w : Fin (t+1) → O) : K :=
  ∑ p : Fin (t+1) → Fin n, init (p 0) * (∏ k : Fin t, a (p k.castSucc) (p k.succ)) * ∏ k : Fin (t+1), b (p k) (w k)

/-- The same for a trace given as a list (0 for the empty trace, which no model generates). -/
def listProb (init : Fin n → K) (a : Fin n → Fin n → K) (b : Fin n → O → K) : List O → K
  | [] => 0
  | o :: os => traceProb init a b (t := os.length) (fun k => (o :: os).get k)

open Classical in
/-- The average log-likelihood of a set for the trace probability `P`: each trace of positive probability contributes
its log-probability times its multiplicity; the sum is divided by the total number of traces. -/
noncomputable def avgLogLik (P : List O → ℝ) (S : TSet O) : ℝ :=
  (((S.sequences.zip S.times).filter (fun p => 0 < P p.1)).map (fun p => p.2 * Real.log (P p.1))).sum
    / (S.times.sum : ℕ)

end Jajapy.Spec
