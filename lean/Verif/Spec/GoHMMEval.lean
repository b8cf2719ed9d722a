import Mathlib.MeasureTheory.Integral.Bochner.Basic
import Verif.Model.TSet
import Verif.Spec.GoHMM

/-!
Specification vocabulary for the evaluation of GoHMMs on generated data.
-/

namespace Jajapy

open MeasureTheory

open Classical in
/-- The number of traces of the training set, with their multiplicities, that belong to `B`. -/
noncomputable def TSet.numberIn {O : Type} (S : TSet O) (B : Set (List O)) : ℕ :=
  (((S.sequences.zip S.times).filter (fun p => p.1 ∈ B)).map Prod.snd).sum

/-- The expected value, when the traces of `k` observations have the likelihood of `M`, of the logarithm of the likelihood of `M'`. -/
noncomputable def GoHMM.expectedLog {n m d : ℕ} (M : GoHMM n d) (M' : GoHMM m d) (k : ℕ) : ℝ :=
  ∫ w : Fin k → Fin d → ℝ, M.lik (List.ofFn w) * Real.log (M'.lik (List.ofFn w))

end Jajapy
