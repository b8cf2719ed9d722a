import Verif.Spec.Paths
import Mathlib.Data.Fintype.Pi

/-!
Specification vocabulary for the evaluation of models on generated data.
-/

namespace Jajapy.Spec

variable {O : Type}

/-- The traces of `k` letters over an alphabet. -/
def tracesOver [DecidableEq O] (A : Finset O) (k : ℕ) : Finset (List O) := (Fintype.piFinset (fun _ : Fin k => A)).image List.ofFn

open Classical in
/-- The expected value, when the traces have the probabilities `P`, of the logarithm of `Q`; the traces with `Q w = 0` count for 0. -/
noncomputable def expectedLogLik (F : Finset (List O)) (P Q : List O → ℝ) : ℝ := ∑ w ∈ F with 0 < Q w, P w * Real.log (Q w)

end Jajapy.Spec
