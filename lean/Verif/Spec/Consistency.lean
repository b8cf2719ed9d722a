import Verif.Spec.Evaluation
import Verif.Spec.Observable

/-!
Specification vocabulary for learning from generated data.
-/

namespace Jajapy.Spec

variable {O : Type}

/-- The expected value of `g` when the traces have the probabilities `P`. -/
noncomputable def expected (F : Finset (List O)) (P : List O → ℝ) (g : List O → ℕ) : ℝ := ∑ w ∈ F, P w * g w

end Jajapy.Spec

namespace Jajapy.MC

open Spec

variable {L : Type} [DecidableEq L] {n : ℕ}

/-- The proportion of the visits of `s` that are at the end of the trace, expected over the traces of `G`. -/
noncomputable def endRate (G : MC ℝ L n) (steps : ℕ) (s : Fin n) : ℝ :=
  expected (tracesOver (Finset.univ.image G.labelling) (steps + 1)) G.lik (fun w => if w.getLast? = some (G.labelling s) then 1 else 0) /
    expected (tracesOver (Finset.univ.image G.labelling) (steps + 1)) G.lik (fun w => w.count (G.labelling s))

end Jajapy.MC
