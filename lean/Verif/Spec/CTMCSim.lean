import Verif.Spec.CTMC
import Verif.Spec.Clocks

/-!
Specification vocabulary for the simulator of CTMCs.
-/

namespace Jajapy

open Finset Spec

namespace Spec

/-- The timed trace with the observations `os` followed by `last`, the times `ts` between them. -/
def timedTrace {L : Type} : {k : ℕ} → (Fin k → L) → (Fin k → ℝ) → L → List (Sym L)
  | 0, _, _, last => [.obs last]
  | _ + 1, os, ts, last => .obs (os 0) :: .time (ts 0) :: timedTrace (fun i => os i.succ) (fun i => ts i.succ) last

end Spec

namespace CTMC
variable {L : Type} {n : ℕ}

/-- The probability that the clocks of the transitions of positive rate out of `s` all ring after time 1024, if `s` has a
transition of rate 0; 0 otherwise. -/
noncomputable def lateProb (M : CTMC ℝ L n) (s : Fin n) : ℝ :=
  if ∃ j, M.matrix s j = 0 then Real.exp (-(∑ j, M.matrix s j) * 1024) else 0

/-- The probability with which a step of the simulator goes from `s` to `s'`: that of the embedded chain, but for the event of
probability `lateProb`, which leads to the first state towards which the rate is 0. -/
noncomputable def simProb (M : CTMC ℝ L n) (s s' : Fin n) : ℝ :=
  if 0 < M.matrix s s' then M.matrix s s' / (∑ j, M.matrix s j) * (1 - M.lateProb s)
  else if ∀ j < s', 0 < M.matrix s j then M.lateProb s else 0

end CTMC
end Jajapy
