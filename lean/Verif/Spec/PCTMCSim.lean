import Verif.Spec.PCTMC
import Verif.Spec.CTMCSim

/-!
Specification vocabulary for the simulator of parametric CTMCs.
-/

namespace Jajapy.Spec

/-- The draws of one step, one for every state, as a function of the index of the state. -/
def pad {K : Type} [Zero K] {n : ℕ} (d : Fin n → K) : ℕ → K := fun j => if h : j < n then d ⟨j, h⟩ else 0

/-- A timed trace as the simulator of parametric CTMCs returns it, where times may be infinite. -/
def asTrace (w : List (Sym String)) : List (String ⊕ WithTop ℝ) :=
  w.map (fun x => match x with | .obs o => .inl o | .time t => .inr t)

end Jajapy.Spec

namespace Jajapy.PCTMC
open Spec

/-- A model that can be simulated, `ρ` giving the values of the parameters: it is well formed, every parameter has a value, and no rate is negative. -/
structure Sim (M : PCTMC ℝ) (ρ : String → ℝ) : Prop where
  wf : M.WF
  full : M.Full
  ext : Extends ρ M.values
  nonneg : ∀ s j, 0 ≤ (M.chain ρ).matrix s j

end Jajapy.PCTMC
