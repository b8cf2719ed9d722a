import Verif.Model.Launch

/-!
The documentation of `processes` and `verbose` (BW.py:96-102, 138-141).
-/

set_option autoImplicit false

namespace Jajapy
namespace Spec

open BW

/-- The level of information that a value of `verbose` asks for: 0, 1, 2 or 3, and 2 for anything else. -/
def level : IntArg → ℕ
  | .int 0 => 0
  | .int 1 => 1
  | .int 3 => 3
  | _ => 2

/-- What the documentation allows at each level: nothing; warnings; warnings and progress bar; warnings, progress bar and recap. -/
def Allowed : ℕ → Shown → Prop
  | 0, _ => False
  | 1, x => x = .noStorm
  | 2, x => x = .noStorm ∨ ∃ t, x = .bar t
  | _, x => x = .noStorm ∨ (∃ t, x = .bar t) ∨ ∃ k, x = .recap k

/-- The line that tells which kind of model is learnt. -/
def Header (x : Shown) : Prop := ∃ k, x = .learning k

end Spec
end Jajapy
