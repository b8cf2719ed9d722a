import Verif.Model.Tools
import Verif.Spec.TSet

/-!
Specification vocabulary (C112): a run that continues a shorter one, and the set of the first symbols of the traces of a set.
-/

set_option autoImplicit false

namespace Jajapy

/-- The outcome `r` of a run continues the outcome `r'` of a shorter one: the trace of the shorter run is made of the first `k` symbols of the longer one,
and if the shorter run raises an exception so does the longer one. -/
def Spec.Continues {A : Type} (k : ℕ) (r r' : Py (List A)) : Prop := (∀ w, r = .ok w → r' = .ok (w.take k)) ∧ ∀ e, r' = .error e → r = .error e

/-- The set of traces of which only the first `k` symbols are kept. -/
def Spec.cut {O : Type} (k : ℕ) (S : TSet O) : TSet O := { S with sequences := S.sequences.map (List.take k) }

end Jajapy
