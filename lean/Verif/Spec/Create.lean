import Mathlib.Data.List.Basic
import Mathlib.Algebra.Field.Basic

/-!
Specification vocabulary for the creation of models.
-/

namespace Jajapy.Spec

/-- The value given for `key` by the last entry of `l` that has this key; 0 if there is none. -/
def lastGiven {A K : Type} [DecidableEq A] [Zero K] (l : List (A × K)) (key : A) : K :=
  match (l.filter (fun x => x.1 = key)).getLast? with
  | some x => x.2
  | none => 0

end Jajapy.Spec
