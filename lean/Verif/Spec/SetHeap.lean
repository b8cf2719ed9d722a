import Verif.Model.SetHeap
import Verif.Spec.Prep

/-!
Specification vocabulary (C113): `Set` objects as values. Every call changes the object it is made on, and no other one.
-/

set_option autoImplicit false

namespace Jajapy
namespace SetHeap
variable {α : Type}

/-- One call on a list of values. -/
def valueStep [LinearOrder α] (kind : α → Kind) (V : List (TSet α)) : Op α → List (TSet α) × Option Err
  | .make l times t =>
    match TSet.mk' kind l times t with
    | .ok S => (V ++ [S], none)
    | .error e => (V, some e)
  | .share i times t =>
    match V[i]? with
    | none => (V, some .indexError)
    | some S0 =>
      match TSet.mk' kind S0.sequences (some times) t with
      | .ok S => (V ++ [S], none)
      | .error e => (V, some e)
  | .addSet i j =>
    match V[i]?, V[j]? with
    | some S1, some S2 =>
      match S1.addSet S2 with
      | .ok S => (V.set i S, none)
      | .error e => (V, some e)
    | _, _ => (V, some .indexError)
  | .sort i =>
    match V[i]? with
    | none => (V, some .indexError)
    | some S => (V.set i S.sort, none)
  | .fit i _ =>
    match V[i]? with
    | none => (V, some .indexError)
    | some _ => (V, none)

/-- A history on a list of values. -/
def valueRun [LinearOrder α] (kind : α → Kind) : List (Op α) → List (TSet α) → List (TSet α) × List (Option Err)
  | [], V => (V, [])
  | o :: os, V =>
    let r := valueStep kind V o
    let s := valueRun kind os r.1
    (s.1, r.2 :: s.2)

/-- The constructor gets as many multiplicities as traces. -/
def Op.Counted : Op α → Prop
  | .make l (some times) _ => times.length = l.length
  | _ => True

/-- The call does not make two objects with one list. -/
def Op.Unshared : Op α → Prop
  | .share .. => False
  | _ => True

/-- The set is ready for a training: it is a set of vectors, or the initial label is an observation of one of its traces. -/
def Ready (init : α) (S : TSet α) : Prop :=
  S.type = some 3 ∨
    ∃ t, S.type = some t ∧ (t = 0 ∨ t = 4 ∨ (t = 1 ∧ ∀ s ∈ S.sequences, s ≠ [])) ∧ ∃ s ∈ S.sequences, Spec.Occurs t s init

/-- If the call is one of `fit`, it learns an HMM (type 2) or the set is ready. -/
def Op.Prepared (init : α) (V : List (TSet α)) : Op α → Prop
  | .fit i m => ∀ S, V[i]? = some S → m = some 2 ∨ Ready init S
  | _ => True

/-- All the calls of a history are so. -/
def Tame [LinearOrder α] (kind : α → Kind) (init : α) : List (Op α) → List (TSet α) → Prop
  | [], _ => True
  | o :: os, V => o.Counted ∧ o.Unshared ∧ o.Prepared init V ∧ Tame kind init os (valueStep kind V o).1

end SetHeap
end Jajapy
