/-!
Common definitions of the model: Python exceptions as values.
-/

namespace Jajapy

/-- The Python exceptions that the modelled code can raise. -/
inductive Err
  | valueError | typeError | indexError | syntaxError | attributeError
  | runtimeError | unboundLocalError | keyError | zeroDivisionError | eofError
  deriving DecidableEq, Repr

/-- A modelled call either returns a value or raises. -/
abbrev Py (α : Type _) := Except Err α

instance {α : Type _} [DecidableEq α] : DecidableEq (Py α) := fun a b =>
  match a, b with
  | .ok x, .ok y => if h : x = y then isTrue (h ▸ rfl) else isFalse (fun h' => h (Except.ok.inj h'))
  | .error x, .error y => if h : x = y then isTrue (h ▸ rfl) else isFalse (fun h' => h (Except.error.inj h'))
  | .ok _, .error _ => isFalse (fun h => nomatch h)
  | .error _, .ok _ => isFalse (fun h => nomatch h)

end Jajapy
