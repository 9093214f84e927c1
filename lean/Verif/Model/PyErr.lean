/-
Python exceptions as values.
-/
namespace Qudits

/-- The exception classes raised by the modelled code. -/
inductive PyErr where
  | indexError
  | keyError
  | valueError
  | typeError
  | attributeError
  | assertionError
  | zeroDivisionError
  | circuitError
  | backendNotFound
  | jobError
  | jobTimeout
  | runtimeError
  | notImplemented
  | recursion
  | nodeNotFound
  | nameError
  | syntaxError
  | stopIteration
  | osError
  deriving DecidableEq, Repr

instance {ε α : Type} [DecidableEq ε] [DecidableEq α] : DecidableEq (Except ε α) := fun a b =>
  match a, b with
  | .error x, .error y =>
    if h : x = y then isTrue (by rw [h]) else isFalse (fun e => h (Except.error.inj e))
  | .ok x, .ok y =>
    if h : x = y then isTrue (by rw [h]) else isFalse (fun e => h (Except.ok.inj e))
  | .error _, .ok _ => isFalse (fun e => nomatch e)
  | .ok _, .error _ => isFalse (fun e => nomatch e)

end Qudits
