/-
Shared vocabulary of the model: Python exceptions as values.
-/
namespace Sleplet

/-- The Python exception classes that the modelled code can raise (or lets escape).
Simplification: messages are dropped. -/
inductive Err
  | valueError
  | indexError
  | typeError
  | attributeError
  | keyError
  | runtimeError
  | notImplementedError
  | eofError
  | memoryError
  | zeroDivisionError
  deriving DecidableEq, Repr

end Sleplet
