/-!
# Python exceptions as values

Shared vocabulary: the exception classes raised by the modelled code.  A python function that may raise is
modelled by a function into `Except PyErr α`.
-/

namespace Probnum

/-- The python exception classes that occur in the modelled code (builtin exceptions and
`numpy.linalg.LinAlgError`).  Messages are not modelled. -/
inductive PyErr where
  | valueError
  | typeError
  | keyError
  | attributeError
  | indexError
  | runtimeError
  | notImplementedError
  | zeroDivisionError
  | linAlgError
  | stopIteration
  | assertionError
  | recursionError
  deriving DecidableEq, Repr

/-- Result of a python call: a value or a raised exception. -/
abbrev Res (α : Type _) := Except PyErr α

end Probnum
