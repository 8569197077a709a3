/-!
Python exceptions as values, shared by all model files.
-/

namespace FVHOE

/-- The exception classes that the modelled functions can raise. The message is dropped. -/
inductive PyErr where
  | valueError
  | runtimeError
  | keyError
  | typeError
  | indexError
  | nameError
  | notImplementedError
  | fileExistsError
  | fileNotFoundError
  | unpicklingError
  | zeroDivisionError
  | attributeError
  | baseException
  deriving DecidableEq, Repr

end FVHOE
