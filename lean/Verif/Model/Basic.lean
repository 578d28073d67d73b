/-!
# Python exceptions as values

The model returns `Except PyErr α` where the Python code returns an `α` or raises.
Only the exception class is kept, not the message.
-/

namespace Pysatl

/-- The exception classes raised by the modelled code (by the library itself, or by
numpy, scipy, SQLAlchemy and the Python runtime on its behalf). -/
inductive PyErr where
  | valueError
  | typeError
  | indexError
  | keyError
  | attributeError
  | notImplementedError
  | stopIteration
  | zeroDivisionError
  | structError
  | connectionError
  | multipleResultsFound
  | databaseError
  | overflowError
  deriving DecidableEq, Repr

end Pysatl
