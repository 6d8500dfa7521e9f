/-!
# Python exceptions as values

The exception classes that the modelled functions of ssspy can raise.
-/

namespace Verif

/-- Exception classes raised (directly or by NumPy / struct) in the modelled code. -/
inductive PyErr where
  | assertion        -- AssertionError
  | value            -- ValueError
  | notImplemented   -- NotImplementedError
  | struct           -- struct.error
  | zeroDivision     -- ZeroDivisionError
  | type             -- TypeError
  | name             -- NameError / UnboundLocalError
  | linalg           -- numpy.linalg.LinAlgError
  | attribute        -- AttributeError
  | os               -- OSError (FileNotFoundError)
  deriving DecidableEq, Repr

/-- `e.Raises` holds when the computation ends in an exception. -/
def Raises {α : Type _} (e : Except PyErr α) : Prop := ∃ err, e = .error err

end Verif
