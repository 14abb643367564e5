/-!
Exceptions that the modelled code raises, as values.

Models `coax/_base/errors.py` (the coax-specific exceptions) together with the built-in Python exceptions that the
modelled functions raise.
-/

namespace Coax

/-- Exception classes.  `coax/_base/errors.py:4-55` and Python built-ins.  Error messages are not modelled. -/
inductive Err where
  | indexError
  | valueError
  | typeError
  | keyError
  | runtimeError
  | attributeError
  | assertionError
  | notImplementedError
  /-- `coax/_base/errors.py: InsufficientCacheError` -/
  | insufficientCache
  /-- `coax/_base/errors.py: EpisodeDoneError` -/
  | episodeDone
  /-- `coax/_base/errors.py: UnavailableActionError` -/
  | unavailableAction
  | zeroDivisionError
  /-- `UnboundLocalError`, a `NameError` -/
  | nameError
  deriving DecidableEq, Repr

end Coax
