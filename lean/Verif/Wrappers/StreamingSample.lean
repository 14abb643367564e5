import Mathlib.Algebra.Order.Field.Basic
import Mathlib.Data.Nat.Cast.Basic

/-!
Model of `StreamingSample` (`coax/wrappers/_train_monitor.py:25-56`).  The two random draws of `append` are arguments:
`u` is `rnd.rand()` and `i` is `rnd.randint(maxlen)`.
-/

namespace Coax.Streaming

variable {K A : Type _} [Field K] [LinearOrder K]

/-- The attributes `_deque` (with its `maxlen`) and `_count`, `coax/wrappers/_train_monitor.py:26-29`.  `maxlen=None` is not modelled. -/
structure Sample (A : Type _) where
  deque : List A
  maxlen : Nat
  count : Nat
deriving DecidableEq

/-- `__init__`, `coax/wrappers/_train_monitor.py:26-29`. -/
def new (maxlen : Nat) : Sample A := { deque := [], maxlen := maxlen, count := 0 }

/-- `reset`, `coax/wrappers/_train_monitor.py:31-33`. -/
def Sample.reset (s : Sample A) : Sample A := { deque := [], maxlen := s.maxlen, count := 0 }

/-- `append`, `coax/wrappers/_train_monitor.py:35-41`. -/
def Sample.append (s : Sample A) (obj : A) (u : K) (i : Nat) : Sample A :=
  let s := { s with count := s.count + 1 }
  if s.deque.length < s.maxlen then { s with deque := s.deque ++ [obj] }
  else if u < (s.maxlen : K) / (s.count : K) then { s with deque := s.deque.set i obj }
  else s

end Coax.Streaming
