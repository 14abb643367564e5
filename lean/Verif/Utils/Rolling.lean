import Verif.Err
import Mathlib.Algebra.Order.Field.Basic

/-!
Model of `coax/utils/_rolling.py`.  Numbers are elements of a field.  A method returns the new state and an optional
exception, because the Python methods mutate before they raise.
-/

namespace Coax.Rolling

variable {K : Type _} [Field K]

/-- `RollingAverage`, `coax/utils/_rolling.py:4-7`.  `maxlen=None` is not modelled. -/
structure Avg (K : Type _) where
  value : K
  deque : List K
  maxlen : Nat

/-- `RollingAverage.__init__`, `coax/utils/_rolling.py:5-7`; `deque(maxlen=n)` raises `ValueError` for negative `n`. -/
def Avg.new (n : Int) : Except Err (Avg K) :=
  if n < 0 then .error .valueError else .ok { value := 0, deque := [], maxlen := n.toNat }

/-- `deque.append` of a bounded deque: the oldest element falls out.  (`coax/utils/_rolling.py:7,14-18`.) -/
def dequeAppend (maxlen : Nat) (q : List K) (x : K) : List K :=
  if q.length < maxlen then q ++ [x] else (q ++ [x]).tail

/-- `RollingAverage.update`, `coax/utils/_rolling.py:13-20`.  `popleft` on an empty deque raises `IndexError`. -/
def Avg.update (a : Avg K) (x : K) : Avg K × Except Err K :=
  if a.deque.length = a.maxlen then
    match a.deque with
    | [] => (a, .error .indexError)
    | y :: q =>
      let v := a.value + (x - y) / (a.maxlen : K)
      ({ a with value := v, deque := dequeAppend a.maxlen q x }, .ok v)
  else
    let q := dequeAppend a.maxlen a.deque x
    let v := a.value + (x - a.value) / (q.length : K)
    ({ a with value := v, deque := q }, .ok v)

/-- `ExponentialAverage`, `coax/utils/_rolling.py:23-27`. -/
structure Exp (K : Type _) where
  value : K
  len : Int
  maxlen : Int

/-- `ExponentialAverage.__init__`, `coax/utils/_rolling.py:24-27`. -/
def Exp.new (n : Int) : Exp K := { value := 0, len := 0, maxlen := n }

/-- `ExponentialAverage.update`, `coax/utils/_rolling.py:33-37`. -/
def Exp.update (a : Exp K) (x : K) : Exp K × Except Err K :=
  let len := if a.len < a.maxlen then a.len + 1 else a.len
  let a := { a with len := len }
  if a.len = 0 then (a, .error .zeroDivisionError)
  else
    let v := a.value + (x - a.value) / (a.len : K)
    ({ a with value := v }, .ok v)

end Coax.Rolling
