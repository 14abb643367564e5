import Verif.Err
import Mathlib.Algebra.Order.Field.Basic
import Mathlib.Data.Int.Cast.Basic

/-!
Model of `coax.utils.StepwiseLinearFunction` (`coax/utils/_array.py:722-792`).  Numbers are elements of an exact ordered
field.
-/

namespace Coax.Stepwise

variable {K : Type _} [Field K] [LinearOrder K]

/-- One positional argument of the constructor: a well typed pair `(int, float or int)`, or anything else.  (`coax/utils/_array.py:762-766`.) -/
inductive Arg (K : Type _) where
  | pair (t : Int) (v : K)
  | other

/-- The pairs, or `none` when some argument is not a well typed pair (`coax/utils/_array.py:762-766`). -/
def pairs : List (Arg K) → Option (List (Int × K))
  | [] => some []
  | .pair t v :: as => (pairs as).map (fun ps => (t, v) :: ps)
  | .other :: _ => none

/-- The attributes of the object, `coax/utils/_array.py:772-778`. -/
structure Fn (K : Type _) where
  startValue : K
  finalValue : K
  offsets : List Int
  intercepts : List K
  index : List Nat
  slopes : List K

/-- `__init__`, `coax/utils/_array.py:759-778`. -/
def new (steps : List (Arg K)) : Except Err (Fn K) :=
  if steps.length < 2 then .error .typeError
  else match pairs steps with
    | none => .error .typeError
    | some ps =>
      if (ps.zip ps.tail).all (fun (p, q) => decide (p.1 < q.1)) then
        match ps.head?, ps.getLast? with
        | some first, some last =>
          .ok { startValue := first.2
                finalValue := last.2
                offsets := ps.map Prod.fst
                intercepts := ps.map Prod.snd
                index := List.range ps.length
                slopes := (ps.zip ps.tail).map (fun (p, q) => (q.2 - p.2) / ((q.1 - p.1 : Int) : K)) }
        | _, _ => .error .indexError
      else .error .valueError

/-- `index[mask]`: boolean indexing.  (`coax/utils/_array.py:791`.) -/
def select (index : List Nat) (mask : List Bool) : List Nat :=
  (index.zip mask).filterMap (fun (i, m) => if m then some i else none)

/-- `__call__`, `coax/utils/_array.py:780-792`. -/
def Fn.call (f : Fn K) (timestep : K) : Except Err K :=
  let mask := f.offsets.map (fun t : Int => decide ((t : K) ≤ timestep))
  if !(mask.any id) then .ok f.startValue
  else if mask.all id then .ok f.finalValue
  else
    match (select f.index mask).max? with
    | none => .error .valueError
    | some i =>
      match (f.intercepts[i]? : Option K), (f.slopes[i]? : Option K), (f.offsets[i]? : Option Int) with
      | some v, some s, some t => .ok (v + s * (timestep - (t : K)))
      | _, _, _ => .error .indexError

end Coax.Stepwise
