import Verif.Core.Keys
import Mathlib.Data.Rat.Defs
import Mathlib.Algebra.Order.Ring.Unbundled.Rat

/-!
Model of `check_array` and `check_preprocessors`, `coax/utils/_array.py:140-238`.
-/

namespace Coax.Utils

open Coax.Core (Key)

/-- An entry of a floating point array (`coax/utils/_array.py:221`); numbers are exact. -/
inductive Entry where
  | nan
  | negInf
  | posInf
  | num (x : Rat)
  deriving DecidableEq

/-- `actual` is close to `desired` for `onp.testing.assert_allclose`, with `rtol=1e-7`, `atol=0` and `equal_nan=True` (called at `coax/utils/_array.py:221`). -/
def Entry.close : Entry → Entry → Bool
  | .num a, .num b => decide (|a - b| ≤ 1 / 10000000 * |b|)
  | a, b => decide (a = b)

/-- A leaf of what a preprocessor returns: its Python type, the shape and the entries of `onp.asanyarray` of it (`coax/utils/_array.py:219-221`). -/
structure LeafArr where
  type : String
  shape : List Nat
  entries : List Entry
  deriving DecidableEq

/-- `onp.testing.assert_allclose` of a leaf `a` with the leaf `b` succeeds (called at `coax/utils/_array.py:221`): scalars are compared with every entry, other shapes must be equal. -/
def allclose (a b : LeafArr) : Bool :=
  if a.shape = b.shape then (a.entries.zip b.entries).all fun p => p.1.close p.2
  else if a.shape = [] then a.entries.all fun x => b.entries.all fun y => x.close y
  else if b.shape = [] then a.entries.all fun x => b.entries.all fun y => x.close y
  else false

/-- `test_leaves(a, b)` raises no AssertionError, `coax/utils/_array.py:219-221`. -/
def testLeaves (a b : LeafArr) : Bool := decide (a.type = b.type) && allclose a b

/-- What a preprocessor returns: the structure of the tree (anything with equality) and the leaves in order (`coax/utils/_array.py:229-232`). -/
structure TreeOut (τ : Type _) where
  structure_ : τ
  leaves : List LeafArr
  deriving DecidableEq

/-- One comparison, `coax/utils/_array.py:231-237`. -/
def sameOut {τ : Type _} [DecidableEq τ] (y y0 : TreeOut τ) : Bool :=
  decide (y.structure_ = y0.structure_) && (y.leaves.zip y0.leaves).all fun p => testLeaves p.1 p.2

/-- A preprocessor, `coax/utils/_array.py:202-203`. -/
abbrev Prep (X τ : Type _) := Key → X → TreeOut τ

/-- The inner loop over the other preprocessors, `coax/utils/_array.py:230-237`: whether all match, and the state of `rngs` afterwards. -/
def compareAll {X τ : Type _} [DecidableEq τ] (x : X) (y0 : TreeOut τ) : Key → List (Prep X τ) → Bool × Key
  | rngs, [] => (true, rngs)
  | rngs, p :: ps => if sameOut (p rngs.split.2 x) y0 then compareAll x y0 rngs.split.1 ps else (false, rngs.split.1)

/-- The outer loop over the samples of the space, `coax/utils/_array.py:223-238`. -/
def compareSamples {X τ : Type _} [DecidableEq τ] (p0 : Prep X τ) (ps : List (Prep X τ)) : Key → List X → Bool
  | _, [] => true
  | rngs, x :: xs =>
    let r := compareAll x (p0 rngs.split.2 x) rngs.split.1 ps
    if r.1 then compareSamples p0 ps r.2 xs else false

/-- `check_preprocessors`, `coax/utils/_array.py:189-238`.  `samples` are the results of `space.sample()`, `num_samples` of them; `seed` is what numpy draws for the keys. -/
def checkPreprocessors {X τ : Type _} [DecidableEq τ] (samples : List X) (seed : Nat) : List (Prep X τ) → Except Err Bool
  | p0 :: p1 :: ps => .ok (compareSamples p0 (p1 :: ps) (.root seed) samples)
  | _ => .error .valueError

/-- The arrays that `check_array` distinguishes (`coax/utils/_array.py:155-158`). -/
inductive ArrKind where
  | numpy
  | jax
  | other
  deriving DecidableEq

/-- What `check_array` looks at (`coax/utils/_array.py:155-186`). -/
structure ArrInfo where
  kind : ArrKind
  shape : List Nat
  dtype : String
  deriving DecidableEq

/-- The arguments of `check_array`, `coax/utils/_array.py:140-142`; a single number or dtype is the list with that element, as in `coax/utils/_array.py:161,174,183`. -/
structure ArrSpec where
  ndim : Option (List Nat) := none
  ndimMin : Option Nat := none
  ndimMax : Option Nat := none
  dtype : Option (List String) := none
  shape : Option (List Nat) := none
  axisSize : Option (List Nat) := none
  axis : Option Int := none
  exceptNp : Bool := false

/-- `arr.shape[axis]`, with negative axes counted from the end; `IndexError` outside (`coax/utils/_array.py:184`). -/
def axisLen (shape : List Nat) (axis : Int) : Except Err Nat :=
  let i := if axis < 0 then axis + shape.length else axis
  if i < 0 then .error .indexError else (shape[i.toNat]?).elim (.error .indexError) .ok

/-- `check_array`, `coax/utils/_array.py:140-186`. -/
def checkArray (a : ArrInfo) (s : ArrSpec) : Except Err Unit :=
  if !s.exceptNp && a.kind != .jax then .error .typeError
  else if a.kind = .other then .error .typeError
  else if s.ndim.any fun l => !l.contains a.shape.length then .error .typeError
  else if s.ndimMin.any fun m => decide (a.shape.length < m) then .error .typeError
  else if s.ndimMax.any fun m => decide (a.shape.length > m) then .error .typeError
  else if s.dtype.any fun l => !l.contains a.dtype then .error .typeError
  else if s.shape.any fun t => a.shape != t then .error .typeError
  else match s.axisSize, s.axis with
    | some sizes, some axis => match axisLen a.shape axis with
      | .error e => .error e
      | .ok n => if sizes.contains n then .ok () else .error .typeError
    | _, _ => .ok ()

end Coax.Utils
