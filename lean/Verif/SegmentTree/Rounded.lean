import Verif.SegmentTree.Model
import Mathlib.Data.Int.Log
import Mathlib.Algebra.Order.Floor.Ring

/-!
The sum tree as it is computed: the numbers of `coax/utils/_segment_tree.py` are IEEE 754 doubles (`onp.full` with a
Python float, line 47, makes an array of `float64`), and every addition, subtraction and multiplication is rounded.
`Verif/SegmentTree/Model.lean` has the same functions in exact arithmetic.

The functions take the rounding function as an argument.  `fl p` is rounding to the nearest number with `p` binary
digits, ties to even; IEEE 754 double precision is `p = 53`.  Simplification: the range of the exponent is not limited,
so there is no overflow to `inf` and no gradual underflow.
-/

namespace Coax.SegmentTree

section Sum

variable {K : Type _} [Field K] [LinearOrder K]

/-- `SumTree.__init__`, `coax/utils/_segment_tree.py:299-301`: the reducer is `onp.add`, which rounds. -/
def Tree.initSumR (rnd : K → K) (capacity : Nat) : Tree K := Tree.init capacity (fun a b => rnd (a + b)) 0

/-- The downward loop of `inverse_cdf` for one entry of `u`, `coax/utils/_segment_tree.py:383-397`, with the rounded
subtraction of line 394.
Arguments: number of remaining levels, current level, `level_offset_parent`, `idx`, `value`. -/
def descendR (rnd : K → K) (arr : List K) : Nat → Nat → Nat → Nat → K → Except Err Nat
  | 0, _, levelOffsetParent, idx, _ => .ok (idx - levelOffsetParent)
  | n + 1, level, levelOffsetParent, idx, value => do
    let levelOffset := 2 ^ level - 1
    let leftChildIdx := (idx - levelOffsetParent) * 2 + levelOffset
    let rightChildIdx := leftChildIdx + 1
    let leftChildValue ← readAt arr leftChildIdx
    if leftChildValue > value then
      descendR rnd arr n (level + 1) levelOffset leftChildIdx value
    else
      descendR rnd arr n (level + 1) levelOffset rightChildIdx (rnd (value - leftChildValue))

/-- `inverse_cdf`, `coax/utils/_segment_tree.py:342-413` (with `_check_u`) on a 1d array `u`, with the rounded product
of line 378. -/
def Tree.inverseCdfR (rnd : K → K) (t : Tree K) (u : List K) : Except Err (List Nat) := do
  let root ← t.rootValue
  if root ≤ 0 then throw .runtimeError
  if u.any (fun x => decide (x > 1)) || u.any (fun x => decide (x < 0)) then throw .valueError
  u.mapM (fun x => descendR rnd t.arr (t.height - 1) 1 0 0 (rnd (x * root)))

end Sum

section Float

variable {K : Type _} [Field K] [LinearOrder K] [IsStrictOrderedRing K] [FloorRing K]

/-- The nearest integer, ties to even: the rounding that `float64` operations (`coax/utils/_segment_tree.py:47`) apply
to the significand. -/
def nearestEven (x : K) : Int :=
  if x - (⌊x⌋ : K) < 1 / 2 then ⌊x⌋
  else if 1 / 2 < x - (⌊x⌋ : K) then ⌊x⌋ + 1
  else if ⌊x⌋ % 2 = 0 then ⌊x⌋ else ⌊x⌋ + 1

/-- The distance between neighbouring numbers with `p` binary digits at `x` (`float64`,
`coax/utils/_segment_tree.py:47`: `p = 53`). -/
def ulp (p : Nat) (x : K) : K := 2 ^ (Int.log 2 |x| - p + 1)

/-- Rounding to `p` binary digits, to nearest with ties to even (`float64`, `coax/utils/_segment_tree.py:47`:
`p = 53`). -/
def fl (p : Nat) (x : K) : K := nearestEven (x / ulp p x) * ulp p x

end Float

end Coax.SegmentTree
