import Mathlib.Data.Nat.Log
import Mathlib.Data.List.Dedup
import Mathlib.Data.List.Sort
import Mathlib.Algebra.Order.Field.Basic
import Verif.Err

/-!
Model of `coax/utils/_segment_tree.py`.

The storage array `_arr` is a list.  Every read and write is checked: an index outside the array gives
`Err.indexError`, as numpy would (numpy would wrap *negative* indices; no negative array index is ever formed by the
modelled code, all array positions here are natural numbers).

Not modelled: dtype conversion (`int32`, `float`), the type checks on `idx`/`start`/`stop`/`u`
(`isinstance`), `__getitem__` with slices, `__repr__`.
-/

namespace Coax.SegmentTree

variable {α : Type _}

/-- `SegmentTree.__init__`, `coax/utils/_segment_tree.py:42-47`: the attributes of a tree. -/
structure Tree (α : Type _) where
  capacity : Nat
  reducer : α → α → α
  initValue : α
  height : Nat
  arr : List α

/-- `SegmentTree.__init__`, `coax/utils/_segment_tree.py:42-47`.
`int(ceil(log2(capacity)))` is `Nat.clog 2 capacity` (floating-point `log2` is taken to be exact). -/
def Tree.init (capacity : Nat) (reducer : α → α → α) (initValue : α) : Tree α :=
  let height := Nat.clog 2 capacity + 1
  { capacity, reducer, initValue, height
    arr := List.replicate (2 ^ height - 1) initValue }

/-- Checked array read `arr[k]`.  (`coax/utils/_segment_tree.py:155,174-177`.) -/
def readAt (arr : List α) (k : Nat) : Except Err α :=
  match arr[k]? with
  | some v => .ok v
  | none => .error .indexError

/-- numpy fancy assignment `arr[ks] = vs`, one pair after the other, so that the last write to a position wins.  (`coax/utils/_segment_tree.py:108-117`.) -/
def writeAll (arr : List α) : List (Nat × α) → Except Err (List α)
  | [] => .ok arr
  | (k, v) :: ps => if k < arr.length then writeAll (arr.set k v) ps else .error .indexError

/-- `root_value`, `coax/utils/_segment_tree.py:54-62`. -/
def Tree.rootValue (t : Tree α) : Except Err α := readAt t.arr 0

/-- `values`, `coax/utils/_segment_tree.py:64-69`. -/
def Tree.values (t : Tree α) : List α :=
  (t.arr.drop (2 ^ (t.height - 1) - 1)).take t.capacity

/-- `_check_level_lookup`, `coax/utils/_segment_tree.py:190-200` (the level is an int). -/
def Tree.checkLevelLookup (t : Tree α) (level : Int) : Except Err (Nat × Nat) :=
  if -(t.height : Int) ≤ level ∧ level < t.height then
    let level := (level % t.height).toNat
    .ok (2 ^ level - 1, min (2 ^ level) t.capacity)
  else .error .indexError

/-- `__getitem__` with an int lookup, `coax/utils/_segment_tree.py:71-74`. -/
def Tree.getLevel (t : Tree α) (level : Int) : Except Err (List α) := do
  let (levelOffset, levelSize) ← t.checkLevelLookup level
  pure ((t.arr.drop levelOffset).take levelSize)

/-- The `idx` argument of `set_values` (`coax/utils/_segment_tree.py:207-222`): `None`/`...` or a 1d array
of ints (a single int is the array of length one). -/
inductive IdxArg where
  | all
  | arr (idx : List Int)

/-- `_check_idx`, `coax/utils/_segment_tree.py:207-227`. -/
def Tree.checkIdx (t : Tree α) (idx : IdxArg) : Except Err (List Nat × Nat × Nat) := do
  let (levelOffset, levelSize) ← t.checkLevelLookup ((t.height : Int) - 1)
  let idx : List Int := match idx with
    | .all => (List.range levelSize).map (fun (k : Nat) => (k : Int))
    | .arr idx => idx
  if idx.all (fun k => decide (k < (levelSize : Int)) && decide (-(levelSize : Int) ≤ k)) then
    pure (idx.map (fun k => (k % (levelSize : Int)).toNat), levelOffset, levelSize)
  else throw .indexError

/-- `numpy.unique`: sorted and without duplicates.  (`coax/utils/_segment_tree.py:111`.) -/
def unique (l : List Nat) : List Nat := l.dedup.insertionSort (fun a b => a ≤ b)

/-- numpy broadcasting of the right-hand side of `arr[idx] = values` for 1d `values`:
same length, or length one.  (`coax/utils/_segment_tree.py:108`.) -/
def broadcast (n : Nat) (values : List α) : Except Err (List α) :=
  if values.length = n then .ok values
  else match values with
    | [v] => .ok (List.replicate n v)
    | _ => .error .valueError

/-- The upward loop of `set_values`, `coax/utils/_segment_tree.py:110-117`.
The first argument is `level + 1`, so that `level` runs over `height-2, ..., 0`. -/
def climb (reducer : α → α → α) : Nat → Nat → List Nat → List α → Except Err (List α)
  | 0, _, _, arr => .ok arr
  | level + 1, levelOffset, idx, arr => do
    let idx := unique (idx.map (· / 2))
    let leftChild := idx.map (fun k => levelOffset + 2 * k)
    let rightChild := leftChild.map (· + 1)
    let levelOffset := 2 ^ level - 1
    let parent := idx.map (fun k => levelOffset + k)
    let l ← leftChild.mapM (readAt arr)
    let r ← rightChild.mapM (readAt arr)
    let arr ← writeAll arr (parent.zip (List.zipWith reducer l r))
    climb reducer level levelOffset idx arr

/-- `set_values`, `coax/utils/_segment_tree.py:88-117`. -/
def Tree.setValues (t : Tree α) (idx : IdxArg) (values : List α) : Except Err (Tree α) := do
  let (idx, levelOffset, levelSize) ← t.checkIdx idx
  let values ← broadcast idx.length values
  let arr ← writeAll t.arr ((idx.map (fun k => levelOffset + k % levelSize)).zip values)
  let arr ← climb t.reducer (t.height - 1) levelOffset idx arr
  pure { t with arr := arr }

/-- One entry of the batched state `(i, j, done, a, b)` of `partial_reduce`.  (`coax/utils/_segment_tree.py:153-180`.) -/
structure Lane (α : Type _) where
  i : Nat
  j : Nat
  done : Bool
  a : α
  b : α

/-- The accumulation step of one lane, `coax/utils/_segment_tree.py:173-180`.  Both neighbours are read for every
lane, also for lanes that are done (`numpy.where` evaluates both branches). -/
def Lane.accumulate (reducer : α → α → α) (arr : List α) (levelOffset levelOffsetParent : Nat)
    (ln : Lane α) : Except Err (Lane α) := do
  let right ← readAt arr (ln.i + 1)
  let left ← readAt arr (ln.j - 1)
  let a := if ln.i % 2 = 1 ∧ ln.done = false then reducer ln.a right else ln.a
  let b := if ln.j % 2 = 0 ∧ ln.done = false then reducer ln.b left else ln.b
  pure { i := (ln.i - levelOffset) / 2 + levelOffsetParent
         j := (ln.j - levelOffset) / 2 + levelOffsetParent
         done := ln.done, a := a, b := b }

/-- The loop of `partial_reduce`, `coax/utils/_segment_tree.py:161-182`.  First argument is `level + 1`. -/
def reduceLoop (reducer : α → α → α) (arr : List α) : Nat → Nat → List (Lane α) → Except Err (List α)
  | 0, _, _ => .error .assertionError
  | level + 1, levelOffset, lanes => do
    let levelOffsetParent := 2 ^ level - 1
    let lanes := lanes.map (fun ln =>
      { ln with done := ln.done || decide ((ln.i - levelOffset) / 2 + levelOffsetParent
                                          = (ln.j - levelOffset) / 2 + levelOffsetParent) })
    if lanes.all (·.done) then
      pure (lanes.map (fun ln => reducer ln.a ln.b))
    else
      let lanes ← lanes.mapM (Lane.accumulate reducer arr levelOffset levelOffsetParent)
      reduceLoop reducer arr level levelOffsetParent lanes

/-- `_check_start_stop_to_i_j`, `coax/utils/_segment_tree.py:229-270`, for a list of `(start, stop)` pairs
(broadcasting of a scalar `start` or `stop` against an array is done by the caller; `stop=None` is `capacity`). -/
def Tree.checkStartStop (t : Tree α) (ranges : List (Int × Int)) : Except Err (List (Nat × Nat)) := do
  let (levelOffset, levelSize) ← t.checkLevelLookup ((t.height : Int) - 1)
  let ij := ranges.map (fun (start, stop) =>
    (levelOffset + (start % (levelSize : Int)).toNat, levelOffset + ((stop - 1) % (levelSize : Int)).toNat))
  if ij.all (fun (i, j) => decide (levelOffset ≤ i) && decide (j < levelOffset + levelSize) && decide (i ≤ j)) then
    pure ij
  else throw .indexError

/-- `partial_reduce`, `coax/utils/_segment_tree.py:119-182`. -/
def Tree.partialReduce (t : Tree α) (ranges : List (Int × Int)) : Except Err (List α) := do
  let ij ← t.checkStartStop ranges
  if ij.all (fun (i, j) => decide (i = j)) then
    ij.mapM (fun (i, _) => readAt t.arr i)
  else
    let lanes ← ij.mapM (fun (i, j) => do
      let a ← readAt t.arr i
      let b ← readAt t.arr j
      pure { i := i, j := j, done := decide (i = j), a := a,
             b := if i = j then t.initValue else b : Lane α })
    reduceLoop t.reducer t.arr (t.height - 1) (2 ^ (t.height - 1) - 1) lanes

section Sum

variable {K : Type _} [Field K] [LinearOrder K]

/-- `SumTree.__init__`, `coax/utils/_segment_tree.py:299-301`. -/
def Tree.initSum (capacity : Nat) : Tree K := Tree.init capacity (· + ·) 0

/-- The downward loop of `inverse_cdf` for one entry of `u`, `coax/utils/_segment_tree.py:383-397`.
Arguments: number of remaining levels, current level, `level_offset_parent`, `idx`, `value`. -/
def descend (arr : List K) : Nat → Nat → Nat → Nat → K → Except Err Nat
  | 0, _, levelOffsetParent, idx, _ => .ok (idx - levelOffsetParent)
  | n + 1, level, levelOffsetParent, idx, value => do
    let levelOffset := 2 ^ level - 1
    let leftChildIdx := (idx - levelOffsetParent) * 2 + levelOffset
    let rightChildIdx := leftChildIdx + 1
    let leftChildValue ← readAt arr leftChildIdx
    if leftChildValue > value then
      descend arr n (level + 1) levelOffset leftChildIdx value
    else
      descend arr n (level + 1) levelOffset rightChildIdx (value - leftChildValue)

/-- `inverse_cdf`, `coax/utils/_segment_tree.py:342-413` (with `_check_u`) on a 1d array `u`. -/
def Tree.inverseCdf (t : Tree K) (u : List K) : Except Err (List Nat) := do
  let root ← t.rootValue
  if root ≤ 0 then throw .runtimeError
  if u.any (fun x => decide (x > 1)) || u.any (fun x => decide (x < 0)) then throw .valueError
  u.mapM (fun x => descend t.arr (t.height - 1) 1 0 0 (x * root))

/-- `SumTree.sample`, `coax/utils/_segment_tree.py:312-340`.  `rnd n` is what `self._rnd.rand(n)` returns. -/
def Tree.sample (t : Tree K) (n : Int) (rnd : Nat → List K) : Except Err (List Nat) :=
  if n > 0 then t.inverseCdf (rnd n.toNat) else .error .typeError

end Sum

end Coax.SegmentTree
