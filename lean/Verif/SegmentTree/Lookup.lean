import Verif.SegmentTree.Model

/-!
Square-bracket lookups of the segment tree and writes through the views that they return.

Python's `isinstance(lookup, int)` also admits `bool`, which behaves like the ints 0 and 1; numpy integers are not
admitted.  Boolean masks, steps other than one and multi-dimensional index arrays are not modelled.
-/

namespace Coax.SegmentTree

variable {α : Type _}

/-- What may stand in place of `index` in `tree[level, index]` (`coax/utils/_segment_tree.py:80-82`): an int, a 1d
array of ints or a slice `start:stop`. -/
inductive Index where
  | int (i : Int)
  | ints (is : List Int)
  | slice (start stop : Option Int)

/-- The argument of `tree[lookup]` (`coax/utils/_segment_tree.py:71-86`): an int, a tuple of length one, a tuple of
length two, or anything else.  The first entry of a tuple is passed to `__getitem__` again. -/
inductive Lookup where
  | int (level : Int)
  | one (level : Lookup)
  | two (level : Lookup) (index : Index)
  | other

/-- The result of a lookup: a 1d numpy array or a numpy scalar (`coax/utils/_segment_tree.py:71-86`). -/
inductive Found (α : Type _) where
  | arr (xs : List α)
  | scalar (x : α)

/-- The position that numpy takes for the int index `i` into an array of length `n`: negative ints count from the end,
everything else raises `IndexError` (`coax/utils/_segment_tree.py:82`). -/
def position (n : Nat) (i : Int) : Except Err Nat :=
  if 0 ≤ i ∧ i < n then .ok i.toNat
  else if -(n : Int) ≤ i ∧ i < 0 then .ok (i + n).toNat
  else .error .indexError

/-- One end of a Python slice, clipped to `0..n` (`coax/utils/_segment_tree.py:82`). -/
def clipEnd (n : Nat) (i : Int) : Nat :=
  if i < 0 then (i + n).toNat else min i.toNat n

/-- `xs[index]` for a 1d numpy array `xs`, the last step of `self[level][index]`
(`coax/utils/_segment_tree.py:82`). -/
def numpyIndex (xs : List α) : Index → Except Err (Found α)
  | .int i => do
    let k ← position xs.length i
    let x ← readAt xs k
    pure (.scalar x)
  | .ints is => do
    let ks ← is.mapM (position xs.length)
    let ys ← ks.mapM (readAt xs)
    pure (.arr ys)
  | .slice start stop =>
    let a := (start.map (clipEnd xs.length)).getD 0
    let b := (stop.map (clipEnd xs.length)).getD xs.length
    .ok (.arr ((xs.take b).drop a))

/-- `__getitem__`, `coax/utils/_segment_tree.py:71-86`.  Indexing a scalar raises `IndexError`. -/
def Tree.getItem (t : Tree α) : Lookup → Except Err (Found α)
  | .int level => do
    let xs ← t.getLevel level
    pure (.arr xs)
  | .one level => t.getItem level
  | .two level index => do
    match ← t.getItem level with
    | .arr xs => numpyIndex xs index
    | .scalar _ => throw .indexError
  | .other => .error .indexError

/-- `tree[level][i] = v`: the array returned by `__getitem__` is a view of `_arr` (the warning in
`coax/utils/_segment_tree.py:35-39`; the view is made in lines 71-74), so that the assignment writes to the tree.
`tree.values[i] = v` (`coax/utils/_segment_tree.py:64-69`) is the case `level = -1`. -/
def Tree.writeView (t : Tree α) (level : Int) (i : Int) (v : α) : Except Err (Tree α) := do
  let (levelOffset, levelSize) ← t.checkLevelLookup level
  let k ← position levelSize i
  pure { t with arr := t.arr.set (levelOffset + k) v }

end Coax.SegmentTree
