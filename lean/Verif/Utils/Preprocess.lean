import Verif.Dists.Composite

/-!
Model of `default_preprocessor`, `batch_to_single`, `single_to_batch` and `safe_sample` (`coax/utils/_array.py:116-137,304-370,795-871`), over the reals.

The axes of Box entries are flattened.  Arrays of integers have at most two axes.  Dtypes are not modelled.
-/

namespace Coax.Utils

open Coax.Dists (Space)

/-- What a preprocessor can get: an integer, arrays of integers with one and two axes, the entries of one Box member, a batch of them, tuples and dicts.
(`coax/utils/_array.py:326-370`.) -/
inductive Inp where
  | int (x : Int)
  | ints (l : List Int)
  | ints2 (l : List (List Int))
  | floats (l : List ℝ)
  | floats2 (l : List (List ℝ))
  | tuple (l : List Inp)
  | dict (l : List (String × Inp))

/-- `jax.nn.one_hot(X, n)` of one integer: all entries are zero for an integer out of range.  (`coax/utils/_array.py:329`.) -/
noncomputable def oneHotRow (n : Nat) (x : Int) : List ℝ := (List.range n).map fun k : Nat => if (k : Int) = x then 1 else 0

/-- `jnp.reshape(X, (-1, d))` of the entries of an array; jax raises `TypeError` if the size is not a multiple of `d`, and for `d = 0`.  (`coax/utils/_array.py:330,336,353`.) -/
def reshapeTo {α : Type _} (d : Nat) (l : List α) : Except Err (List (List α)) :=
  if d = 0 ∨ l.length % d ≠ 0 then .error .typeError else .ok ((List.range (l.length / d)).map fun b => (l.drop (b * d)).take d)

/-- `jnp.clip` of one entry, with bounds that may be infinite.  (`coax/utils/_array.py:337`.) -/
noncomputable def clipEntry (b : Option ℝ × Option ℝ) (x : ℝ) : ℝ :=
  let y := match b.1 with | none => x | some l => max x l
  match b.2 with | none => y | some h => min y h

/-- The Box branch, `coax/utils/_array.py:333-338`. -/
noncomputable def preBox (bounds : List (Option ℝ × Option ℝ)) (l : List ℝ) : Except Err (Dists.Tree (List (List ℝ))) :=
  match reshapeTo bounds.length l with
  | .error e => .error e
  | .ok rows => .ok (.leaf (rows.map fun row => List.zipWith clipEntry bounds row))

/-- `X[:, i]`, `coax/utils/_array.py:347`.  (An index out of range raises for a numpy array.) -/
def column (i : Nat) : List (List Int) → Except Err (List Int)
  | [] => .ok []
  | r :: rs => match r[i]?, column i rs with
    | some x, .ok xs => .ok (x :: xs)
    | _, _ => .error .indexError

/-- The list comprehension of the MultiDiscrete branch, `coax/utils/_array.py:346-348`, from index `i` on. -/
noncomputable def preMulti (X : List (List Int)) (i : Nat) : List Nat → Except Err (List (Dists.Tree (List (List ℝ))))
  | [] => .ok []
  | n :: ns => match column i X with
    | .error e => .error e
    | .ok xs => match preMulti X (i + 1) ns with
      | .error e => .error e
      | .ok ts => .ok (.leaf (xs.map (oneHotRow n)) :: ts)

mutual
/-- `default_preprocessor(space)(rng, X)`, `coax/utils/_array.py:304-370`.  Inputs of another kind raise (various errors, modelled by `TypeError`). -/
noncomputable def defaultPre : Space → Inp → Except Err (Dists.Tree (List (List ℝ)))
  | .discrete n _, .int x => .ok (.leaf [oneHotRow n x])
  | .discrete n _, .ints xs => .ok (.leaf (xs.map (oneHotRow n)))
  | .discrete n _, .ints2 xs => .ok (.leaf (xs.flatten.map (oneHotRow n)))
  | .box bounds, .floats l => preBox bounds l
  | .box bounds, .floats2 l => preBox bounds l.flatten
  | .multiDiscrete nvec, .ints xs => match preMulti [xs] 0 nvec with
    | .error e => .error e
    | .ok ts => .ok (.list ts)
  | .multiDiscrete nvec, .ints2 xs => match preMulti xs 0 nvec with
    | .error e => .error e
    | .ok ts => .ok (.list ts)
  | .multiBinary n, .ints xs => match reshapeTo n (xs.map fun x : Int => (x : ℝ)) with
    | .error e => .error e
    | .ok rows => .ok (.leaf rows)
  | .multiBinary n, .ints2 xs => match reshapeTo n (xs.flatten.map fun x : Int => (x : ℝ)) with
    | .error e => .error e
    | .ok rows => .ok (.leaf rows)
  | .tuple ss, .tuple xs => match defaultPreList ss xs with
    | .error e => .error e
    | .ok ts => .ok (.list ts)
  | .dict ss, .dict xs => match defaultPreDict ss xs with
    | .error e => .error e
    | .ok ts => .ok (.dict ts)
  | _, _ => .error .typeError

/-- The tuple, `coax/utils/_array.py:359-360`. -/
noncomputable def defaultPreList : List Space → List Inp → Except Err (List (Dists.Tree (List (List ℝ))))
  | [], _ => .ok []
  | _ :: _, [] => .error .indexError
  | s :: ss, x :: xs => match defaultPre s x with
    | .error e => .error e
    | .ok t => match defaultPreList ss xs with
      | .error e => .error e
      | .ok ts => .ok (t :: ts)

/-- The dict comprehension, `coax/utils/_array.py:365`. -/
noncomputable def defaultPreDict : List (String × Space) → List (String × Inp) → Except Err (List (String × Dists.Tree (List (List ℝ))))
  | [], _ => .ok []
  | (k, s) :: ss, xs => match xs.lookup k with
    | none => .error .keyError
    | some x => match defaultPre s x with
      | .error e => .error e
      | .ok t => match defaultPreDict ss xs with
        | .error e => .error e
        | .ok ts => .ok ((k, t) :: ts)
end

mutual
/-- `batch_to_single`, `coax/utils/_array.py:116-137`: `arr[index]` of all leaves.  `none` if an index is out of range, or for arrays without a batch axis. -/
def batchToSingle (i : Nat) : Inp → Option Inp
  | .ints l => (l[i]?).map .int
  | .ints2 l => (l[i]?).map .ints
  | .floats2 l => (l[i]?).map .floats
  | .tuple l => (batchToSingleList i l).map .tuple
  | .dict l => (batchToSingleDict i l).map .dict
  | .int _ => none
  | .floats _ => none

/-- `jax.tree_map` over a tuple.  (`coax/utils/_array.py:137`.) -/
def batchToSingleList (i : Nat) : List Inp → Option (List Inp)
  | [] => some []
  | x :: xs => match batchToSingle i x, batchToSingleList i xs with
    | some y, some ys => some (y :: ys)
    | _, _ => none

/-- `jax.tree_map` over a dict.  (`coax/utils/_array.py:137`.) -/
def batchToSingleDict (i : Nat) : List (String × Inp) → Option (List (String × Inp))
  | [] => some []
  | (k, x) :: xs => match batchToSingle i x, batchToSingleDict i xs with
    | some y, some ys => some ((k, y) :: ys)
    | _, _ => none
end

mutual
/-- `single_to_batch`, `coax/utils/_array.py:850-871`: `expand_dims(arr, axis=0)` of all leaves.  `none` for arrays with more axes than the model has. -/
def singleToBatch : Inp → Option Inp
  | .int x => some (.ints [x])
  | .ints l => some (.ints2 [l])
  | .floats l => some (.floats2 [l])
  | .tuple l => (singleToBatchList l).map .tuple
  | .dict l => (singleToBatchDict l).map .dict
  | .ints2 _ => none
  | .floats2 _ => none

/-- `jax.tree_map` over a tuple.  (`coax/utils/_array.py:871`.) -/
def singleToBatchList : List Inp → Option (List Inp)
  | [] => some []
  | x :: xs => match singleToBatch x, singleToBatchList xs with
    | some y, some ys => some (y :: ys)
    | _, _ => none

/-- `jax.tree_map` over a dict.  (`coax/utils/_array.py:871`.) -/
def singleToBatchDict : List (String × Inp) → Option (List (String × Inp))
  | [] => some []
  | (k, x) :: xs => match singleToBatch x, singleToBatchDict xs with
    | some y, some ys => some ((k, y) :: ys)
    | _, _ => none
end

/-- The random numbers of one call of `safe_sample`, one for each place: a natural number (reduced to the range of `randint`) and one from the unit interval.
(`coax/utils/_array.py:797-808`.) -/
structure Rnd where
  nat : List Nat → Nat
  unit : List Nat → ℝ

/-- `onp.clip(space.low, -1e9, 1e9)` of one entry, `coax/utils/_array.py:806`. -/
noncomputable def safeLow : Option ℝ → ℝ
  | none => -1e9
  | some l => min (max l (-1e9)) 1e9

/-- `onp.clip(space.high, -1e9, 1e9)` of one entry, `coax/utils/_array.py:807`. -/
noncomputable def safeHigh : Option ℝ → ℝ
  | none => 1e9
  | some h => min (max h (-1e9)) 1e9

/-- One entry of a Box, `coax/utils/_array.py:806-809`. -/
noncomputable def safeEntry (b : Option ℝ × Option ℝ) (r : ℝ) : ℝ :=
  let x := safeLow b.1 + r * (safeHigh b.2 - safeLow b.1)
  SignType.sign x * Real.log (1 + |x|)

mutual
/-- `_safe_sample`, `coax/utils/_array.py:795-818`.  `rnd.randint(0)` raises `ValueError`.  For other spaces, whose own `sample` is called, `NotImplementedError` stands for what it returns. -/
noncomputable def safeSample (rnd : Rnd) (path : List Nat) : Space → Except Err Inp
  | .discrete n _ => if n = 0 then .error .valueError else .ok (.int (rnd.nat path % n : Nat))
  | .multiDiscrete nvec => if 0 ∈ nvec then .error .valueError else .ok (.ints (nvec.mapIdx fun i n => ((rnd.nat (i :: path) % n : Nat) : Int)))
  | .multiBinary n => .ok (.ints ((List.range n).map fun i => ((rnd.nat (i :: path) % 2 : Nat) : Int)))
  | .box bounds => .ok (.floats (bounds.mapIdx fun i b => safeEntry b (rnd.unit (i :: path))))
  | .tuple ss => match safeSampleList rnd path 0 ss with
    | .error e => .error e
    | .ok xs => .ok (.tuple xs)
  | .dict ss => match safeSampleDict rnd path 0 ss with
    | .error e => .error e
    | .ok xs => .ok (.dict xs)
  | .other => .error .notImplementedError

/-- The tuple, `coax/utils/_array.py:812`. -/
noncomputable def safeSampleList (rnd : Rnd) (path : List Nat) (i : Nat) : List Space → Except Err (List Inp)
  | [] => .ok []
  | s :: ss => match safeSample rnd (i :: path) s with
    | .error e => .error e
    | .ok x => match safeSampleList rnd path (i + 1) ss with
      | .error e => .error e
      | .ok xs => .ok (x :: xs)

/-- The dict, `coax/utils/_array.py:815`.  (The keys are sorted there; the model keeps the order of the space, which dicts do not depend on.) -/
noncomputable def safeSampleDict (rnd : Rnd) (path : List Nat) (i : Nat) : List (String × Space) → Except Err (List (String × Inp))
  | [] => .ok []
  | (k, s) :: ss => match safeSample rnd (i :: path) s with
    | .error e => .error e
    | .ok x => match safeSampleDict rnd path (i + 1) ss with
      | .error e => .error e
      | .ok xs => .ok ((k, x) :: xs)
end

end Coax.Utils
