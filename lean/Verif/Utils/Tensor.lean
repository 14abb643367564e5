import Verif.Err
import Mathlib.Data.Real.Basic

/-!
Model of the helpers in `coax/utils/_array.py` that change the shapes of arrays: `unvectorize`, `tree_sample` and `stack_trees`.  An array is its shape and a function
from indices to numbers; a pytree is the list of its leaves, since `jax.tree_map` keeps the structure.
-/

namespace Coax.Utils

/-- An array with entries of type `V`.  (`coax/utils/_array.py:1089-1092`.) -/
structure Tensor (V : Type _) where
  shape : List Nat
  data : List Nat → V

/-- The leaves of a pytree.  (`coax/utils/_array.py:1091`.) -/
abbrev TLeaves (V : Type _) := List (Tensor V)

variable {V : Type _}

/-- How jax and numpy read an axis of an array with `d` axes: negative numbers count from the end, others that are out of range raise `ValueError`.
(`coax/utils/_array.py:1091,1102`.) -/
def normAxis (axis : Int) (d : Nat) : Except Err Nat :=
  if 0 ≤ axis ∧ axis < d then .ok axis.toNat
  else if -d ≤ axis ∧ axis < 0 then .ok (axis + d).toNat
  else .error .valueError

/-- `jnp.expand_dims`.  (`coax/utils/_array.py:1091`.) -/
def expandDims (axis : Int) (t : Tensor V) : Except Err (Tensor V) := do
  let k ← normAxis axis (t.shape.length + 1)
  pure { shape := t.shape.insertIdx k 1, data := fun idx => t.data (idx.eraseIdx k) }

/-- `jnp.squeeze` of one axis.  (`coax/utils/_array.py:1102,1109`.) -/
def squeeze (axis : Int) (t : Tensor V) : Except Err (Tensor V) := do
  let k ← normAxis axis t.shape.length
  if t.shape[k]? = some 1 then pure { shape := t.shape.eraseIdx k, data := fun idx => t.data (idx.insertIdx k 0) }
  else .error .valueError

/-- The arguments `in_axes` and `out_axes`.  (`coax/utils/_array.py:1011`.) -/
inductive Axes where
  | none
  | int (axis : Int)
  | tuple (axes : List (Option Int))

/-- What a function returns: a pytree that is not a tuple, or a tuple of pytrees.  (`coax/utils/_array.py:1095`.) -/
inductive Res (V : Type _) where
  | single (t : TLeaves V)
  | tuple (ts : List (TLeaves V))

/-- `(axes,) * n` for `None` and integers.  (`coax/utils/_array.py:1084-1086,1096-1097`.) -/
def Axes.broadcast (n : Nat) : Axes → List (Option Int)
  | .none => List.replicate n Option.none
  | .int a => List.replicate n (some a)
  | .tuple l => l

/-- `arg if axis is None else jax.tree_map(partial(f, axis=axis), arg)`.  (`coax/utils/_array.py:1089-1092,1100-1103`.) -/
def mapAxis (f : Int → Tensor V → Except Err (Tensor V)) : Option Int → TLeaves V → Except Err (TLeaves V)
  | none, t => .ok t
  | some a, t => t.mapM (f a)

/-- What `f_single` does with the output of `f`, `coax/utils/_array.py:1094-1110`. -/
def squeezeOut (outAxes : Axes) : Res V → Except Err (Res V)
  | .tuple ts =>
    if ts.length = (outAxes.broadcast ts.length).length then (((outAxes.broadcast ts.length).zip ts).mapM fun p => mapAxis squeeze p.1 p.2).map .tuple
    else .error .valueError
  | .single t => match outAxes with
    | .none => .ok (.single t)
    | .int a => (mapAxis squeeze (some a) t).map .single
    | .tuple _ => .error .typeError

/-- `unvectorize(f, in_axes, out_axes)(*args)`, `coax/utils/_array.py:1083-1111`. -/
def unvectorize (f : List (TLeaves V) → Except Err (Res V)) (inAxes outAxes : Axes) (args : List (TLeaves V)) : Except Err (Res V) :=
  if args.length = (inAxes.broadcast args.length).length then
    match ((inAxes.broadcast args.length).zip args).mapM fun p => mapAxis expandDims p.1 p.2 with
    | .error e => .error e
    | .ok vargs => match f vargs with
      | .error e => .error e
      | .ok out => squeezeOut outAxes out
  else .error .valueError

/-- A leaf of a pytree: an array, something else that has `ndim` and `shape` (for example a numpy scalar), or something that does not (for example a Python float).
(`coax/utils/_array.py:1116-1129`.) -/
inductive Leaf (V : Type _) where
  | array (t : Tensor V)
  | arrayLike (t : Tensor V)
  | plain

/-- The checks of one leaf, and its `shape[0]`, `coax/utils/_array.py:1117-1121`. -/
def leafBatchSize : Leaf V → Except Err Nat
  | .array t => match t.shape with
    | [] => .error .typeError
    | b :: _ => .ok b
  | .arrayLike _ => .error .typeError
  | .plain => .error .attributeError

/-- The loop over the other leaves, `coax/utils/_array.py:1122-1128`. -/
def checkOthers (b : Nat) : List (Leaf V) → Except Err Nat
  | [] => .ok b
  | l :: ls => match leafBatchSize l with
    | .error e => .error e
    | .ok b' => if b' ≠ b then .error .typeError else checkOthers b ls

/-- `_check_leaf_batch_size`, `coax/utils/_array.py:1114-1129`.  Unpacking an empty list is a `ValueError`. -/
def checkLeafBatchSize : List (Leaf V) → Except Err Nat
  | [] => .error .valueError
  | l :: ls => match leafBatchSize l with
    | .error e => .error e
    | .ok b => checkOthers b ls

/-- `jnp.take(x, ix, axis=0)`, for indices in range.  (`coax/utils/_array.py:1008`.) -/
def takeRows (ix : List Nat) (t : Tensor V) : Tensor V where
  shape := ix.length :: t.shape.tail
  data := fun idx => match idx with
    | [] => t.data []
    | j :: idx => t.data (ix.getD j 0 :: idx)

/-- `jax.tree_map(lambda x: jnp.take(x, ix, axis=0), pytree)`.  (`coax/utils/_array.py:1008`.) -/
def takeLeaves (ix : List Nat) (ls : List (Leaf V)) : List (Leaf V) :=
  ls.map fun l => match l with
    | .array t => .array (takeRows ix t)
    | .arrayLike t => .arrayLike (takeRows ix t)
    | .plain => .plain

/-- `jax.random.choice(rng, m, shape=(n,), replace=replace, p=p)`: what it returned (`draw`), and when it raises.  (`coax/utils/_array.py:1007`.) -/
def choice (draw : Nat → Nat → Bool → List Nat) (m n : Nat) (replace : Bool) : Except Err (List Nat) :=
  if m = 0 ∧ n ≠ 0 then .error .valueError
  else if replace = false ∧ n > m then .error .valueError
  else .ok (draw m n replace)

/-- `tree_sample(pytree, rng, n, replace, axis, p)`, `coax/utils/_array.py:966-1008`; `rng` and `p` are in `draw`.  The argument `axis` is not used. -/
def treeSample (draw : Nat → Nat → Bool → List Nat) (ls : List (Leaf V)) (n : Nat) (replace : Bool) (_axis : Int) : Except Err (List (Leaf V)) :=
  match checkLeafBatchSize ls with
  | .error e => .error e
  | .ok m => match choice draw m n replace with
    | .error e => .error e
    | .ok ix => .ok (takeLeaves ix ls)

/-- `jnp.stack` (axis 0): all shapes must be equal, and there must be an array.  (`coax/utils/_array.py:1149`.) -/
def stack : List (Tensor V) → Except Err (Tensor V)
  | [] => .error .valueError
  | t :: ts =>
    if ts.all fun u => u.shape = t.shape then
      .ok { shape := (ts.length + 1) :: t.shape, data := fun idx => match idx with
        | [] => t.data []
        | i :: idx => ((t :: ts).getD i t).data idx }
    else .error .valueError

/-- `jax.tree_util.tree_map(lambda *args: jnp.stack(args), *trees)` for trees with the same structure; other numbers of leaves raise `ValueError`.
(`coax/utils/_array.py:1149`.) -/
def stackLeaves : List (TLeaves V) → Except Err (TLeaves V)
  | [] => .error .typeError
  | t :: ts =>
    if ts.all fun u => u.length = t.length then (List.range t.length).mapM fun j => stack ((t :: ts).filterMap (·[j]?))
    else .error .valueError

/-- `stack_trees(params, state)`, `coax/utils/_array.py:1132-1149`, for lists of parameters and states: `zip` makes the pairs of parameters and state, ending with the
shorter list, and the stacking gives the pair of stacked parameters and stacked states. -/
def stackTrees (params state : List (TLeaves V)) : Except Err (TLeaves V × TLeaves V) :=
  match stackLeaves ((params.zip state).map (·.1)), stackLeaves ((params.zip state).map (·.2)) with
  | .ok p, .ok s => .ok (p, s)
  | .error e, _ => .error e
  | .ok _, .error e => .error e

/-- `jnp.tile(t, [reps, 1, …, 1])`, `coax/td_learning/_clippeddoubleqlearning.py:313`. -/
def tileRows (reps : Nat) (t : Tensor V) : Tensor V where
  shape := match t.shape with
    | [] => [reps]
    | m :: sh => reps * m :: sh
  data := fun idx => match idx with
    | [] => t.data []
    | i :: idx => t.data (i % t.shape.headD 1 :: idx)

/-- `batch_to_single(pytree, index)` of an array, `coax/utils/_array.py:116-137`: entry `index` of the first axis. -/
def row (i : Nat) (t : Tensor V) : Tensor V where
  shape := t.shape.tail
  data := fun idx => t.data (i :: idx)

end Coax.Utils
