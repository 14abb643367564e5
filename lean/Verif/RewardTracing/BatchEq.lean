import Verif.Utils.Tensor

/-!
Model of `TransitionBatch.__eq__`, `items`, `__iter__`, `__getitem__` and the default values of `__init__` (`coax/reward_tracing/_transition.py`).

A slot is a pytree: its structure and its leaves.  A leaf is an array of numbers or another Python object; `None` is a pytree without leaves.  Arrays are exact reals; NaN and arrays of
other types are not modelled.
-/

namespace Coax.Batching

open Coax.Utils

variable {D V : Type _}

/-- A leaf of a pytree.  (`coax/reward_tracing/_transition.py:233-235`.) -/
inductive Leaf (V : Type _) where
  | array (t : Tensor ℝ)
  | other (v : V)

/-- The pytree in one slot.  (`coax/reward_tracing/_transition.py:85-97`.) -/
structure Tree (D V : Type _) where
  treedef : D
  leaves : List (Leaf V)

/-- The shape to which numpy broadcasts two arrays; here the axes are listed from the last to the first.  (`coax/reward_tracing/_transition.py:233`.) -/
def broadcastRev : List Nat → List Nat → Option (List Nat)
  | [], t => some t
  | s, [] => some s
  | a :: s, b :: t =>
    if a = b then (broadcastRev s t).map (a :: ·)
    else if a = 1 then (broadcastRev s t).map (b :: ·)
    else if b = 1 then (broadcastRev s t).map (a :: ·)
    else none

/-- The index of an array of shape `s` that belongs to an index of the broadcast array; axes from the last to the first.  (`coax/reward_tracing/_transition.py:233`.) -/
def broadcastIdx (s idx : List Nat) : List Nat := List.zipWith (fun d i => if d = 1 then 0 else i) s idx

/-- The entry of an array that is broadcast; `idx` is listed from the last axis to the first.  (`coax/reward_tracing/_transition.py:233`.) -/
noncomputable def broadcastGet (t : Tensor ℝ) (idx : List Nat) : ℝ := t.data (broadcastIdx t.shape.reverse idx).reverse

open Classical in
/-- `onp.allclose(a, b)` with its default tolerances, `coax/reward_tracing/_transition.py:233`. -/
noncomputable def allclose (a b : Tensor ℝ) : Except Err Bool :=
  match broadcastRev a.shape.reverse b.shape.reverse with
  | none => .error .valueError
  | some s => .ok (decide (∀ idx, List.Forall₂ (· < ·) idx s → |broadcastGet a idx - broadcastGet b idx| ≤ 1e-8 + 1e-5 * |broadcastGet b idx|))

/-- How Python compares objects that are not both arrays, as a truth value: `arr` compares an object with an array, `obj` two objects.  (`coax/reward_tracing/_transition.py:234`.) -/
structure PyEq (V : Type _) where
  arr : V → Tensor ℝ → Except Err Bool
  obj : V → V → Bool

/-- One pair of leaves, `coax/reward_tracing/_transition.py:233-234`; an object that is not an array is compared with `==` (`None` is no leaf).  `allclose` of an array and another object converts it to an
array, here: `conv`. -/
noncomputable def leafEq (py : PyEq V) (conv : V → Except Err (Tensor ℝ)) : Leaf V → Leaf V → Except Err Bool
  | .array a, .array b => allclose a b
  | .array a, .other v => match conv v with
    | .error e => .error e
    | .ok b => allclose a b
  | .other v, .array b => py.arr v b
  | .other v, .other w => .ok (py.obj v w)

/-- `all(... for a, b in zip(...))`, `coax/reward_tracing/_transition.py:232-235`: the first pair that is not equal ends the comparison. -/
noncomputable def allEq (py : PyEq V) (conv : V → Except Err (Tensor ℝ)) : List (Leaf V) → List (Leaf V) → Except Err Bool
  | a :: as, b :: bs => match leafEq py conv a b with
    | .error e => .error e
    | .ok false => .ok false
    | .ok true => allEq py conv as bs
  | _, _ => .ok true

/-- A batch: the trees in the eleven slots, `coax/reward_tracing/_transition.py:81-82`. -/
structure FullBatch (D V : Type _) where
  S : Tree D V
  A : Tree D V
  logP : Tree D V
  Rn : Tree D V
  In : Tree D V
  S_next : Tree D V
  A_next : Tree D V
  logP_next : Tree D V
  W : Tree D V
  idx : Tree D V
  extra_info : Tree D V

/-- `__iter__`, `coax/reward_tracing/_transition.py:225-226`. -/
def FullBatch.toTuple (b : FullBatch D V) : List (Tree D V) := [b.S, b.A, b.logP, b.Rn, b.In, b.S_next, b.A_next, b.logP_next, b.W, b.idx, b.extra_info]

/-- `items`, `coax/reward_tracing/_transition.py:215-217`; `_asdict` is the dict of these (lines 219-220). -/
def FullBatch.items (b : FullBatch D V) : List (String × Tree D V) :=
  [("S", b.S), ("A", b.A), ("logP", b.logP), ("Rn", b.Rn), ("In", b.In), ("S_next", b.S_next), ("A_next", b.A_next), ("logP_next", b.logP_next), ("W", b.W), ("idx", b.idx),
    ("extra_info", b.extra_info)]

/-- `__getitem__` with an integer, `coax/reward_tracing/_transition.py:228-229`: the element of the tuple; negative numbers count from the end. -/
def FullBatch.getItem (b : FullBatch D V) (i : Int) : Except Err (Tree D V) :=
  let j := if i < 0 then i + 11 else i
  if 0 ≤ j then match b.toTuple[j.toNat]? with
    | some t => .ok t
    | none => .error .indexError
  else .error .indexError

/-- `jax.tree_util.tree_leaves(self)`, with the registration in `coax/reward_tracing/_transition.py:243-246`. -/
def FullBatch.leaves (b : FullBatch D V) : List (Leaf V) := b.toTuple.flatMap Tree.leaves

/-- `__eq__`, `coax/reward_tracing/_transition.py:231-235`; `none` is an object of another type. -/
noncomputable def FullBatch.eq (py : PyEq V) (conv : V → Except Err (Tensor ℝ)) (self : FullBatch D V) : Option (FullBatch D V) → Except Err Bool
  | none => .ok false
  | some other => allEq py conv self.leaves other.leaves

/-- `onp.ones_like(Rn) if W is None else W`, `coax/reward_tracing/_transition.py:95`.  `None` has the structure `none`.  `ones_like` of something that is not an array is not modelled (`TypeError` here). -/
noncomputable def defaultW (Rn W : Tree (Option D) V) : Except Err (Tree (Option D) V) :=
  if W.treedef.isSome then .ok W
  else match Rn.leaves with
    | [.array r] => .ok ⟨Rn.treedef, [.array ⟨r.shape, fun _ => 1⟩]⟩
    | _ => .error .typeError

/-- `onp.arange(Rn.shape[0], dtype='int32') if idx is None else idx`, `coax/reward_tracing/_transition.py:96`. -/
noncomputable def defaultIdx (Rn idx : Tree (Option D) V) : Except Err (Tree (Option D) V) :=
  if idx.treedef.isSome then .ok idx
  else match Rn.leaves with
    | [.array r] => match r.shape with
      | [] => .error .indexError
      | n :: _ => .ok ⟨Rn.treedef, [.array ⟨[n], fun i => (i.headD 0 : ℕ)⟩]⟩
    | _ => .error .attributeError

/-- `TransitionBatch(*leaves)`, `coax/reward_tracing/_transition.py:84-97,246`, for a list of eleven trees. -/
noncomputable def FullBatch.new : List (Tree (Option D) V) → Except Err (FullBatch (Option D) V)
  | [S, A, logP, Rn, In, S_next, A_next, logP_next, W, idx, extra_info] =>
    match defaultW Rn W with
    | .error e => .error e
    | .ok W' => match defaultIdx Rn idx with
      | .error e => .error e
      | .ok idx' => .ok ⟨S, A, logP, Rn, In, S_next, A_next, logP_next, W', idx', extra_info⟩
  | _ => .error .typeError

end Coax.Batching
