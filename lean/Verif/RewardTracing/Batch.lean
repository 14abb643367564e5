import Verif.Err
import Mathlib.Data.List.Basic
import Mathlib.Data.List.Forall2

/-!
Model of `TransitionBatch` as a batched container (`coax/reward_tracing/_transition.py`): splitting into single
transitions, and the concatenation used by `SimpleReplayBuffer.sample`, `PrioritizedReplayBuffer.sample` and `flush`.

A pytree is its structure `treedef` and its list of leaves; a leaf is an array, here the list of its rows along axis 0.
`None` is a pytree without leaves.  Not modelled: dtypes and trailing dimensions of the rows (`numpy.concatenate` also
raises if these differ).
-/

namespace Coax.Batching

variable {D β : Type _}

/-- The pytree in one slot of a batch: its structure and its leaves.  (`coax/reward_tracing/_transition.py:81-99`.) -/
structure Slot (D β : Type _) where
  treedef : D
  leaves : List (List β)
deriving DecidableEq

/-- `TransitionBatch`, `coax/reward_tracing/_transition.py:81-97`: the eleven slots, in the order of `__slots__` (which is
the order of `__iter__`, line 225-226).  Slot number 3 is `Rn`.  `W` and `idx` are already filled in (lines 95-96). -/
structure Batch (D β : Type _) where
  slots : List (Slot D β)
deriving DecidableEq

/-- `batch_size`, `coax/reward_tracing/_transition.py:185-187`.  `Rn` must be an array. -/
def Batch.batchSize (b : Batch D β) : Except Err Nat :=
  match (b.slots[3]? : Option (Slot D β)) with
  | some { leaves := [rows], .. } => .ok rows.length
  | _ => .error .indexError

/-- The slice `leaf[i:i + 1]`, `coax/reward_tracing/_transition.py:207-208`. -/
def sliceAt (i : Nat) (rows : List β) : List β := (rows.drop i).take 1

/-- `lookup(i, pytree)`, `coax/reward_tracing/_transition.py:206-208`. -/
def Slot.lookup (i : Nat) (s : Slot D β) : Slot D β := { s with leaves := s.leaves.map (sliceAt i) }

/-- `to_singles`, `coax/reward_tracing/_transition.py:189-213` (all elements of the iterator). -/
def Batch.toSingles (b : Batch D β) : Except Err (List (Batch D β)) := do
  let n ← b.batchSize
  if n = 1 then pure [b]
  else pure ((List.range n).map (fun i => ⟨b.slots.map (Slot.lookup i)⟩))

/-- `jax.tree_map(lambda *leaves: concatenate(leaves, axis=0), *trees)` on one slot: the other trees must have the
structure of the first.  `coax/reward_tracing/_base.py:93`, `coax/experience_replay/_simple.py:84`,
`coax/experience_replay/_prioritized.py:224-225`. -/
def concatSlots [DecidableEq D] (first : Slot D β) (rest : List (Slot D β)) : Except Err (Slot D β) :=
  if rest.all (fun s => decide (s.treedef = first.treedef) && decide (s.leaves.length = first.leaves.length)) then
    .ok { treedef := first.treedef
          leaves := (List.range first.leaves.length).map (fun j => ((first :: rest).map (fun s => s.leaves[j]?.getD [])).flatten) }
  else .error .valueError

/-- The same on whole batches (a `TransitionBatch` is itself a pytree, with the slots as children,
`coax/reward_tracing/_transition.py:243-246`).  With no trees `tree_map` raises `TypeError`. -/
def concat [DecidableEq D] : List (Batch D β) → Except Err (Batch D β)
  | [] => .error .typeError
  | first :: rest =>
    if rest.any (fun b => decide (b.slots.length ≠ first.slots.length)) then .error .valueError
    else do
      let slots ← first.slots.zipIdx.mapM (fun (s, k) => concatSlots s (rest.filterMap (fun b => b.slots[k]?)))
      pure ⟨slots⟩

end Coax.Batching
