import Verif.Replay.Simple
import Verif.SegmentTree.Model
import Mathlib.Analysis.SpecialFunctions.Pow.Real

/-!
Model of `coax/experience_replay/_prioritized.py`, on top of the `SumTree` model.

Numbers are exact reals.  Not modelled: the `float32`/`int32` conversions in `update` and jax device arrays.
-/

namespace Coax.Replay

open Coax.SegmentTree (readAt writeAll)

/-- A row of a transition batch with its weight `W` made explicit (`coax/reward_tracing/_transition.py:95`). -/
structure Row (σ : Type _) where
  data : σ
  W : ℝ

/-- Attributes of a `PrioritizedReplayBuffer`, `coax/experience_replay/_prioritized.py:78-84, 208-212`. -/
structure PBuf where
  capacity : Nat
  alpha : ℝ
  beta : ℝ
  epsilon : ℝ
  storage : List (Option Ref)
  tree : SegmentTree.Tree ℝ
  index : Nat

/-- The objects and the buffer.  (`coax/experience_replay/_prioritized.py:68-84`.) -/
structure PSys (σ : Type _) where
  heap : Heap (Row σ)
  buf : PBuf

variable {σ : Type _}

/-- `clear`, `coax/experience_replay/_prioritized.py:208-212`. -/
noncomputable def PBuf.clear (b : PBuf) : PBuf :=
  { b with storage := List.replicate b.capacity none, tree := SegmentTree.Tree.initSum b.capacity, index := 0 }

/-- `__init__`, `coax/experience_replay/_prioritized.py:68-84`. -/
noncomputable def PSys.init (heap : Heap (Row σ)) (capacity : Int) (alpha beta epsilon : ℝ) : Except Err (PSys σ) :=
  if 0 < capacity ∧ 0 < alpha ∧ 0 < beta ∧ 0 < epsilon then
    .ok { heap := heap
          buf := PBuf.clear { capacity := capacity.toNat, alpha := alpha, beta := beta, epsilon := epsilon,
                              storage := [], tree := SegmentTree.Tree.initSum 0, index := 0 } }
  else .error .typeError

/-- `onp.power(onp.abs(Adv) + self.epsilon, self.alpha)` for one entry
(`coax/experience_replay/_prioritized.py:150, 204`). -/
noncomputable def PBuf.priority (b : PBuf) (adv : ℝ) : ℝ := (|adv| + b.epsilon) ^ b.alpha

/-- `__len__`, `coax/experience_replay/_prioritized.py:214-215`. -/
def PBuf.len (b : PBuf) : Nat := min b.capacity b.index

/-- `add`, `coax/experience_replay/_prioritized.py:126-151`.  The attribute `idx` of the argument is assigned before the
shapes are compared. -/
noncomputable def PSys.add (s : PSys σ) (r : Ref) (Adv : List ℝ) : PSys σ × Option Err :=
  match s.heap[r]? with
  | none => (s, some .typeError)
  | some o =>
    let ids := (List.range o.batchSize).map (fun i => s.buf.index + i)
    let o : Obj (Row σ) := { o with idx := ids }
    let heap := s.heap.set r o
    let idx := ids.map (fun i => i % s.buf.capacity)
    if Adv.length ≠ idx.length then ({ s with heap := heap }, some .assertionError)
    else
      let (heap, singles) := toSingles heap r o
      match writeAll s.buf.storage (idx.zip (singles.map some)) with
      | .error e => ({ s with heap := heap }, some e)
      | .ok storage =>
        match s.buf.tree.setValues (.arr (idx.map (fun (p : Nat) => (p : Int)))) (Adv.map s.buf.priority) with
        | .error e => ({ heap := heap, buf := { s.buf with storage := storage } }, some e)
        | .ok tree =>
          ({ heap := heap
             buf := { s.buf with storage := storage, tree := tree, index := s.buf.index + o.batchSize } }, none)

/-- `_get_transition_batch_idx` for the object in slot `p`, `coax/experience_replay/_prioritized.py:203, 228-230`; an empty
slot holds `None`, which has no attribute `idx`. -/
def PSys.storedId (s : PSys σ) (p : Nat) : Except Err Int :=
  match s.buf.storage[p]? with
  | none => .error .indexError
  | some none => .error .attributeError
  | some (some r) =>
    match s.heap[r]? with
    | some ⟨_, [i]⟩ => .ok i
    | _ => .error .valueError

/-- `update`, `coax/experience_replay/_prioritized.py:180-206`.  `onp.vectorize` refuses an empty input
(`ValueError`). -/
noncomputable def PSys.update (s : PSys σ) (idx : List Int) (Adv : List ℝ) : PSys σ × Option Err :=
  if idx.length ≠ Adv.length then (s, some .assertionError)
  else if idx.isEmpty then (s, some .valueError)
  else
    let lookup := idx.map (fun i => (i % (s.buf.capacity : Int)).toNat)
    match lookup.mapM s.storedId with
    | .error e => (s, some e)
    | .ok ids =>
      match lookup.mapM (readAt s.buf.tree.values) with
      | .error e => (s, some e)
      | .ok old =>
        let new := List.zipWith (fun (m : Bool) (v : ℝ × ℝ) => if m then v.1 else v.2)
          (List.zipWith (fun i j => decide (i = j)) ids idx) ((Adv.map s.buf.priority).zip old)
        match s.buf.tree.setValues (.arr (lookup.map (fun (p : Nat) => (p : Int)))) new with
        | .error e => (s, some e)
        | .ok tree => ({ s with buf := { s.buf with tree := tree } }, none)

/-- `onp.isclose(a, b, rtol=0.01)` (with the default `atol=1e-8`).  (`coax/experience_replay/_prioritized.py:98`.) -/
noncomputable def isClose (a b : ℝ) : Prop := |a - b| ≤ 1e-8 + 0.01 * |b|

open Classical in
/-- The setter of `alpha`, `coax/experience_replay/_prioritized.py:94-104`. -/
noncomputable def PSys.setAlpha (s : PSys σ) (newAlpha : ℝ) : PSys σ × Option Err :=
  if ¬ 0 < newAlpha then (s, some .typeError)
  else if isClose newAlpha s.buf.alpha then (s, none)
  else
    let newValues := s.buf.tree.values.map (fun v =>
      if v ≤ 0 then 0 else Real.exp (Real.log (max v 1e-15) * (newAlpha / s.buf.alpha)))
    match s.buf.tree.setValues .all newValues with
    | .error e => (s, some e)
    | .ok tree => ({ s with buf := { s.buf with tree := tree, alpha := newAlpha } }, none)

open Classical in
/-- The setter of `beta`, `coax/experience_replay/_prioritized.py:110-114`. -/
noncomputable def PSys.setBeta (s : PSys σ) (b : ℝ) : PSys σ × Option Err :=
  if 0 < b then ({ s with buf := { s.buf with beta := b } }, none) else (s, some .typeError)

open Classical in
/-- The setter of `epsilon`, `coax/experience_replay/_prioritized.py:120-124`. -/
noncomputable def PSys.setEpsilon (s : PSys σ) (e : ℝ) : PSys σ × Option Err :=
  if 0 < e then ({ s with buf := { s.buf with epsilon := e } }, none) else (s, some .typeError)

/-- `clear` as a method.  (`coax/experience_replay/_prioritized.py:208-213`.) -/
noncomputable def PSys.clear (s : PSys σ) : PSys σ := { s with buf := s.buf.clear }

/-- The object in slot `p` (`None` cannot be concatenated with batches: `ValueError` from jax).  (`coax/experience_replay/_prioritized.py:175`.) -/
def PSys.slot (s : PSys σ) (p : Nat) : Except Err (Obj (Row σ)) :=
  match s.buf.storage[p]? with
  | some (some r) => (match s.heap[r]? with | some o => .ok o | none => .error .indexError)
  | some none => .error .valueError
  | none => .error .indexError

/-- `__iter__`, `coax/experience_replay/_prioritized.py:220-221`: the objects in `self._storage[:len(self)]` (`none` for
an entry that is not an object). -/
def PSys.iter (s : PSys σ) : List (Option (Obj (Row σ))) :=
  (s.buf.storage.take s.buf.len).map (fun x => x.bind (fun r => s.heap[r]?))

/-- The weights computed by `sample` before they are normalised,
`coax/experience_replay/_prioritized.py:172-173`. -/
noncomputable def PBuf.rawWeights (b : PBuf) (root : ℝ) (vals : List ℝ) : List ℝ :=
  vals.map (fun v => (v / root * (b.len : ℝ)) ^ (-b.beta))

/-- `W.max()` of a non-empty 1d array.  (`coax/experience_replay/_prioritized.py:174`.) -/
noncomputable def listMax : List ℝ → ℝ
  | [] => 0
  | x :: xs => xs.foldl max x

/-- `sample`, `coax/experience_replay/_prioritized.py:153-178`.  `rnd n` is what the generator of the tree returns.
(`W.max()` of an empty array cannot happen: `SumTree.sample` rejects `n ≤ 0`.)  The rows of the result are copies. -/
noncomputable def PSys.sample (s : PSys σ) (batchSize : Int) (rnd : Nat → List ℝ) : Except Err (Obj (Row σ)) := do
  let idx ← s.buf.tree.sample batchSize rnd
  let vals ← idx.mapM (readAt s.buf.tree.values)
  let root ← s.buf.tree.rootValue
  let W := s.buf.rawWeights root vals
  let W := W.map (fun w => w / listMax W)
  let objs ← idx.mapM s.slot
  let batch := concat objs
  if batch.rows.length ≠ W.length then throw .assertionError
  pure { batch with rows := List.zipWith (fun row w => { row with W := row.W * w }) batch.rows W }

end Coax.Replay
