import Verif.Replay.Heap

/-! Model of `coax/experience_replay/_simple.py`. -/

namespace Coax.Replay

variable {τ : Type _}

/-- `SimpleReplayBuffer`, `coax/experience_replay/_simple.py:31-39`.  `randomState` is the stored state of the `random`
module (type `G`). -/
structure Simple (G : Type _) where
  capacity : Int
  storage : List Ref
  index : Nat
  randomState : G

/-- The process as far as the buffer can see it: the objects, the buffer, and the global state of `random`.  (`coax/experience_replay/_simple.py:31-36`.) -/
structure Sys (τ G : Type _) where
  heap : Heap τ
  buf : Simple G
  globalRandom : G

/-- `SimpleReplayBuffer.__init__`, `coax/experience_replay/_simple.py:31-35`; `seeded` is the state that
`random.seed(random_seed)` gives. -/
def Sys.init {G : Type _} (heap : Heap τ) (capacity : Int) (seeded : G) : Sys τ G :=
  { heap := heap, buf := ⟨capacity, [], 0, seeded⟩, globalRandom := seeded }

/-- The loop `while len(self) > self.capacity: self._storage.pop(0)`, `coax/experience_replay/_simple.py:60-61`;
`pop` from an empty list is an `IndexError`. -/
def trim (capacity : Int) : List Ref → List Ref × Option Err
  | [] => if (0 : Int) > capacity then ([], some .indexError) else ([], none)
  | r :: rs => if ((rs.length : Int) + 1) > capacity then trim capacity rs else (r :: rs, none)

/-- `add`, `coax/experience_replay/_simple.py:41-61`, for the object that `r` refers to.
A dangling reference stands for an argument that is not a `TransitionBatch`. -/
def Sys.add {G : Type _} (s : Sys τ G) (r : Ref) : Sys τ G × Option Err :=
  match s.heap[r]? with
  | none => (s, some .typeError)
  | some o =>
    let o : Obj τ := { o with idx := (List.range o.batchSize).map (fun i => s.buf.index + i) }
    let heap := s.heap.set r o
    let (heap, singles) := toSingles heap r o
    let (storage, err) := trim s.buf.capacity (s.buf.storage ++ singles)
    ({ s with heap := heap, buf := { s.buf with storage := storage, index := s.buf.index + o.batchSize } }, err)

/-- `clear`, `coax/experience_replay/_simple.py:86-89`. -/
def Sys.clear {G : Type _} (s : Sys τ G) : Sys τ G :=
  { s with buf := { s.buf with storage := [], index := 0 } }

/-- `__len__`, `coax/experience_replay/_simple.py:91-92`. -/
def Sys.len {G : Type _} (s : Sys τ G) : Nat := s.buf.storage.length

/-- `__bool__`, `coax/experience_replay/_simple.py:94-95`. -/
def Sys.bool {G : Type _} (s : Sys τ G) : Bool := s.len != 0

/-- `__iter__`, `coax/experience_replay/_simple.py:97-98`: the objects that iteration yields. -/
def Sys.iter {G : Type _} (s : Sys τ G) : List (Option (Obj τ)) := s.buf.storage.map (fun r => s.heap[r]?)

/-- The concatenation `jax.tree_map(lambda *leaves: onp.concatenate(leaves, axis=0), *transitions)`
(`coax/experience_replay/_simple.py:84`): a new object, built from copies. -/
def concat (os : List (Obj τ)) : Obj τ := ⟨os.flatMap (·.rows), os.flatMap (·.idx)⟩

/-- `sample`, `coax/experience_replay/_simple.py:63-84`.  `draw g n k` is what `random.sample` of `k` out of `n`
positions returns from generator state `g`, with the next state.  `random.sample` raises `ValueError` when `k > n` or
`k < 0`; with `k = 0` the call of `jax.tree_map` without a tree is a `TypeError`.  (In that last case the generator
state has already been saved; it is the state after drawing nothing.) -/
def Sys.sample {G : Type _} (draw : G → Nat → Nat → List Nat × G) (s : Sys τ G) (batchSize : Int) :
    Sys τ G × Except Err (Obj τ) :=
  let s := { s with globalRandom := s.buf.randomState }
  if batchSize < 0 ∨ batchSize > s.buf.storage.length then (s, .error .valueError)
  else
    let (pos, g) := draw s.globalRandom s.buf.storage.length batchSize.toNat
    let s := { s with globalRandom := g, buf := { s.buf with randomState := g } }
    let transitions := pos.map (fun p => s.buf.storage[p]?.bind (fun r => s.heap[r]?))
    if transitions.isEmpty then (s, .error .typeError)
    else match transitions.mapM id with
      | some os => (s, .ok (concat os))
      | none => (s, .error .indexError)

end Coax.Replay
