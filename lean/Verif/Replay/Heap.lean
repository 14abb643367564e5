import Verif.Err
import Mathlib.Data.List.Basic

/-!
`TransitionBatch` objects as they are seen by the replay buffers (`coax/reward_tracing/_transition.py`).

Python objects are mutable and shared: `add` assigns the attribute `idx` of the object it is given, and `to_singles`
yields the object itself when the batch size is one.  So objects live in a heap and the buffers store references.
A row (`τ`) is everything in one transition except its identifier `idx`.
-/

namespace Coax.Replay

variable {τ : Type _}

/-- A `TransitionBatch`, `coax/reward_tracing/_transition.py:81-97`: the rows and the attribute `idx`. -/
structure Obj (τ : Type _) where
  rows : List τ
  idx : List Nat
deriving DecidableEq, Repr

/-- A reference to an object.  (`coax/experience_replay/_simple.py:59`.) -/
abbrev Ref := Nat

/-- The heap; a reference is a position in it and new objects go to the end.  (`coax/experience_replay/_simple.py:59`.) -/
abbrev Heap (τ : Type _) := List (Obj τ)

/-- The constructor with the default `idx`, `coax/reward_tracing/_transition.py:84-97`. -/
def Obj.new (rows : List τ) : Obj τ := ⟨rows, List.range rows.length⟩

/-- `batch_size`, `coax/reward_tracing/_transition.py:185-187`. -/
def Obj.batchSize (o : Obj τ) : Nat := o.rows.length

/-- `to_singles`, `coax/reward_tracing/_transition.py:189-213`: the object itself for batch size one, otherwise new
objects holding the slices `leaf[i:i+1]`. -/
def toSingles (h : Heap τ) (r : Ref) (o : Obj τ) : Heap τ × List Ref :=
  if o.batchSize = 1 then (h, [r])
  else
    (h ++ (List.range o.batchSize).map (fun i => ⟨(o.rows.drop i).take 1, (o.idx.drop i).take 1⟩),
     (List.range o.batchSize).map (fun i => h.length + i))

end Coax.Replay
