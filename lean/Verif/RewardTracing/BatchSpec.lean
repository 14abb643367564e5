import Verif.RewardTracing.Batch

/-! What a batch is to a user: eleven slots whose leaves all have one row per transition. -/

namespace Coax.Batching

variable {D β : Type _}

/-- A proper batch of `n` transitions: eleven slots, `Rn` an array, every leaf with `n` rows. -/
structure Proper (n : Nat) (b : Batch D β) : Prop where
  slots : b.slots.length = 11
  rn : ∃ s rows, b.slots[3]? = some s ∧ s.leaves = [rows]
  rows : ∀ s ∈ b.slots, ∀ leaf ∈ s.leaves, leaf.length = n

/-- The pytree structure of a batch. -/
def Batch.structure (b : Batch D β) : List (D × Nat) := b.slots.map (fun s => (s.treedef, s.leaves.length))

/-- Leaf number `j` of slot number `k`. -/
def Batch.leaf (b : Batch D β) (k j : Nat) : Option (List β) := (b.slots[k]?).bind (fun s => s.leaves[j]?)

end Coax.Batching
