import Verif.RewardTracing.Batch
import Mathlib.Data.Nat.Digits.Defs

/-!
Model of `coax.utils.chunks_pow2` (`coax/utils/_array.py:241-269`), over the batch model of `Verif.RewardTracing.Batch`.
-/

namespace Coax.Chunks

open Coax.Batching

variable {D β : Type _}

/-- `bin(n).replace('0b', '')`, `coax/utils/_array.py:262`: most significant digit first, `true` is `'1'`.  `bin(0)` is
`'0b0'`. -/
def binary (n : Nat) : List Bool := if n = 0 then [false] else (Nat.digits 2 n).reverse.map (fun d => d == 1)

/-- `jax.tree_map(leafslice(start, stop), batch)`, `coax/utils/_array.py:255-260, 268`. -/
def leafslice (start stop : Nat) (b : Batch D β) : Batch D β :=
  ⟨b.slots.map (fun s => { s with leaves := s.leaves.map (fun rows => (rows.take stop).drop start) })⟩

/-- The loop `for i, b in enumerate(binary, 1)`, `coax/utils/_array.py:264-269`.  `len` is `len(binary)`. -/
def loop (batch : Batch D β) (len : Nat) : List Bool → Nat → Nat → List (Batch D β)
  | [], _, _ => []
  | false :: bs, i, start => loop batch len bs (i + 1) start
  | true :: bs, i, start =>
    let stop := start + 2 ^ (len - i)
    leafslice start stop batch :: loop batch len bs (i + 1) stop

/-- `chunks_pow2`, `coax/utils/_array.py:241-269` (all elements of the iterator). -/
def chunksPow2 (batch : Batch D β) : Except Err (List (Batch D β)) := do
  let n ← batch.batchSize
  let bin := binary n
  pure (loop batch bin.length bin 1 0)

end Coax.Chunks
