import Verif.RewardTracing.NStep
import Verif.RewardTracing.MonteCarlo
import Verif.Loop.Dqn

/-! Model of the online training loops of the documentation, which use each transition as soon as the tracer returns it (`doc/examples/stubs/sarsa.py`, `doc/examples/stubs/qlearning.py`, `doc/examples/stubs/reinforce.py`). -/

namespace Coax.Loop

open Coax.RewardTracing Coax.TD

variable {σ α : Type _}

/-- `tracer.add(s, a, r, done)` and `while tracer: transition_batch = tracer.pop()` for a sequence of steps, `doc/examples/stubs/sarsa.py:50-54`; the tracer and the transitions popped, in order.
`NStep.flush` pops in the same way. -/
noncomputable def feed : NStep σ α ℝ → List (Step σ α ℝ × Bool) → Except Err (NStep σ α ℝ × List (Out σ α ℝ))
  | t, [] => .ok (t, [])
  | t, (x, d) :: xs =>
    match t.add x d with
    | (_, some e) => .error e
    | (t', none) =>
      if t'.bool = true then
        match t'.flush with
        | (_, .error e) => .error e
        | (t'', .ok os) =>
          match feed t'' xs with
          | .error e => .error e
          | .ok (u, os') => .ok (u, os ++ os')
      else feed t' xs

/-- The same loop with a `MonteCarlo` tracer, `doc/examples/stubs/reinforce.py:40-44`. -/
noncomputable def feedMC : MonteCarlo σ α ℝ → List (Step σ α ℝ × Bool) → Except Err (MonteCarlo σ α ℝ × List (Out σ α ℝ))
  | t, [] => .ok (t, [])
  | t, (x, d) :: xs =>
    match t.add x d with
    | (_, some e) => .error e
    | (t', none) =>
      if t'.bool = true then
        match t'.flush with
        | (_, .error e) => .error e
        | (t'', .ok os) =>
          match feedMC t'' xs with
          | .error e => .error e
          | .ok (u, os') => .ok (u, os ++ os')
      else feedMC t' xs

/-- The target that an updater computes for one transition, `doc/examples/stubs/sarsa.py:54-55`; `preA` is the preprocessor of actions. -/
noncomputable def targetOf {α' : Type _} (preA : α → α') (target : TBatch σ α' → Except Err (List ℝ)) (o : Out σ α ℝ) : Except Err (List ℝ) :=
  match toTBatch id preA [o] with
  | .error e => .error e
  | .ok b => target b

end Coax.Loop
