import Verif.Loop.Schedule
import Verif.Loop.Dqn

/-!
The training loop of `doc/examples/cartpole/dqn.py:45-75`, with all its parts: the tracer, the replay buffer, the updater and the target network, for a table and `optax.sgd` with a schedule of learning rates (the example uses `optax.adam`,
which is not part of the repository).
-/

namespace Coax.Loop

open Coax.RewardTracing Coax.Replay Coax.TD Coax.Core

variable {σ G : Type _} {n : Nat}

/-- The objects that the loop changes, `doc/examples/cartpole/dqn.py:33-41`: tracer and buffer, the params of `q` and `q_targ`, and the number of updates, which is the state of `optax.sgd` with a schedule. -/
structure Trainee (σ : Type _) (n : Nat) (G : Type _) where
  agent : Agent σ (Fin n) G
  q : σ → Fin n → ℝ
  qTarg : σ → Fin n → ℝ
  updates : ℕ

variable [DecidableEq σ]

/-- `if len(buffer) >= warm: transition_batch = buffer.sample(batch_size=batch); qlearning.update(transition_batch)`, `doc/examples/cartpole/dqn.py:64-67`. -/
noncomputable def Trainee.learn (draw : G → Nat → Nat → List Nat × G) (lr : ℕ → ℝ) (L : LossFn) (updateRule : QFn (σ → Fin n → ℝ) σ (List ℝ) → QFn (σ → Fin n → ℝ) σ (List ℝ) → TBatch σ (List ℝ) → Except Err (List ℝ)) (type1 : Bool)
    (warm batch : Nat) (x : Trainee σ n G) : Except Err (Trainee σ n G) :=
  if warm ≤ x.agent.sys.len then
    match x.agent.sys.sample draw batch with
    | (_, .error e) => .error e
    | (s, .ok o) =>
      match sgdUpdate (lr x.updates) L updateRule type1 x.qTarg x.q o.rows with
      | .error e => .error e
      | .ok θ => .ok { x with agent := { x.agent with sys := s }, q := θ, updates := x.updates + 1 }
  else .ok x

/-- The body of the loop, `doc/examples/cartpole/dqn.py:58-70`: `tracer.add(...)`, `while tracer: buffer.add(tracer.pop())`, the update, and `q_targ.soft_update(q, tau)`. -/
noncomputable def Trainee.step (draw : G → Nat → Nat → List Nat × G) (lr : ℕ → ℝ) (tau : ℝ) (L : LossFn) (updateRule : QFn (σ → Fin n → ℝ) σ (List ℝ) → QFn (σ → Fin n → ℝ) σ (List ℝ) → TBatch σ (List ℝ) → Except Err (List ℝ)) (type1 : Bool)
    (warm batch : Nat) (x : Trainee σ n G) (s : Step σ (Fin n) ℝ × Bool) : Except Err (Trainee σ n G) :=
  match x.agent.observe s.1 s.2 with
  | (_, some e) => .error e
  | (a, none) =>
    match Trainee.learn draw lr L updateRule type1 warm batch { x with agent := a } with
    | .error e => .error e
    | .ok y => .ok { y with qTarg := softTable tau y.qTarg y.q }

/-- The loop for a sequence of steps, each with the flag that is passed to `tracer.add`, `doc/examples/cartpole/dqn.py:45-75`. -/
noncomputable def Trainee.run (draw : G → Nat → Nat → List Nat × G) (lr : ℕ → ℝ) (tau : ℝ) (L : LossFn) (updateRule : QFn (σ → Fin n → ℝ) σ (List ℝ) → QFn (σ → Fin n → ℝ) σ (List ℝ) → TBatch σ (List ℝ) → Except Err (List ℝ)) (type1 : Bool)
    (warm batch : Nat) : Trainee σ n G → List (Step σ (Fin n) ℝ × Bool) → Except Err (Trainee σ n G)
  | x, [] => .ok x
  | x, s :: ss =>
    match Trainee.step draw lr tau L updateRule type1 warm batch x s with
    | .error e => .error e
    | .ok y => Trainee.run draw lr tau L updateRule type1 warm batch y ss

end Coax.Loop
