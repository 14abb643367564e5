import Verif.Loop.Schedule
import Verif.Core.ValuePolicy

/-!
The training loop of `doc/examples/stubs/qlearning.py:41-61` (and `doc/examples/frozen_lake/qlearning.py:34-57`; with `Sarsa` also `doc/examples/stubs/sarsa.py:41-61` and `doc/examples/frozen_lake/sarsa.py:34-53`, where the reward `r = -0.01` for not moving is part of `Game.step`) with the environment and the policy in it: the policy acts on the values that are being learned.  The function approximator is a table and the
optimizer `optax.sgd` with a schedule of learning rates (the examples use `optax.adam`, which is not part of the repository).  Episodes are not truncated (`env.spec.max_episode_steps` is not reached).
-/

namespace Coax.Loop

open Coax.RewardTracing Coax.TD Coax.Core

variable {σ U V : Type _} {n : Nat}

/-- An environment with random numbers of type `V`: `env.step(a)` in state `s` gives the next state, the reward and `done`; `env.reset()` gives a first state.  (`doc/examples/stubs/qlearning.py:43-47`.) -/
structure Game (σ : Type _) (n : Nat) (V : Type _) where
  step : σ → Fin n → V → σ × ℝ × Bool
  reset : V → σ

/-- What the loop carries from step to step: the number of the episode, the state `s` of the environment, the tracer, the params of `q` and the number of updates, which is the state of the optimizer.  (`doc/examples/stubs/qlearning.py:29-43`.) -/
structure Play (σ : Type _) (n : Nat) where
  ep : ℕ
  s : σ
  tracer : NStep σ (Fin n) ℝ
  q : σ → Fin n → ℝ
  updates : ℕ

/-- The objects before the first step, `doc/examples/stubs/qlearning.py:29-43`; `s0` is what the first `env.reset()` gives. -/
noncomputable def Play.init (gamma : ℝ) (s0 : σ) (θ0 : σ → Fin n → ℝ) : Play σ n := ⟨0, s0, NStep.init 1 gamma false, θ0, 0⟩

variable [DecidableEq σ]

/-- One step, `doc/examples/stubs/qlearning.py:46-61`: `a = pi(s)`, `env.step(a)`, `cache.add(s, a, r, done)` (with the default values `logp=0.0` and `w=1.0`, `coax/reward_tracing/_nstep.py:49`), the updates, and `env.reset()` if the episode has
ended.  `pi` gets the number of the episode, as exploration may be scheduled (line 42), the row of q-values of the state and the random numbers of type `U`. -/
noncomputable def Play.step (lr : ℕ → ℝ) (L : LossFn) (updateRule : QFn (σ → Fin n → ℝ) σ (List ℝ) → QFn (σ → Fin n → ℝ) σ (List ℝ) → TBatch σ (List ℝ) → Except Err (List ℝ)) (type1 : Bool) (pi : ℕ → (Fin n → ℝ) → U → Option (Fin n))
    (env : Game σ n V) (x : Play σ n) (w : U × V) : Except Err (Play σ n) :=
  match pi x.ep (x.q x.s) w.1 with
  | none => .error .valueError
  | some a =>
    let (s_next, r, done) := env.step x.s a w.2
    match onlineS lr L updateRule type1 (x.tracer, x.q, x.updates) [(⟨x.s, a, r, 0, 1⟩, done)] with
    | .error e => .error e
    | .ok (tracer, q, updates) => .ok ⟨if done then x.ep + 1 else x.ep, if done then env.reset w.2 else s_next, tracer, q, updates⟩

/-- The loop, with one pair of random numbers for each step, `doc/examples/stubs/qlearning.py:41-61`. -/
noncomputable def Play.run (lr : ℕ → ℝ) (L : LossFn) (updateRule : QFn (σ → Fin n → ℝ) σ (List ℝ) → QFn (σ → Fin n → ℝ) σ (List ℝ) → TBatch σ (List ℝ) → Except Err (List ℝ)) (type1 : Bool) (pi : ℕ → (Fin n → ℝ) → U → Option (Fin n))
    (env : Game σ n V) : Play σ n → List (U × V) → Except Err (Play σ n)
  | x, [] => .ok x
  | x, w :: ws =>
    match Play.step lr L updateRule type1 pi env x w with
    | .error e => .error e
    | .ok y => Play.run lr L updateRule type1 pi env y ws

/-- `coax.EpsilonGreedy(q, epsilon)` where `epsilon` may change from episode to episode, called with a state, `doc/examples/stubs/qlearning.py:30,42,46`. -/
noncomputable def epsilonGreedyPi (draw : List (Fin n) → Option (Fin n)) (tau : ℝ) (epsilon : ℕ → ℝ) : ℕ → (Fin n → ℝ) → (Fin n → ℝ) → Option (Fin n) :=
  fun ep row u => (policyCall draw tau u (epsilonGreedyLogits (epsilon ep) row)).1

/-- `coax.BoltzmannPolicy(q, temperature)` where `temperature` may change from episode to episode, called with a state, `doc/examples/frozen_lake/qlearning.py:22,38`. -/
noncomputable def boltzmannPi (draw : List (Fin n) → Option (Fin n)) (tau : ℝ) (temperature : ℕ → ℝ) : ℕ → (Fin n → ℝ) → (Fin n → ℝ) → Option (Fin n) :=
  fun ep row u => (policyCall draw tau u (boltzmannLogits (temperature ep) row)).1

end Coax.Loop
