import Verif.Loop.Closed
import Verif.Loop.OnlineTarget

/-!
The training loop with the environment and the policy in it, as in `Verif/Loop/Closed.lean`, for objects with any params: `doc/examples/frozen_lake/double_qlearning.py:38-61`, where a target network follows the q-function, and
`doc/examples/cartpole/model_based.py:54-74`, where a value function is learned and the policy looks one step ahead.

The function approximators are tables and the optimizer is `optax.sgd` with a schedule of learning rates (the examples use `optax.adam`, which is not part of the repository).  Episodes are not truncated (`env.spec.max_episode_steps` is not
reached), and there is no early stopping.
-/

namespace Coax.Loop

open Coax.RewardTracing Coax.TD Coax.Core

variable {Θ σ U V : Type _} {n : Nat}

/-- What the loop carries from step to step: the number of the episode, the state `s` of the environment, the tracer, the params of the function approximators and the number of updates, which is the state of the optimizer.
(`doc/examples/frozen_lake/double_qlearning.py:21-39`.) -/
structure Acting (Θ σ : Type _) (n : Nat) where
  ep : ℕ
  s : σ
  tracer : NStep σ (Fin n) ℝ
  params : Θ
  updates : ℕ

/-- The objects before the first step, `doc/examples/frozen_lake/double_qlearning.py:21-39`; `s0` is what the first `env.reset()` gives. -/
noncomputable def Acting.init (gamma : ℝ) (s0 : σ) (θ0 : Θ) : Acting Θ σ n := ⟨0, s0, NStep.init 1 gamma false, θ0, 0⟩

/-- One step, `doc/examples/frozen_lake/double_qlearning.py:42-61`: `a = pi(s)`, `env.step(a)`, `tracer.add(s, a, r, done)` (with the default values `logp=0.0` and `w=1.0`, `coax/reward_tracing/_nstep.py:49`), the updates, and `env.reset()` if
the episode has ended.  `pi` gets the number of the episode, the params, the state and the random numbers of type `U`. -/
noncomputable def Acting.step (update : ℕ → Θ → Out σ (Fin n) ℝ → Except Err Θ) (pi : ℕ → Θ → σ → U → Option (Fin n)) (env : Game σ n V) (x : Acting Θ σ n) (w : U × V) : Except Err (Acting Θ σ n) :=
  match pi x.ep x.params x.s w.1 with
  | none => .error .valueError
  | some a =>
    let (s_next, r, done) := env.step x.s a w.2
    match onlineU update (x.tracer, x.params, x.updates) [(⟨x.s, a, r, 0, 1⟩, done)] with
    | .error e => .error e
    | .ok (tracer, params, updates) => .ok ⟨if done then x.ep + 1 else x.ep, if done then env.reset w.2 else s_next, tracer, params, updates⟩

/-- The loop, with one pair of random numbers for each step, `doc/examples/frozen_lake/double_qlearning.py:38-61`. -/
noncomputable def Acting.run (update : ℕ → Θ → Out σ (Fin n) ℝ → Except Err Θ) (pi : ℕ → Θ → σ → U → Option (Fin n)) (env : Game σ n V) : Acting Θ σ n → List (U × V) → Except Err (Acting Θ σ n)
  | x, [] => .ok x
  | x, w :: ws =>
    match Acting.step update pi env x w with
    | .error e => .error e
    | .ok y => Acting.run update pi env y ws

/-- A policy on `q`, where there is also a target network, `doc/examples/frozen_lake/double_qlearning.py:21-22,42`. -/
def onQ (pi : ℕ → (Fin n → ℝ) → U → Option (Fin n)) : ℕ → (σ → Fin n → ℝ) × (σ → Fin n → ℝ) → σ → U → Option (Fin n) := fun ep θ s u => pi ep (θ.1 s) u

end Coax.Loop
