import Verif.Loop.Closed
import Verif.Loop.Replay

/-!
The training loop of `doc/examples/cartpole/dqn.py:45-75` with the environment and the policy in it: the agent acts on the values of `q` while `q` learns from the replay buffer.  As in `Loop/Replay`, `q` is a table and the optimizer is
`optax.sgd` with a schedule of learning rates (the example uses `optax.adam`, which is not part of the repository).  Episodes are not truncated (`truncated` is always false) and the early stopping of lines 77-79 is left out.
-/

namespace Coax.Loop

open Coax.RewardTracing Coax.Replay Coax.TD Coax.Core

variable {σ G U V : Type _} {n : Nat}

/-- What the loop carries from step to step: the number of steps so far (`env.T`, on which the schedules of exploration of `doc/examples/stubs/dqn.py:46-51` depend), the state `s` of the environment, and the objects that learn.  (`doc/examples/cartpole/dqn.py:29-41`.) -/
structure Pupil (σ : Type _) (n : Nat) (G : Type _) where
  T : ℕ
  s : σ
  trainee : Trainee σ n G

/-- The objects before the first step, `doc/examples/cartpole/dqn.py:33-46`; `s0` is what the first `env.reset()` gives. -/
noncomputable def Pupil.init (gamma : ℝ) (cap : Nat) (g : G) (s0 : σ) (θ0 θT0 : σ → Fin n → ℝ) : Pupil σ n G := ⟨0, s0, ⟨Agent.init 1 gamma cap g, θ0, θT0, 0⟩⟩

variable [DecidableEq σ]

/-- One step, `doc/examples/cartpole/dqn.py:51-75`: `a = pi(s)`, `env.step(a)`, what `Trainee.step` does with the step (with the default values `logp=0.0` and `w=1.0`, `coax/reward_tracing/_nstep.py:49`), and `env.reset()` if the episode has ended.  `pi` gets
the number of steps so far, the row of q-values of the state and the random numbers of type `U`. -/
noncomputable def Pupil.step (draw : G → Nat → Nat → List Nat × G) (lr : ℕ → ℝ) (tau : ℝ) (L : LossFn) (updateRule : QFn (σ → Fin n → ℝ) σ (List ℝ) → QFn (σ → Fin n → ℝ) σ (List ℝ) → TBatch σ (List ℝ) → Except Err (List ℝ)) (type1 : Bool)
    (warm batch : Nat) (pi : ℕ → (Fin n → ℝ) → U → Option (Fin n)) (env : Game σ n V) (x : Pupil σ n G) (w : U × V) : Except Err (Pupil σ n G) :=
  match pi x.T (x.trainee.q x.s) w.1 with
  | none => .error .valueError
  | some a =>
    let (s_next, r, done) := env.step x.s a w.2
    match Trainee.step draw lr tau L updateRule type1 warm batch x.trainee (⟨x.s, a, r, 0, 1⟩, done) with
    | .error e => .error e
    | .ok y => .ok ⟨x.T + 1, if done then env.reset w.2 else s_next, y⟩

/-- The loop, with one pair of random numbers for each step, `doc/examples/cartpole/dqn.py:45-75`. -/
noncomputable def Pupil.run (draw : G → Nat → Nat → List Nat × G) (lr : ℕ → ℝ) (tau : ℝ) (L : LossFn) (updateRule : QFn (σ → Fin n → ℝ) σ (List ℝ) → QFn (σ → Fin n → ℝ) σ (List ℝ) → TBatch σ (List ℝ) → Except Err (List ℝ)) (type1 : Bool)
    (warm batch : Nat) (pi : ℕ → (Fin n → ℝ) → U → Option (Fin n)) (env : Game σ n V) : Pupil σ n G → List (U × V) → Except Err (Pupil σ n G)
  | x, [] => .ok x
  | x, w :: ws =>
    match Pupil.step draw lr tau L updateRule type1 warm batch pi env x w with
    | .error e => .error e
    | .ok y => Pupil.run draw lr tau L updateRule type1 warm batch pi env y ws

end Coax.Loop
