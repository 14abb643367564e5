import Verif.Loop.Closed
import Verif.Policy.Objectives

/-!
The training loop of `doc/examples/frozen_lake/reinforce.py:32-52` (and of `doc/examples/stubs/reinforce.py:30-52`, which also passes `logp`; `VanillaPG` does not use it): a `MonteCarlo` tracer and `VanillaPG`, with the environment and the policy in it.
The logits of the policy are a table, which is the linear layer of the example without its bias, and the optimizer is `optax.sgd` with a schedule of learning rates (the examples use `optax.adam`, which is not part of the repository).

The environment has a state `x` of which the agent sees the observation `obs x`; what is in `x` besides the observation is, for example, the number of steps that the time limit leaves.  Differentiation by jax is modelled by the derivative of the
function that is differentiated.
-/

namespace Coax.Loop

open Coax.RewardTracing Coax.TD Coax.Core Coax.Dists Coax.Pol

variable {X σ U V : Type _} {n : Nat}

/-- `loss_func` of `VanillaPG` without a regularizer as a function of the table of logits, `coax/policy_objectives/_base.py:45-75`, `coax/policy_objectives/_vanilla_pg.py:37-57`; actions are one-hot encoded (`coax/proba_dists/_categorical.py:129-133`). -/
noncomputable def pgLoss (rows : List (Out σ (Fin n) ℝ)) (Adv : List ℝ) (θ : σ → Fin n → ℝ) : Except Err (Option ℝ × Metrics) :=
  let logPi := rows.map fun o => logProbaRow (θ o.S) fun k => if k = o.A then 1 else 0
  lossFunc (vanillaObjective (rows.map (·.W)) Adv logPi) (rows.map (·.W)) logPi (rows.map (·.logP)) none

/-- The number that `jax.grad` differentiates, `coax/policy_objectives/_base.py:77-78`. -/
noncomputable def pgValue (r : Except Err (Option ℝ × Metrics)) : ℝ :=
  match r with
  | .ok (some x, _) => x
  | _ => 0

variable [DecidableEq σ]

/-- `vanilla_pg.update(transition_batch, Adv)` with the optimizer `optax.sgd(lr)`, `coax/policy_objectives/_base.py:87-90,128-154,177-179`: each param minus the learning rate times the partial derivative of the loss.  The loss of an empty batch is NaN; then
`update` raises `RuntimeError` (line 152). -/
noncomputable def pgUpdate (lr : ℝ) (θ : σ → Fin n → ℝ) (rows : List (Out σ (Fin n) ℝ)) (Adv : List ℝ) : Except Err (σ → Fin n → ℝ) :=
  match pgLoss rows Adv θ with
  | .error e => .error e
  | .ok (none, _) => .error .runtimeError
  | .ok (some _, _) => .ok fun s a => θ s a - lr * deriv (fun y => pgValue (pgLoss rows Adv (setEntry θ s a y))) (θ s a)

/-- `while tracer: transition_batch = tracer.pop(); vanilla_pg.update(transition_batch, Adv=transition_batch.Rn)`, `doc/examples/frozen_lake/reinforce.py:45-47`, with fuel, and `RuntimeError` if it runs out.  The tracer, the logits and the number of
updates, which is the state of the optimizer. -/
noncomputable def pgPops (lr : ℕ → ℝ) : Nat → MonteCarlo σ (Fin n) ℝ → (σ → Fin n → ℝ) → ℕ → Except Err (MonteCarlo σ (Fin n) ℝ × (σ → Fin n → ℝ) × ℕ)
  | 0, _, _, _ => .error .runtimeError
  | fuel + 1, t, θ, k =>
    if t.bool = false then .ok (t, θ, k)
    else
      match t.pop with
      | (_, .error e) => .error e
      | (t', .ok o) =>
        match pgUpdate (lr k) θ [o] [o.Rn] with
        | .error e => .error e
        | .ok θ' => pgPops lr fuel t' θ' (k + 1)

omit [DecidableEq σ] in
/-- What the loop carries from step to step: the state of the environment, the tracer, the logits and the number of updates.  (`doc/examples/frozen_lake/reinforce.py:20-33`.) -/
structure Climb (X σ : Type _) (n : Nat) where
  x : X
  tracer : MonteCarlo σ (Fin n) ℝ
  logits : σ → Fin n → ℝ
  updates : ℕ

omit [DecidableEq σ] in
/-- The objects before the first step, `doc/examples/frozen_lake/reinforce.py:20-33`; `x0` is the state after the first `env.reset()`. -/
noncomputable def Climb.init (gamma : ℝ) (x0 : X) (θ0 : σ → Fin n → ℝ) : Climb X σ n := ⟨x0, MonteCarlo.init gamma, θ0, 0⟩

/-- One step, `doc/examples/frozen_lake/reinforce.py:35-52`: `a = pi(s)`, `env.step(a)`, `tracer.add(s, a, r, done or truncated)` (with the default values `logp=0.0` and `w=1.0`, `coax/reward_tracing/_montecarlo.py:31`), the updates, and
`env.reset()` if the episode has ended.  The third component of `env.step` is `done or truncated`; the reward `r = -0.01` for not moving is part of `env.step`. -/
noncomputable def Climb.step (lr : ℕ → ℝ) (draw : List (Fin n) → Option (Fin n)) (tau : ℝ) (env : Game X n V) (obs : X → σ) (c : Climb X σ n) (w : (Fin n → ℝ) × V) : Except Err (Climb X σ n) :=
  match (policyCall draw tau w.1 (c.logits (obs c.x))).1 with
  | none => .error .valueError
  | some a =>
    let (x_next, r, done) := env.step c.x a w.2
    match c.tracer.add ⟨obs c.x, a, r, 0, 1⟩ done with
    | (_, some e) => .error e
    | (tracer, none) =>
      match pgPops lr (tracer.len + 1) tracer c.logits c.updates with
      | .error e => .error e
      | .ok (tracer, logits, updates) => .ok ⟨if done then env.reset w.2 else x_next, tracer, logits, updates⟩

/-- The loop, with one pair of random numbers for each step, `doc/examples/frozen_lake/reinforce.py:32-52`. -/
noncomputable def Climb.run (lr : ℕ → ℝ) (draw : List (Fin n) → Option (Fin n)) (tau : ℝ) (env : Game X n V) (obs : X → σ) : Climb X σ n → List ((Fin n → ℝ) × V) → Except Err (Climb X σ n)
  | c, [] => .ok c
  | c, w :: ws =>
    match Climb.step lr draw tau env obs c w with
    | .error e => .error e
    | .ok c' => Climb.run lr draw tau env obs c' ws

end Coax.Loop
