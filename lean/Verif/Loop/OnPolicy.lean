import Verif.Loop.Dqn

/-!
Model of the on-policy training loops of the documentation, which collect transitions with one policy until the buffer is full, update from minibatches, and clear the buffer:
`doc/examples/stubs/ppo.py`, `doc/examples/stubs/a2c.py`, `doc/examples/pendulum/ppo.py`, `doc/examples/atari/ppo.py` (there with `>=` instead of `==`).
-/

namespace Coax.Loop

open Coax.RewardTracing Coax.Replay

variable {σ α G θ Ω : Type _}

/-- What the loop uses of the policy and the updaters, as functions of the parameters `θ` of policy and value function (`doc/examples/stubs/ppo.py:25-40`).  They do not raise. -/
structure Actor (θ σ α Ω : Type _) where
  /-- `pi_behavior(s, return_logp=True)` with the random numbers `ω` (`coax/_core/policy.py:60-87`) -/
  act : θ → σ → Ω → α × ℝ
  /-- `simple_td.update(…)` and `ppo_clip.update(…)` with one minibatch, `doc/examples/stubs/ppo.py:59-60`; for `doc/examples/stubs/a2c.py:68-74` also `sync_shared_params` -/
  update : θ → List (Out σ α ℝ) → θ
  /-- `pi_behavior.soft_update(pi, tau=0.1)`, `doc/examples/stubs/ppo.py:65`; the first argument is the old `pi_behavior`.  In `doc/examples/stubs/a2c.py:54` the acting policy is `pi`
  itself, which is `fun _ pi => pi`. -/
  sync : θ → θ → θ

/-- The objects of the loop, `doc/examples/stubs/ppo.py:25-40`. -/
structure OAgent (σ α G θ : Type _) where
  agent : Agent σ α G
  theta : θ
  behavior : θ

/-- Their construction, `doc/examples/stubs/ppo.py:25-40`. -/
noncomputable def OAgent.init (n : Nat) (gamma : ℝ) (capacity : Nat) (seeded : G) (theta : θ) : OAgent σ α G θ :=
  { agent := Agent.init n gamma capacity seeded, theta := theta, behavior := theta }

/-- What a step of the loop depends on: the observation, the random numbers of the policy, and what `env.step` returns, `doc/examples/stubs/ppo.py:47-48`. -/
structure Moment (σ Ω : Type _) where
  s : σ
  ω : Ω
  r : ℝ
  done : Bool
  truncated : Bool

/-- What can be observed of a round of updates, `doc/examples/stubs/ppo.py:56-65`: the transitions in the buffer (`__iter__`), the minibatches, the parameters of the acting policy before, and
the parameters afterwards. -/
structure Phase (σ α θ : Type _) where
  contents : List (Option (Obj (Out σ α ℝ)))
  batches : List (List (Out σ α ℝ))
  behavior : θ
  theta : θ
  behavior' : θ

/-- The loop over minibatches, `doc/examples/stubs/ppo.py:57-62`; `m` is the number of minibatches and `k` the batch size. -/
noncomputable def minibatches (U : Actor θ σ α Ω) (draw : G → Nat → Nat → List Nat × G) (k : Nat) : Nat → Sys (Out σ α ℝ) G → θ → Except Err (Sys (Out σ α ℝ) G × θ × List (List (Out σ α ℝ)))
  | 0, s, th => .ok (s, th, [])
  | m + 1, s, th =>
    match s.sample draw k with
    | (_, .error e) => .error e
    | (s', .ok o) =>
      match minibatches U draw k m s' (U.update th o.rows) with
      | .error e => .error e
      | .ok (s'', th', bs) => .ok (s'', th', o.rows :: bs)

/-- One step of the loop, `doc/examples/stubs/ppo.py:47-70`.  `passes` is the 4 and `k` the 32 in `range(4 * buffer.capacity // 32)`.  An exception ends the program; the state is then left as it is. -/
noncomputable def OAgent.step (U : Actor θ σ α Ω) (draw : G → Nat → Nat → List Nat × G) (passes k : Nat) (a : OAgent σ α G θ) (x : Moment σ Ω) :
    OAgent σ α G θ × Except Err (Option (Phase σ α θ)) :=
  match a.agent.observe ⟨x.s, (U.act a.behavior x.s x.ω).1, x.r, (U.act a.behavior x.s x.ω).2, 1⟩ (x.done || x.truncated) with
  | (_, some e) => (a, .error e)
  | (ag, none) =>
    if (ag.sys.len : Int) = ag.sys.buf.capacity then
      match minibatches U draw k (passes * ag.sys.buf.capacity.toNat / k) ag.sys a.theta with
      | .error e => (a, .error e)
      | .ok (s, th, bs) =>
        ({ agent := { ag with sys := s.clear }, theta := th, behavior := U.sync a.behavior th },
          .ok (some { contents := ag.sys.iter, batches := bs, behavior := a.behavior, theta := th, behavior' := U.sync a.behavior th }))
    else ({ a with agent := ag }, .ok none)

/-- The whole loop, `doc/examples/stubs/ppo.py:43-70`: the state after a sequence of steps (of any number of episodes), and what happened at each of them. -/
noncomputable def OAgent.run (U : Actor θ σ α Ω) (draw : G → Nat → Nat → List Nat × G) (passes k : Nat) (a : OAgent σ α G θ) (es : List (Moment σ Ω)) :
    OAgent σ α G θ × List (Except Err (Option (Phase σ α θ))) :=
  es.foldl (fun p x => match p.1.step U draw passes k x with | (a', r) => (a', p.2 ++ [r])) (a, [])

end Coax.Loop
