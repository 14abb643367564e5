import Verif.RewardTracing.NStep
import Verif.Replay.Simple
import Verif.TD.Targets

/-!
Model of the training loops of the documentation (`doc/examples/stubs/`), which put the pieces together: the tracer, the replay buffer, and the
target of a TD updater.  What the environment and the policy do is an argument: the list of steps.  The parameter updates of the
value functions are not part of this model; `C46` and `C67` are about one update.
-/

namespace Coax.Loop

open Coax.RewardTracing Coax.Replay Coax.TD

variable {σ α G : Type _}

/-- The tracer and the replay buffer of a training loop, `doc/examples/stubs/dqn.py:42-43`. -/
structure Agent (σ α G : Type _) where
  tracer : NStep σ α ℝ
  sys : Sys (Out σ α ℝ) G

/-- Their construction, `doc/examples/stubs/dqn.py:42-43`.  `seeded` is the state of `random` after seeding. -/
noncomputable def Agent.init (n : Nat) (gamma : ℝ) (capacity : Nat) (seeded : G) : Agent σ α G :=
  { tracer := NStep.init n gamma false, sys := Sys.init [] capacity seeded }

/-- `while tracer: buffer.add(tracer.pop())`, `doc/examples/stubs/dqn.py:60-62`, with fuel; running out of fuel is reported as
`RuntimeError` (`C88_no_errors` shows that it does not happen).  What `pop` returns is a new object. -/
noncomputable def popAll : Nat → Agent σ α G → Agent σ α G × Option Err
  | 0, a => (a, some .runtimeError)
  | fuel + 1, a =>
    if a.tracer.bool = false then (a, none)
    else
      match a.tracer.pop with
      | (t, .error e) => ({ a with tracer := t }, some e)
      | (t, .ok o) =>
        match ({ a.sys with heap := a.sys.heap ++ [Obj.new [o]] } : Sys (Out σ α ℝ) G).add a.sys.heap.length with
        | (s, some e) => (⟨t, s⟩, some e)
        | (s, none) => popAll fuel ⟨t, s⟩

/-- `tracer.add(s, a, r, done)` and the loop after it, `doc/examples/stubs/dqn.py:58-62`. -/
noncomputable def Agent.observe (a : Agent σ α G) (x : Step σ α ℝ) (done : Bool) : Agent σ α G × Option Err :=
  match a.tracer.add x done with
  | (t, some e) => ({ a with tracer := t }, some e)
  | (t, none) => popAll (t.len + 1) { a with tracer := t }

/-- What happens in a training loop, `doc/examples/stubs/ppo.py:43-67`. -/
inductive Event (σ α G : Type _) where
  /-- a step of the environment, with the flags `done` and `truncated` that `env.step` returned -/
  | step (x : Step σ α ℝ) (done truncated : Bool)
  /-- `buffer.sample(batch_size=k)` -/
  | sample (k : Nat)
  /-- `buffer.clear()` -/
  | clear
  /-- other code uses the global generator of the module `random` -/
  | tamper (g : G)

/-- One event.  `flag done truncated` is what the loop passes to `tracer.add`: `done or truncated` in `doc/examples/stubs/ppo.py:51`, and `done` in
`doc/examples/stubs/dqn.py:59`. -/
noncomputable def Agent.event (draw : G → Nat → Nat → List Nat × G) (flag : Bool → Bool → Bool) (a : Agent σ α G) : Event σ α G → Agent σ α G × Option Err
  | .step x done truncated => a.observe x (flag done truncated)
  | .sample k =>
    match a.sys.sample draw k with
    | (s, .ok _) => ({ a with sys := s }, none)
    | (s, .error e) => ({ a with sys := s }, some e)
  | .clear => ({ a with sys := a.sys.clear }, none)
  | .tamper g => ({ a with sys := { a.sys with globalRandom := g } }, none)

/-- The state after a sequence of events, and what each of them raised.  (`doc/examples/stubs/dqn.py:50-76`.) -/
noncomputable def Agent.run (draw : G → Nat → Nat → List Nat × G) (flag : Bool → Bool → Bool) : Agent σ α G → List (Event σ α G) → Agent σ α G × List (Option Err)
  | a, [] => (a, [])
  | a, e :: es =>
    let (a', err) := a.event draw flag e
    let (a'', errs) := Agent.run draw flag a' es
    (a'', err :: errs)

/-- The columns of a sampled batch that targets depend on, with next states and actions preprocessed by `pre` and `preA`
(`coax/reward_tracing/_transition.py:84-97`, `coax/td_learning/_qlearning.py:116`).  A missing next state is a `TypeError` in the forward functions. -/
noncomputable def toTBatch {σ' α' : Type _} (pre : σ → σ') (preA : α → α') (rows : List (Out σ α ℝ)) : Except Err (TBatch σ' α') :=
  match rows.mapM (fun o => o.S_next), rows.mapM (fun o => o.A_next) with
  | some S, some A => .ok { Rn := rows.map (·.Rn), In := rows.map (·.In), S_next := S.map pre, A_next := A.map preA }
  | _, _ => .error .typeError

/-- `transition_batch = buffer.sample(batch_size=k)` and the target that `qlearning.update(transition_batch)` computes from it,
`doc/examples/stubs/dqn.py:64-66`. -/
noncomputable def Agent.target {σ' α' : Type _} (draw : G → Nat → Nat → List Nat × G) (pre : σ → σ') (preA : α → α') (target : TBatch σ' α' → Except Err (List ℝ))
    (a : Agent σ α G) (k : Nat) : Except Err (List (Out σ α ℝ) × List ℝ) :=
  match (a.sys.sample draw k).2 with
  | .error e => .error e
  | .ok o =>
    match toTBatch pre preA o.rows with
    | .error e => .error e
    | .ok b => (target b).map fun ys => (o.rows, ys)

end Coax.Loop
