import Verif.Err

/-!
Model of a distributed agent (`coax/_core/worker.py`, `doc/examples/atari/apex_dqn.py`): a parameter store, and rollout workers and learners that run `rollout_loop` and `learn_loop` concurrently.

The parameter store is a ray actor: it serves one call at a time, so that a remote call is atomic; between two remote calls of a worker any calls of other workers may be served.  A schedule says whose turn it is, and what comes out of
the parts that belong to the user (environment, policy, sampling, updater).  The calls that only serve the logs (`pull_metrics`, `push_metrics`, `record_metrics`) are left out, and so is `buffer_update` (see `Loop/Per`).
-/

namespace Coax.Core

variable {ι θ ω X β : Type _}

/-- Settings.  `warmup i` is the `buffer_warmup` of worker `i`; `learn` is the method of the user, as a function of the state that is shared, of the state that the learner keeps to itself (of the optimizer,
`coax/td_learning/_base.py:115-116`) and of the batch; `beta` is the schedule in `doc/examples/atari/apex_dqn.py:34`.  (`coax/_core/worker.py:70-91,178,190`.) -/
structure DCfg (ι θ ω X β : Type _) where
  maxTotalSteps : Nat
  batchSize : Nat
  warmup : ι → Option Nat
  storeWarmup : Option Nat
  capacity : Nat
  learn : θ → ω → List X → θ × ω
  beta : Nat → β

/-- Where a rollout worker is in `rollout_loop`, `coax/_core/worker.py:178-188`. -/
inductive RolloutPc (θ : Type _) where
  /-- before line 180 -/
  | start
  /-- in the loop, before `pull_state`, line 182 -/
  | pull
  /-- in `rollout`, with this state, line 183 -/
  | rolling (theta : θ)
  /-- before `pull_getattr('env.T')`, line 186; the episode had `t` steps -/
  | rolled (t : Nat)
  /-- before `push_setattr('env.T', T)`, line 187 -/
  | push (T : Nat)
  | stopped

/-- Where a learner is in `learn_loop`, `coax/_core/worker.py:190-199`. -/
inductive LearnPc (θ X : Type _) where
  /-- before the test of the loop, line 192 -/
  | test
  /-- before `pull_state`, line 194 -/
  | pull
  /-- waits for the buffer, line 236 -/
  | wait (theta : θ)
  /-- before `param_store.buffer_sample`, line 248 -/
  | sample (theta : θ)
  /-- in `learn`, line 195 -/
  | learn (theta : θ) (batch : List X)
  /-- before `push_state`, line 197 -/
  | push (theta : θ)
  | stopped

/-- A worker; a learner has the state of its optimizer and the counter `env.T` of its own environment.  (`coax/_core/worker.py:84-90`.) -/
inductive Proc (θ ω X : Type _) where
  | rollout (pc : RolloutPc θ)
  | learner (pc : LearnPc θ X) (opt : ω) (envT : Nat)

/-- The parameter store: `env.T`, the shared state, all transitions added to its buffer, `buffer.beta`, and whether it is in a call that does not return.  (`coax/_core/worker.py:84-90`.) -/
structure Store (θ X β : Type _) where
  T : Nat
  theta : θ
  added : List X
  beta : β
  blocked : Bool

/-- Parameter store and workers.  (`doc/examples/atari/apex_dqn.py:101-111`.) -/
structure DSys (ι θ ω X β : Type _) where
  store : Store θ X β
  procs : ι → Proc θ ω X

/-- What comes out of the parts of the user: in `rollout` either a transition that is added, or the end of the episode, and its number of steps; whether `env.avg_G < reward_threshold`; the positions that are sampled from the buffer.
(`coax/_core/worker.py:164-176,181,246`.) -/
structure Choice (X : Type _) where
  item : Option X
  steps : Nat
  below : Bool
  pick : List Nat

/-- What a worker did, as far as it matters here.  (`coax/_core/worker.py:178-199`.) -/
inductive Did (θ X : Type _) where
  | nothing
  /-- an episode of `t` steps -/
  | episode (t : Nat)
  /-- `buffer_add` -/
  | added (x : X)
  /-- `push_setattr('env.T', T)` -/
  | counted (T : Nat)
  /-- `pull_state` -/
  | pulled (theta : θ)
  /-- `learn` with this batch -/
  | learned (batch : List X)
  /-- `push_state` -/
  | pushed (theta : θ)

/-- The contents of the buffer, a deque with the given capacity.  (`coax/experience_replay/_simple.py:31-58`.) -/
def Store.stored (s : Store θ X β) (capacity : Nat) : List X := s.added.drop (s.added.length - capacity)

/-- `buffer_warmup` in `buffer_sample`, `coax/_core/worker.py:233`. -/
def minLen (batchSize : Nat) (warmup : Option Nat) : Nat := max (warmup.getD 0) batchSize

/-- `rollout_loop` up to and including the next remote call, `coax/_core/worker.py:178-188`.  While the store is blocked, remote calls do not return. -/
def rolloutStep (cfg : DCfg ι θ ω X β) (s : Store θ X β) (c : Choice X) : RolloutPc θ → Store θ X β × RolloutPc θ × Did θ X
  | .start => if s.blocked then (s, .start, .nothing) else (s, if s.T < cfg.maxTotalSteps && c.below then .pull else .stopped, .nothing)
  | .pull => if s.blocked then (s, .pull, .nothing) else (s, .rolling s.theta, .pulled s.theta)
  | .rolling theta =>
    match c.item with
    | some x => if s.blocked then (s, .rolling theta, .nothing) else ({ s with added := s.added ++ [x] }, .rolling theta, .added x)
    | none => (s, .rolled c.steps, .episode c.steps)
  | .rolled t => if s.blocked then (s, .rolled t, .nothing) else (s, .push (s.T + t), .nothing)
  | .push T => if s.blocked then (s, .push T, .nothing) else ({ s with T := T }, if T < cfg.maxTotalSteps && c.below then .pull else .stopped, .counted T)
  | .stopped => (s, .stopped, .nothing)

/-- `learn_loop` up to and including the next remote call, `coax/_core/worker.py:190-199`, with `learn` as in `doc/examples/atari/apex_dqn.py:61-66`.  `buffer_sample` of the store waits for its own buffer
(lines 235-242), which nobody can fill in the meantime. -/
def learnStep (cfg : DCfg ι θ ω X β) (i : ι) (s : Store θ X β) (c : Choice X) (pc : LearnPc θ X) (opt : ω) (envT : Nat) : Store θ X β × LearnPc θ X × ω × Did θ X :=
  if s.blocked then (s, pc, opt, .nothing)
  else
    match pc with
    | .test => (s, if s.T < cfg.maxTotalSteps then .pull else .stopped, opt, .nothing)
    | .pull => (s, .wait s.theta, opt, .pulled s.theta)
    | .wait theta => (s, if (s.stored cfg.capacity).length < minLen cfg.batchSize (cfg.warmup i) then .wait theta else .sample theta, opt, .nothing)
    | .sample theta =>
      if (s.stored cfg.capacity).length < minLen cfg.batchSize cfg.storeWarmup then ({ s with blocked := true }, .sample theta, opt, .nothing)
      else (s, .learn theta (c.pick.filterMap fun k => (s.stored cfg.capacity)[k]?), opt, .nothing)
    | .learn theta batch => ({ s with beta := cfg.beta envT }, .push (cfg.learn theta opt batch).1, (cfg.learn theta opt batch).2, .learned batch)
    | .push theta => ({ s with theta := theta }, .test, opt, .pushed theta)
    | .stopped => (s, .stopped, opt, .nothing)

variable [DecidableEq ι]

/-- One turn of worker `i`.  (`coax/_core/worker.py:178-199`.) -/
def DSys.turn (cfg : DCfg ι θ ω X β) (s : DSys ι θ ω X β) (i : ι) (c : Choice X) : DSys ι θ ω X β × Did θ X :=
  match s.procs i with
  | .rollout pc =>
    match rolloutStep cfg s.store c pc with
    | (st, pc', d) => (⟨st, fun j => if j = i then .rollout pc' else s.procs j⟩, d)
  | .learner pc opt envT =>
    match learnStep cfg i s.store c pc opt envT with
    | (st, pc', opt', d) => (⟨st, fun j => if j = i then .learner pc' opt' envT else s.procs j⟩, d)

/-- The turns of a schedule, and who did what.  (`doc/examples/atari/apex_dqn.py:115-118`.) -/
def DSys.run (cfg : DCfg ι θ ω X β) : DSys ι θ ω X β → List (ι × Choice X) → DSys ι θ ω X β × List (ι × Did θ X)
  | s, [] => (s, [])
  | s, (i, c) :: es =>
    match s.turn cfg i c with
    | (s', d) =>
      match DSys.run cfg s' es with
      | (s'', ds) => (s'', (i, d) :: ds)

omit [DecidableEq ι] in
/-- The beginning: the store with its counter at zero (`coax/wrappers/_train_monitor.py:159`) and an empty buffer; the rollout workers and learners.  (`doc/examples/atari/apex_dqn.py:101-118`.) -/
def DSys.init (theta : θ) (beta : β) (opt : ω) (learns : ι → Bool) : DSys ι θ ω X β :=
  ⟨⟨0, theta, [], beta, false⟩, fun i => if learns i then .learner .test opt 0 else .rollout .start⟩

end Coax.Core
