import Verif.Wrappers.TrainMonitor

/-!
Model of the methods of `Worker` that pass calls on to the parameter store (`coax/_core/worker.py:202-284`) and of the checks of its constructor (lines 308-334), for any number of workers that share stores.

Workers are numbered in the order of their creation; the store of a worker is created before it.  Calls through ray are synchronous (`ray.get`) and not distinguished from direct ones.  `get_state` and `set_state` belong to the
user: here they read and write one value.  What the methods of a buffer do is a parameter.
-/

namespace Coax.Core

open Coax.TrainMonitor

variable {K A θ β X I V : Type _}

/-- The methods of a replay buffer.  `takesAdv`: `'Adv' in inspect.signature(buffer.add).parameters`, so that `add` is called with `Adv` (`some`) or without (`none`).  (`coax/_core/worker.py:205,215-218,227`.) -/
structure BufferOps (β X I V : Type _) where
  takesAdv : β → Bool
  len : β → Nat
  add : β → X → Option V → Except Err β
  update : β → I → V → Except Err β

/-- A worker: its store, shared state, buffer and environment (a `TrainMonitor`).  (`coax/_core/worker.py:84-90`.) -/
structure Member (K A θ β : Type _) where
  store : Option Nat
  state : θ
  buffer : Option β
  env : Mon K A

/-- All workers.  (`coax/_core/worker.py:70-91`.) -/
abbrev Fleet (K A θ β : Type _) := List (Member K A θ β)

/-- The constructor, as far as the parameter store goes: `param_store` is a worker that exists.  (`coax/_core/worker.py:70-91`.) -/
def Fleet.create (f : Fleet K A θ β) (m : Member K A θ β) : Except Err (Fleet K A θ β) :=
  match m.store with
  | none => .ok (f ++ [m])
  | some j => if j < f.length then .ok (f ++ [m]) else .error .nameError

/-- A method that acts on the worker itself if it has no store, and is passed on otherwise: the common form of `coax/_core/worker.py:202-230,269-284`. -/
def Fleet.passOn {ρ : Type _} (act : Member K A θ β → Except Err (Member K A θ β × ρ)) (f : Fleet K A θ β) (i : Nat) : Except Err (Fleet K A θ β × ρ) :=
  match f[i]? with
  | none => .error .nameError
  | some m => match m.store with
    | none => match act m with
      | .error e => .error e
      | .ok (m', r) => .ok (f.set i m', r)
    | some j => if j < i then passOn act f j else .error .nameError
  termination_by i

/-- `buffer_len`, `coax/_core/worker.py:202-209`. -/
def Fleet.bufferLen (ops : BufferOps β X I V) (f : Fleet K A θ β) (i : Nat) : Except Err (Fleet K A θ β × Nat) :=
  f.passOn (fun m => match m.buffer with
    | none => .error .assertionError
    | some b => .ok (m, ops.len b)) i

/-- `buffer_add(transition_batch, Adv)`, `coax/_core/worker.py:211-221`; `Adv` may be `None`. -/
def Fleet.bufferAdd (ops : BufferOps β X I (Option V)) (f : Fleet K A θ β) (i : Nat) (x : X) (adv : Option V) : Except Err (Fleet K A θ β × Unit) :=
  f.passOn (fun m => match m.buffer with
    | none => .error .assertionError
    | some b => match ops.add b x (if ops.takesAdv b then some adv else none) with
      | .error e => .error e
      | .ok b' => .ok ({ m with buffer := some b' }, ())) i

/-- `buffer_update(transition_batch_idx, Adv)`, `coax/_core/worker.py:223-230`. -/
def Fleet.bufferUpdate (ops : BufferOps β X I V) (f : Fleet K A θ β) (i : Nat) (idx : I) (adv : V) : Except Err (Fleet K A θ β × Unit) :=
  f.passOn (fun m => match m.buffer with
    | none => .error .assertionError
    | some b => match ops.update b idx adv with
      | .error e => .error e
      | .ok b' => .ok ({ m with buffer := some b' }, ())) i

/-- `pull_state`, `coax/_core/worker.py:255-260`: the state of the store of the worker itself. -/
def Fleet.pullState (f : Fleet K A θ β) (i : Nat) : Except Err (Fleet K A θ β) :=
  match f[i]? with
  | none => .error .nameError
  | some m => match m.store with
    | none => .error .assertionError
    | some j => match f[j]? with
      | none => .error .nameError
      | some s => .ok (f.set i { m with state := s.state })

/-- `push_state`, `coax/_core/worker.py:262-267`. -/
def Fleet.pushState (f : Fleet K A θ β) (i : Nat) : Except Err (Fleet K A θ β) :=
  match f[i]? with
  | none => .error .nameError
  | some m => match m.store with
    | none => .error .assertionError
    | some j => match f[j]? with
      | none => .error .nameError
      | some s => .ok (f.set j { s with state := m.state })

variable [Field K] [LinearOrder K]

/-- `pull_metrics`, `coax/_core/worker.py:269-276`. -/
def Fleet.pullMetrics (f : Fleet K A θ β) (i : Nat) : Except Err (Fleet K A θ β × List (String × K)) :=
  f.passOn (fun m => .ok (m, m.env.getMetrics)) i

/-- `push_metrics`, `coax/_core/worker.py:278-284`; `none` is an argument that is not a `Mapping`. -/
def Fleet.pushMetrics (f : Fleet K A θ β) (i : Nat) (metrics : Option (List (String × K))) : Except Err (Fleet K A θ β × Unit) :=
  f.passOn (fun m => match m.env.recordMetrics metrics with
    | (env, .ok ()) => .ok ({ m with env := env }, ())
    | (_, .error e) => .error e) i

/-! ### The checks of the constructor -/

/-- An environment: whether it is a `gymnasium.Env`, whether it is a `TrainMonitor` and with which name, and `env.spec.max_episode_steps`, `env.spec.reward_threshold` (`none` if an attribute is missing or `None`).
(`coax/_core/worker.py:308-334`.) -/
structure EnvObj (E R : Type _) where
  inner : E
  isEnv : Bool
  monitor : Option (Option String)
  maxEpisodeSteps : Option Int
  rewardThreshold : Option R

/-- The argument `env`: a string, or an object that may be callable; `call` is what a call returns.  (`coax/_core/worker.py:309-316`.) -/
inductive EnvArg (E R : Type _) where
  | str (name : String)
  | obj (o : EnvObj E R) (call : Option (Except Err (EnvObj E R)))

/-- The first part of `_check_env`, `coax/_core/worker.py:309-316`. -/
def resolveEnv {E R : Type _} (make : String → Except Err (EnvObj E R)) : EnvArg E R → Except Err (EnvObj E R)
  | .str name => make name
  | .obj o call => if o.isEnv then .ok o else match call with
    | some res => res
    | none => .error .typeError

/-- `_check_env`, `coax/_core/worker.py:308-326`.  The wrapper rejects objects that are not environments (an assertion in `gymnasium.Wrapper`); it keeps `spec`. -/
def checkEnv {E R : Type _} (make : String → Except Err (EnvObj E R)) (arg : EnvArg E R) (name : Option String) : Except Err (EnvObj E R) :=
  match resolveEnv make arg with
  | .error e => .error e
  | .ok o =>
    if o.maxEpisodeSteps.isNone then .error .valueError
    else if o.monitor.isSome then .ok o
    else if o.isEnv then .ok { o with monitor := some name }
    else .error .assertionError

/-- `_check_reward_threshold`, `coax/_core/worker.py:329-334`; `none` is infinity. -/
def checkRewardThreshold {E R : Type _} (threshold : Option R) (env : EnvObj E R) : Option R :=
  match threshold with
  | some r => some r
  | none => env.rewardThreshold

end Coax.Core
