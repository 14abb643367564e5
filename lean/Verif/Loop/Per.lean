import Verif.RewardTracing.NStep
import Verif.Replay.Prioritized

/-!
Model of the training loops with a prioritized replay buffer: `doc/examples/stubs/dqn_per.py`, `doc/examples/atari/dqn_per.py`, and, with sampling and updating as separate events that may be
interleaved with anything, `doc/examples/atari/apex_dqn.py`.  The updater is an argument (`Learner`), and so is what the environment and the policy do (the list of events).
-/

namespace Coax.Loop

open Coax.RewardTracing Coax.Replay

variable {σ α θ : Type _}

/-- What the loop uses of a TD updater: `td_error` and `update(…, return_td_error=True)` (`coax/td_learning/_base.py:60-91,153-181`), as functions of the parameters `θ` and the rows of a batch.
`update` also returns the new parameters. -/
structure Learner (θ σ α : Type _) where
  tdError : θ → List (Row (Out σ α ℝ)) → Except Err (List ℝ)
  update : θ → List (Row (Out σ α ℝ)) → Except Err (θ × List ℝ)

/-- The objects of the loop, `doc/examples/stubs/dqn_per.py:37-43`, and the batches that were sampled but not used yet (at most one in `dqn_per.py:68-69`, any number in
`doc/examples/atari/apex_dqn.py:61-66`). -/
structure PAgent (σ α θ : Type _) where
  tracer : NStep σ α ℝ
  sys : PSys (Out σ α ℝ)
  theta : θ
  pending : List (Obj (Row (Out σ α ℝ)))

/-- Their construction, `doc/examples/stubs/dqn_per.py:37-43`. -/
noncomputable def PAgent.init (n : Nat) (gamma : ℝ) (capacity : Int) (alpha beta epsilon : ℝ) (theta : θ) : Except Err (PAgent σ α θ) :=
  match PSys.init [] capacity alpha beta epsilon with
  | .error e => .error e
  | .ok s => .ok { tracer := NStep.init n gamma false, sys := s, theta := theta, pending := [] }

/-- `buffer.add(transition_batch, td_error)` of a new object, `doc/examples/stubs/dqn_per.py:65`, `doc/examples/atari/apex_dqn.py:59`. -/
noncomputable def PAgent.store (a : PAgent σ α θ) (rows : List (Row (Out σ α ℝ))) (ds : List ℝ) : PAgent σ α θ × Option Err :=
  match ({ a.sys with heap := a.sys.heap ++ [Obj.new rows] } : PSys (Out σ α ℝ)).add a.sys.heap.length ds with
  | (s, e) => ({ a with sys := s }, e)

/-- `while tracer: transition = tracer.pop(); buffer.add(transition, qlearning.td_error(transition))`, `doc/examples/stubs/dqn_per.py:63-65`, with fuel; running out of fuel is reported as
`RuntimeError` (`C98_no_errors` shows that it does not happen).  The last component lists the TD errors that were computed. -/
noncomputable def popAllP (L : Learner θ σ α) : Nat → PAgent σ α θ → PAgent σ α θ × Option Err × List ℝ
  | 0, a => (a, some .runtimeError, [])
  | fuel + 1, a =>
    if a.tracer.bool = false then (a, none, [])
    else
      match a.tracer.pop with
      | (t, .error e) => ({ a with tracer := t }, some e, [])
      | (t, .ok o) =>
        match L.tdError a.theta [⟨o, o.W⟩] with
        | .error e => ({ a with tracer := t }, some e, [])
        | .ok ds =>
          match ({ a with tracer := t } : PAgent σ α θ).store [⟨o, o.W⟩] ds with
          | (a', some e) => (a', some e, [])
          | (a', none) =>
            match popAllP L fuel a' with
            | (a'', err, rest) => (a'', err, ds ++ rest)

/-- What can happen, `doc/examples/stubs/dqn_per.py:51-80`, `doc/examples/atari/apex_dqn.py:53-66`. -/
inductive PEvent (σ α θ : Type _) where
  /-- a step of the environment, with the flag that the loop passes to `tracer.add` -/
  | step (x : Step σ α ℝ) (done : Bool)
  /-- another actor adds transitions, with TD errors that it computed -/
  | ship (rows : List (Row (Out σ α ℝ))) (ds : List ℝ)
  /-- `buffer.sample(batch_size=k)`; `rnd` is the generator of the buffer -/
  | sample (k : Nat) (rnd : Nat → List ℝ)
  /-- the updater and then `buffer.update` are called with the sampled batch number `j` -/
  | learn (j : Nat)
  /-- `buffer.beta = …` -/
  | beta (b : ℝ)
  /-- the parameters are changed otherwise, for example by `q_targ.soft_update(q, tau)` -/
  | sync (f : θ → θ)

/-- What the loop learns from an event: the TD errors of the transitions that were added, or the identifiers of a batch and its TD errors.
(`doc/examples/stubs/dqn_per.py:65,69-70`.) -/
inductive Report where
  | added (ds : List ℝ)
  | learned (ids : List Nat) (ds : List ℝ)
  | nothing

/-- One event.  (`doc/examples/stubs/dqn_per.py:53-75`.) -/
noncomputable def PAgent.event (L : Learner θ σ α) (a : PAgent σ α θ) : PEvent σ α θ → PAgent σ α θ × Option Err × Report
  | .step x done =>
    match a.tracer.add x done with
    | (t, some e) => ({ a with tracer := t }, some e, .nothing)
    | (t, none) =>
      match popAllP L (t.len + 1) { a with tracer := t } with
      | (a', err, ds) => (a', err, .added ds)
  | .ship rows ds =>
    match a.store rows ds with
    | (a', none) => (a', none, .added ds)
    | (a', some e) => (a', some e, .nothing)
  | .sample k rnd =>
    match a.sys.sample k rnd with
    | .error e => (a, some e, .nothing)
    | .ok b => ({ a with pending := a.pending ++ [b] }, none, .nothing)
  | .learn j =>
    match a.pending[j]? with
    | none => (a, some .indexError, .nothing)
    | some b =>
      match L.update a.theta b.rows with
      | .error e => (a, some e, .nothing)
      | .ok (theta, ds) =>
        match a.sys.update (b.idx.map fun (i : Nat) => (i : Int)) ds with
        | (s, some e) => ({ a with theta := theta, sys := s, pending := a.pending.eraseIdx j }, some e, .nothing)
        | (s, none) => ({ a with theta := theta, sys := s, pending := a.pending.eraseIdx j }, none, .learned b.idx ds)
  | .beta b => match a.sys.setBeta b with | (s, e) => ({ a with sys := s }, e, .nothing)
  | .sync f => ({ a with theta := f a.theta }, none, .nothing)

/-- The state after a sequence of events, and for each of them what it raised and reported.  (`doc/examples/stubs/dqn_per.py:51-80`.) -/
noncomputable def PAgent.run (L : Learner θ σ α) : PAgent σ α θ → List (PEvent σ α θ) → PAgent σ α θ × List (Option Err × Report)
  | a, [] => (a, [])
  | a, e :: es =>
    let (a', r) := a.event L e
    let (a'', rs) := PAgent.run L a' es
    (a'', r :: rs)

end Coax.Loop
