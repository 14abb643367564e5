import Verif.Err
import Verif.Utils.Dicts
import Verif.Wrappers.StreamingSample

/-!
Model of `coax.wrappers.TrainMonitor` (`coax/wrappers/_train_monitor.py:59-391`).

The wrapped environment is arbitrary: what its methods return or raise is an argument.  Numbers are elements of an exact
ordered field.  Not modelled: the wall clock (`_ep_starttime`, `dt_ms`), and writing to the log and to tensorboard.
-/

namespace Coax.TrainMonitor

open Coax.Dicts (setItem)

variable {K A S X : Type _} [Field K] [LinearOrder K]

/-- The attributes of the monitor, `coax/wrappers/_train_monitor.py:137-168`.  The dict `_period` is its two entries `'T'` and `'ep'`. -/
structure Mon (K A : Type _) where
  T : Nat
  ep : Nat
  t : Nat
  G : K
  avgG : K
  nAvgG : K
  epMetrics : List (String × (K × K))
  epActions : Streaming.Sample A
  periodT : List (String × Nat)
  periodEp : List (String × Nat)
  smoothing : K

/-- `reset_global`, `coax/wrappers/_train_monitor.py:157-168`. -/
def Mon.resetGlobal (m : Mon K A) : Mon K A :=
  { m with T := 0, ep := 0, t := 0, G := 0, avgG := 0, nAvgG := 0, epMetrics := [], epActions := Streaming.new 1000,
           periodT := [], periodEp := [] }

/-- `__init__`, `coax/wrappers/_train_monitor.py:140-155`. -/
def new (smoothing : K) : Mon K A :=
  { T := 0, ep := 0, t := 0, G := 0, avgG := 0, nAvgG := 0, epMetrics := [], epActions := Streaming.new 1000,
    periodT := [], periodEp := [], smoothing := smoothing }

/-- `reset`, `coax/wrappers/_train_monitor.py:170-186`.  The counters change before the inner `reset` is called, which may raise. -/
def Mon.reset (m : Mon K A) (inner : Except Err X) : Mon K A × Except Err X :=
  ({ m with T := m.T + 1, ep := m.ep + 1, t := 0, G := 0, epMetrics := [], epActions := m.epActions.reset }, inner)

/-- A value in the `info` dict: the entry of the monitor, or anything else.  (`coax/wrappers/_train_monitor.py:203-205`.) -/
inductive Info (X : Type _) where
  | monitor (T ep : Nat)
  | other (x : X)

/-- What the inner `step` returns: next state, reward, done, truncated, info (`None` or a dict).  (`coax/wrappers/_train_monitor.py:202`.) -/
structure Result (K S X : Type _) where
  sNext : S
  r : K
  done : Bool
  truncated : Bool
  info : Option (List (String × Info X))

/-- `step`, `coax/wrappers/_train_monitor.py:200-214`.  `u` and `i` are the random draws of `_ep_actions.append`.  Dividing by a zero `_n_avg_G` (which
takes a non-positive `smoothing`) raises. -/
def Mon.step (m : Mon K A) (a : A) (u : K) (i : Nat) (inner : Except Err (Result K S X)) :
    Mon K A × Except Err (Result K S X) :=
  let m := { m with epActions := m.epActions.append a u i }
  match inner with
  | .error e => (m, .error e)
  | .ok res =>
    let info := match res.info with
      | none => []
      | some d => d
    let info := setItem info "monitor" (.monitor m.T m.ep)
    let m := { m with t := m.t + 1, T := m.T + 1, G := m.G + res.r }
    if res.done || res.truncated then
      let m := if m.nAvgG < m.smoothing then { m with nAvgG := m.nAvgG + 1 } else m
      if m.nAvgG = 0 then (m, .error .zeroDivisionError)
      else ({ m with avgG := m.avgG + (m.G - m.avgG) / m.nAvgG }, .ok { res with info := some info })
    else (m, .ok { res with info := some info })

/-- `avg_r`, `coax/wrappers/_train_monitor.py:194-198`; `none` is `nan`. -/
def Mon.avgR (m : Mon K A) : Option K := if m.t ≤ 0 then none else some (m.G / (m.t : K))

/-- `record_metrics`, `coax/wrappers/_train_monitor.py:216-244`; `none` is an argument that is not a `Mapping`. -/
def Mon.recordMetrics (m : Mon K A) (metrics : Option (List (String × K))) : Mon K A × Except Err Unit :=
  match metrics with
  | none => (m, .error .typeError)
  | some metrics =>
    ({ m with epMetrics := metrics.foldl (fun d kv =>
        match d.lookup kv.1 with
        | none => setItem d kv.1 (kv.2, 1)
        | some (x, n) => setItem d kv.1 (x + kv.2, n + 1)) m.epMetrics }, .ok ())

/-- `get_metrics`, `coax/wrappers/_train_monitor.py:246-257`. -/
def Mon.getMetrics (m : Mon K A) : List (String × K) := m.epMetrics.map (fun kv => (kv.1, kv.2.1 / kv.2.2))

/-- `period(name, None, ep_period)`, `coax/wrappers/_train_monitor.py:269-277`.  `int(...)` of the argument is already applied. -/
def Mon.periodEpOnly (m : Mon K A) (name : String) (epPeriod : Option Int) : Mon K A × Except Err Bool :=
  match epPeriod with
  | none => (m, .ok false)
  | some k =>
    if ¬ 0 < k then (m, .error .assertionError)
    else
      let m := if (m.periodEp.lookup name).isNone then { m with periodEp := setItem m.periodEp name 1 } else m
      match m.periodEp.lookup name with
      | none => (m, .error .keyError)
      | some c =>
        if (m.ep : Int) ≥ c * k then ({ m with periodEp := setItem m.periodEp name (c + 1) }, .ok true)
        else (m, .ok false)

/-- `period`, `coax/wrappers/_train_monitor.py:259-277`. -/
def Mon.period (m : Mon K A) (name : String) (TPeriod epPeriod : Option Int) : Mon K A × Except Err Bool :=
  match TPeriod with
  | none => m.periodEpOnly name epPeriod
  | some k =>
    if ¬ 0 < k then (m, .error .assertionError)
    else
      let m := if (m.periodT.lookup name).isNone then { m with periodT := setItem m.periodT name 1 } else m
      match m.periodT.lookup name with
      | none => (m, .error .keyError)
      | some c =>
        if (m.T : Int) ≥ c * k then ({ m with periodT := setItem m.periodT name (c + 1) }, .ok true)
        else m.periodEpOnly name epPeriod

/-- One call of a public method, with the answers of the inner environment and the random draws.  (`coax/wrappers/_train_monitor.py:157-277`.) -/
inductive Op (K A S X : Type _) where
  | resetGlobal
  | reset (inner : Except Err X)
  | step (a : A) (u : K) (i : Nat) (inner : Except Err (Result K S X))
  | recordMetrics (metrics : Option (List (String × K)))
  | period (name : String) (TPeriod epPeriod : Option Int)

/-- The state after a call, whether or not it raised.  (`coax/wrappers/_train_monitor.py:157-277`.) -/
def Mon.apply (m : Mon K A) : Op K A S X → Mon K A
  | .resetGlobal => m.resetGlobal
  | .reset inner => (m.reset inner).1
  | .step a u i inner => (m.step a u i inner).1
  | .recordMetrics ms => (m.recordMetrics ms).1
  | .period name kT kep => (m.period name kT kep).1

end Coax.TrainMonitor
