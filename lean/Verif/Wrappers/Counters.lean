import Verif.Wrappers.TrainMonitor

/-!
Model of `get_counters`, `set_counters`, `save_counters`, `load_counters` and the tensorboard directory of `TrainMonitor`
(`coax/wrappers/_train_monitor.py:137-155,280-302,348-421`).

`get_counters` hands out references to the three mutable objects `_ep_metrics`, `_ep_actions` and `_period`, so the monitor is
modelled on a heap.  The effect of the other methods is the one of `Mon.apply`; here it is only added which objects they
change in place (`coax/wrappers/_train_monitor.py:36-41,176-184,239-244,266-277`) and which attributes they bind to a new object (`coax/wrappers/_train_monitor.py:166-168,183`).
Not modelled: the wall clock `_ep_starttime` and the file system.
-/

namespace Coax.TrainMonitor

variable {K A S X : Type _} [Field K] [LinearOrder K]

/-- The mutable objects by address; `next` is the next free address.  (`coax/wrappers/_train_monitor.py:157-168`.) -/
structure Heap (K A : Type _) where
  metrics : Nat → List (String × (K × K))
  actions : Nat → Streaming.Sample A
  period : Nat → List (String × Nat) × List (String × Nat)
  next : Nat

/-- The attribute `_tensorboard`: not there, `None`, or a writer for some directory.  (`coax/wrappers/_train_monitor.py:279-302`.) -/
inductive Writer where
  | absent
  | none
  | writer (dir : String)
deriving DecidableEq

/-- The attributes of the monitor; the mutable ones are addresses.  (`coax/wrappers/_train_monitor.py:140-168`.) -/
structure HMon (K : Type _) where
  T : Nat
  ep : Nat
  t : Nat
  G : K
  avgG : K
  nAvgG : K
  epMetrics : Nat
  epActions : Nat
  period : Nat
  tensorboardDir : Option String
  tensorboard : Writer
  smoothing : K

/-- The monitor with its objects read from the heap.  (`coax/wrappers/_train_monitor.py:140-168`.) -/
def HMon.view (m : HMon K) (h : Heap K A) : Mon K A :=
  { T := m.T, ep := m.ep, t := m.t, G := m.G, avgG := m.avgG, nAvgG := m.nAvgG, epMetrics := h.metrics m.epMetrics,
    epActions := h.actions m.epActions, periodT := (h.period m.period).1, periodEp := (h.period m.period).2, smoothing := m.smoothing }

/-- `f` with the value at one address replaced.  (`coax/wrappers/_train_monitor.py:200-244`.) -/
def put {V : Type _} (f : Nat → V) (a : Nat) (v : V) : Nat → V := fun b => if b = a then v else f b

/-- The scalar attributes of `v` in the monitor `m`.  (`coax/wrappers/_train_monitor.py:157-214`.) -/
def HMon.scalars (m : HMon K) (v : Mon K A) : HMon K :=
  { m with T := v.T, ep := v.ep, t := v.t, G := v.G, avgG := v.avgG, nAvgG := v.nAvgG }

/-- A call of a method on the heap.  `reset_global` (`coax/wrappers/_train_monitor.py:166-168`) binds three new objects, `reset` (`coax/wrappers/_train_monitor.py:183-184`) a new
`_ep_metrics`; everything else happens in place. -/
def HMon.apply (m : HMon K) (h : Heap K A) (op : Op K A S X) : HMon K × Heap K A :=
  let v := (m.view h).apply op
  match op with
  | .resetGlobal =>
    ({ m.scalars v with epMetrics := h.next, epActions := h.next, period := h.next },
     { metrics := put h.metrics h.next v.epMetrics, actions := put h.actions h.next v.epActions,
       period := put h.period h.next (v.periodT, v.periodEp), next := h.next + 1 })
  | .reset _ =>
    ({ m.scalars v with epMetrics := h.next },
     { metrics := put h.metrics h.next v.epMetrics, actions := put h.actions m.epActions v.epActions,
       period := put h.period m.period (v.periodT, v.periodEp), next := h.next + 1 })
  | _ =>
    (m.scalars v,
     { metrics := put h.metrics m.epMetrics v.epMetrics, actions := put h.actions m.epActions v.epActions,
       period := put h.period m.period (v.periodT, v.periodEp), next := h.next })

/-- A Python dict of counters: what is stored (if anything) under each of the names of `_COUNTER_ATTRS` (`coax/wrappers/_train_monitor.py:137-139`), and
the other keys. -/
structure Counters (K : Type _) where
  T : Option Nat
  ep : Option Nat
  t : Option Nat
  G : Option K
  avgG : Option K
  nAvgG : Option K
  epMetrics : Option Nat
  epActions : Option Nat
  period : Option Nat
  tensorboardDir : Option (Option String)
  otherKeys : List String

/-- `get_counters`, `coax/wrappers/_train_monitor.py:370`. -/
def HMon.getCounters (m : HMon K) : Counters K :=
  { T := some m.T, ep := some m.ep, t := some m.t, G := some m.G, avgG := some m.avgG, nAvgG := some m.nAvgG,
    epMetrics := some m.epMetrics, epActions := some m.epActions, period := some m.period,
    tensorboardDir := some m.tensorboardDir, otherKeys := [] }

/-- The outside world of `_init_tensorboard`: does a string match `.*/\d{8}_\d{6}$`, and `os.path.join(dir, timestamp)`.  (`coax/wrappers/_train_monitor.py:286-302`.) -/
structure World where
  stamped : String → Bool
  join : String → String

/-- `_init_tensorboard`, `coax/wrappers/_train_monitor.py:286-302`. -/
def HMon.initTensorboard (m : HMon K) (w : World) : Option String → HMon K
  | none => { m with tensorboardDir := none, tensorboard := .none }
  | some dir =>
    let dir := if ¬ w.stamped dir then w.join dir else dir
    if some dir ≠ m.tensorboardDir then { m with tensorboardDir := some dir, tensorboard := .absent } else m

/-- `set_counters`, `coax/wrappers/_train_monitor.py:384-386`, with `__setstate__`, `coax/wrappers/_train_monitor.py:354-356`; `none` is an argument that is not a dict. -/
def HMon.setCounters (m : HMon K) (w : World) : Option (Counters K) → HMon K × Except Err Unit
  | some { T := some T, ep := some ep, t := some t, G := some G, avgG := some avgG, nAvgG := some nAvgG, epMetrics := some a,
           epActions := some b, period := some c, tensorboardDir := some dir, otherKeys := [] } =>
    let m := { m with T := T, ep := ep, t := t, G := G, avgG := avgG, nAvgG := nAvgG, epMetrics := a, epActions := b, period := c,
                      tensorboardDir := dir }
    (m.initTensorboard w dir, .ok ())
  | _ => (m, .error .typeError)

/-- What `pickle.dumps` makes of the counters (`coax/wrappers/_train_monitor.py:399-404`): the contents instead of the references. -/
structure Saved (K A : Type _) where
  view : Mon K A
  dir : Option String

/-- `save_counters`, `coax/wrappers/_train_monitor.py:388-404`. -/
def HMon.saveCounters (m : HMon K) (h : Heap K A) : Saved K A := { view := m.view h, dir := m.tensorboardDir }

/-- `load_counters`, `coax/wrappers/_train_monitor.py:406-421`: unpickling makes new objects, then `set_counters`. -/
def HMon.loadCounters (m : HMon K) (h : Heap K A) (w : World) (s : Saved K A) : HMon K × Heap K A :=
  let h' : Heap K A :=
    { metrics := put h.metrics h.next s.view.epMetrics, actions := put h.actions h.next s.view.epActions,
      period := put h.period h.next (s.view.periodT, s.view.periodEp), next := h.next + 1 }
  let c : Counters K :=
    { T := some s.view.T, ep := some s.view.ep, t := some s.view.t, G := some s.view.G, avgG := some s.view.avgG,
      nAvgG := some s.view.nAvgG, epMetrics := some h.next, epActions := some h.next, period := some h.next,
      tensorboardDir := some s.dir, otherKeys := [] }
  ((m.setCounters w (some c)).1, h')

/-- `tensorboard`, `coax/wrappers/_train_monitor.py:279-284`: open a writer when there is none. -/
def HMon.openTensorboard (m : HMon K) : HMon K × Except Err Writer :=
  match m.tensorboard with
  | .absent =>
    match m.tensorboardDir with
    | none => (m, .error .assertionError)
    | some d => ({ m with tensorboard := .writer d }, .ok (.writer d))
  | x => (m, .ok x)

end Coax.TrainMonitor
