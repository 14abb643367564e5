import Verif.Err
import Mathlib.Data.Rat.Defs
import Mathlib.Algebra.Order.Field.Rat

/-!
Model of `Worker` (`coax/_core/worker.py`): `rollout`, the delegation of buffer and attribute calls to the parameter store, and `buffer_sample`.

Environment, policy and `trace` belong to the user.  They are modelled as functions of the whole history of calls made so far, so that they may keep any
internal state and influence each other; each of them may raise.  The history is the state of the model.  Remote calls through ray are
not distinguished from direct calls: they are synchronous (`ray.get`).
-/

namespace Coax.Core

/-- One call and its result.  `O` observations, `A` actions, `R` rewards, `L` log-propensities.  (`coax/_core/worker.py:164-176`.) -/
inductive Event (O A R L : Type _) where
  /-- `env.reset()` returned this observation -/
  | reset (s : O)
  /-- `pi(s, return_logp=True)` returned the action and its log-propensity -/
  | act (s : O) (a : A) (logp : L)
  /-- `env.step(a)` returned observation, reward, done, truncated -/
  | step (a : A) (sNext : O) (r : R) (done truncated : Bool)
  /-- `self.trace(s, a, r, done, logp)` returned -/
  | trace (s : O) (a : A) (r : R) (done : Bool) (logp : L)

/-- What the user provides.  `pi = none` is a worker without policy; `maxEpisodeSteps` is `env.spec.max_episode_steps`.  (`coax/_core/worker.py:70-92`.) -/
structure Parts (O A R L : Type _) where
  reset : List (Event O A R L) → Except Err O
  pi : Option (List (Event O A R L) → O → Except Err (A × L))
  step : List (Event O A R L) → A → Except Err (O × R × Bool × Bool)
  trace : List (Event O A R L) → O → A → R → Bool → L → Except Err Unit
  maxEpisodeSteps : Int

variable {O A R L : Type _}

/-- The `for` loop of `rollout`, `coax/_core/worker.py:167-176`, with `k` iterations to go. -/
def rolloutLoop (p : Parts O A R L) (pi : List (Event O A R L) → O → Except Err (A × L)) :
    Nat → List (Event O A R L) → O → List (Event O A R L) × Except Err Unit
  | 0, h, _ => (h, .ok ())
  | k + 1, h, s => match pi h s with
    | .error e => (h, .error e)
    | .ok (a, logp) =>
      let h1 := h ++ [.act s a logp]
      match p.step h1 a with
      | .error e => (h1, .error e)
      | .ok (sNext, r, done, truncated) =>
        let h2 := h1 ++ [.step a sNext r done truncated]
        match p.trace h2 s a r (done || truncated) logp with
        | .error e => (h2, .error e)
        | .ok () =>
          let h3 := h2 ++ [.trace s a r (done || truncated) logp]
          if done || truncated then (h3, .ok ()) else rolloutLoop p pi k h3 sNext

/-- `Worker.rollout`, `coax/_core/worker.py:164-176`. -/
def rollout (p : Parts O A R L) (h : List (Event O A R L)) : List (Event O A R L) × Except Err Unit :=
  match p.pi with
  | none => (h, .error .assertionError)
  | some pi => match p.reset h with
    | .error e => (h, .error e)
    | .ok s => rolloutLoop p pi p.maxEpisodeSteps.toNat (h ++ [.reset s]) s

/-! ### Waiting for the buffer -/

/-- The `while` loop of `buffer_sample`, `coax/_core/worker.py:234-242`.  `len i` is what the `i`-th call of `buffer_len` returns.  Returns the number of calls made after
the call `i` and the times slept; `none` if `fuel` iterations are not enough. -/
def waitLoop (len : Nat → Nat) (warmup : Int) : Nat → Nat → Rat → Option (Nat × List Rat)
  | 0, _, _ => none
  | fuel + 1, i, wait =>
    if (len i : Int) < warmup then
      (waitLoop len warmup fuel (i + 1) (min 30 (wait * 2))).map (fun r => (r.1, wait :: r.2))
    else some (i, [])

/-- `Worker.buffer_sample`, `coax/_core/worker.py:232-253`, for a worker whose parameter store may be a worker that has a parameter store, and so on.  `warmups` are the
values of `buffer_warmup` (`none` for `None`), of the calling worker first and of the worker that holds the buffer last.  `i` is the number of the next call of
`buffer_len`.  Returns the number of the last call and the times slept; then the buffer is sampled. -/
def bufferSample (len : Nat → Nat) (batchSize : Int) (fuel : Nat) : List (Option Int) → Nat → Option (Nat × List Rat)
  | [], _ => none
  | w :: ws, i =>
    match waitLoop len (max (w.getD 0) batchSize) fuel i (1 / 1024) with
    | none => none
    | some (j, sleeps) => match ws with
      | [] => some (j, sleeps)
      | _ :: _ => (bufferSample len batchSize fuel ws (j + 1)).map (fun r => (r.1, sleeps ++ r.2))

/-! ### Delegation to the parameter store -/

/-- An object with attributes, as `_getattr_recursive` and `_setattr_recursive` see it: a value, or named attributes.  (`coax/_core/worker.py:337-350`.) -/
inductive Obj (V : Type _) where
  | val (v : V)
  | obj (attrs : List (String × Obj V))

variable {V : Type _}

/-- `getattr(obj, name)`.  (`coax/_core/worker.py:339,342`.) -/
def Obj.attr : Obj V → String → Except Err (Obj V)
  | .val _, _ => .error .attributeError
  | .obj attrs, name => match attrs.lookup name with
    | none => .error .attributeError
    | some o => .ok o

/-- Insert or replace an attribute.  (`coax/_core/worker.py:347`.) -/
def setAttr (attrs : List (String × Obj V)) (name : String) (x : Obj V) : List (String × Obj V) :=
  match attrs with
  | [] => [(name, x)]
  | (k, o) :: rest => if k = name then (k, x) :: rest else (k, o) :: setAttr rest name x

/-- `_getattr_recursive`, `coax/_core/worker.py:337-342`: `path` is the name split at the dots (an empty path does not occur).  The default applies to the last
attribute only. -/
def getattrRec (o : Obj V) (default : Option (Obj V)) : List String → Except Err (Obj V)
  | [] => .error .attributeError
  | [name] => match default with
    | none => o.attr name
    | some d => match o.attr name with
      | .ok x => .ok x
      | .error _ => .ok d
  | name :: path => match o.attr name with
    | .error e => .error e
    | .ok x => getattrRec x default path

/-- `_setattr_recursive`, `coax/_core/worker.py:345-350`.  Values have no settable attributes. -/
def setattrRec (o : Obj V) (value : Obj V) : List String → Except Err (Obj V)
  | [] => .error .attributeError
  | [name] => match o with
    | .val _ => .error .attributeError
    | .obj attrs => .ok (.obj (setAttr attrs name value))
  | name :: path => match o with
    | .val _ => .error .attributeError
    | .obj attrs => match attrs.lookup name with
      | none => .error .attributeError
      | some x => match setattrRec x value path with
        | .error e => .error e
        | .ok x' => .ok (.obj (setAttr attrs name x'))

/-- A worker: its own attributes and the chain of its parameter stores, nearest first.  (`coax/_core/worker.py:286-301`.) -/
structure Chain (V : Type _) where
  self : Obj V
  stores : List (Obj V)

/-- `pull_getattr`, `coax/_core/worker.py:286-293`. -/
def Chain.pullGetattr : Chain V → List String → Option (Obj V) → Except Err (Obj V)
  | ⟨o, []⟩, path, default => getattrRec o default path
  | ⟨_, s :: ss⟩, path, default => pullGetattr ⟨s, ss⟩ path default
  termination_by c => c.stores.length

/-- `push_setattr`, `coax/_core/worker.py:295-301`. -/
def Chain.pushSetattr : Chain V → List String → Obj V → Except Err (Chain V)
  | ⟨o, []⟩, path, v => match setattrRec o v path with
    | .error e => .error e
    | .ok o' => .ok ⟨o', []⟩
  | ⟨o, s :: ss⟩, path, v => match pushSetattr ⟨s, ss⟩ path v with
    | .error e => .error e
    | .ok c => .ok ⟨o, c.self :: c.stores⟩
  termination_by c => c.stores.length

end Coax.Core
