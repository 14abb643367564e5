import Verif.Err
import Mathlib.Data.Real.Basic

/-!
Model of `MetaPolicyEnv` (`coax/wrappers/_meta_policy.py`).  The wrapped environment is an arbitrary state machine with states `E`; the arms may use random numbers, whose
generator has states `R`.  Python dicts are association lists.  Whether `inspect.getargspec` exists is an argument (it was removed in Python 3.11).
-/

namespace Coax.Wrappers

variable {E R σ α X : Type _}

/-- A value in an `info` dict.  (`coax/wrappers/_meta_policy.py:53`.) -/
inductive InfoVal (α X : Type _) where
  /-- something that the environment put there -/
  | env (x : X)
  /-- the entry `'a'` -/
  | action (a : α)
  /-- the entry `'logp'` -/
  | logp (l : ℝ)

/-- An `info` dict.  (`coax/wrappers/_meta_policy.py:52-53`.) -/
abbrev Info (α X : Type _) := List (String × InfoVal α X)

/-- `dict.update` with one entry: the value of an existing key is replaced in its place, a new key goes to the end.  (`coax/wrappers/_meta_policy.py:53`.) -/
def setKey (k : String) (v : InfoVal α X) : Info α X → Info α X
  | [] => [(k, v)]
  | (k', v') :: d => if k' = k then (k, v) :: d else (k', v') :: setKey k v d

/-- `dict.get`.  (`coax/wrappers/_meta_policy.py:53`.) -/
def getKey (k : String) (d : Info α X) : Option (InfoVal α X) := (d.find? fun p => p.1 = k).map (·.2)

/-- The wrapped environment.  `step` returns `s_next, r, done, truncated, info`, where `info` may be `None`.  (`coax/wrappers/_meta_policy.py:38,51`.) -/
structure Inner (E σ α X : Type _) where
  reset : E → E × σ × Info α X
  step : E → α → E × σ × ℝ × Bool × Bool × Option (Info α X)

/-- An arm: the names of its arguments, whether it has keyword-only arguments or annotations, and what it does with and without `return_logp=True`.
(`coax/wrappers/_meta_policy.py:45-49`.) -/
structure Arm (R σ α : Type _) where
  args : List String
  special : Bool
  call : R → σ → R × α
  callLogp : R → σ → R × α × ℝ

/-- `MetaPolicyEnv` together with the wrapped environment and the generator, `coax/wrappers/_meta_policy.py:31-35`. -/
structure Meta (E R σ α X : Type _) where
  inner : Inner E σ α X
  arms : List (Arm R σ α)
  env : E
  rng : R
  s : Option σ

/-- `__init__`, `coax/wrappers/_meta_policy.py:31-35`. -/
def Meta.init (inner : Inner E σ α X) (arms : List (Arm R σ α)) (env : E) (rng : R) : Meta E R σ α X := { inner, arms, env, rng, s := none }

/-- `reset(**kwargs)`, `coax/wrappers/_meta_policy.py:37-39`: the method has no parameters. -/
def Meta.reset (m : Meta E R σ α X) (kwargs : List String) : Meta E R σ α X × Except Err (σ × Info α X) :=
  if kwargs ≠ [] then (m, .error .typeError)
  else
    let (e, s, info) := m.inner.reset m.env
    ({ m with env := e, s := some s }, .ok (s, info))

/-- What `step` returns, `coax/wrappers/_meta_policy.py:54`. -/
structure StepOut (σ α X : Type _) where
  s : σ
  r : ℝ
  done : Bool
  truncated : Bool
  info : Info α X

/-- Lines `coax/wrappers/_meta_policy.py:45-49`: the action and the log-propensity. -/
def Arm.act (p : Arm R σ α) (rng : R) (s : σ) : R × α × ℝ :=
  if "return_logp" ∈ p.args then p.callLogp rng s
  else
    let (rng, a) := p.call rng s
    (rng, a, 0)

/-- `step`, `coax/wrappers/_meta_policy.py:41-54`.  `inspect.getargspec` raises `ValueError` for functions with keyword-only arguments or annotations; where it does not
exist (`getargspec = false`) there is an `AttributeError`. -/
def Meta.step (getargspec : Bool) (m : Meta E R σ α X) (a_meta : Int) : Meta E R σ α X × Except Err (StepOut σ α X) :=
  if ¬ (0 ≤ a_meta ∧ a_meta < m.arms.length) then (m, .error .assertionError)
  else match m.s with
    | none => (m, .error .assertionError)
    | some s => match m.arms[a_meta.toNat]? with
      | none => (m, .error .indexError)
      | some p =>
        if getargspec = false then (m, .error .attributeError)
        else if p.special then (m, .error .valueError)
        else
          let (rng, a, logp) := p.act m.rng s
          let (e, s', r, done, truncated, info) := m.inner.step m.env a
          let info := info.getD []
          let info := setKey "logp" (.logp logp) (setKey "a" (.action a) info)
          ({ m with env := e, rng := rng, s := some s' }, .ok ⟨s', r, done, truncated, info⟩)

/-- A sequence of calls of `step`, up to the first one that raises.  (`coax/wrappers/_meta_policy.py:41-54`.) -/
def Meta.steps (getargspec : Bool) (m : Meta E R σ α X) : List Int → Meta E R σ α X × Except Err (List (StepOut σ α X))
  | [] => (m, .ok [])
  | a :: as => match m.step getargspec a with
    | (m, .error e) => (m, .error e)
    | (m, .ok o) => match Meta.steps getargspec m as with
      | (m, .error e) => (m, .error e)
      | (m, .ok os) => (m, .ok (o :: os))

end Coax.Wrappers
