import Verif.Err
import Mathlib.Data.Real.Basic

/-!
Model of the DeepMind Control wrapper (`coax/utils/_dmc_gym.py`).  The dm_control environment is an arbitrary state machine.  Conversions between float dtypes are exact.
-/

namespace Coax.Utils

/-- The arguments of `make_dmc`, which are also those of `DmcGymWrapper` and `register`.  (`coax/utils/_dmc_gym.py:11,39-41`.) -/
structure DmcArgs where
  domain : String
  task : String
  seed : Int
  maxEpisodeSteps : Nat
  height : Nat
  width : Nat
  cameraId : Nat
deriving DecidableEq

/-- `env_id`, `coax/utils/_dmc_gym.py:37`. -/
def DmcArgs.envId (a : DmcArgs) : String := a.domain ++ "_" ++ a.task ++ "-v1"

/-- The gymnasium registry: the specification (with its keyword arguments) registered for each id.  (`coax/utils/_dmc_gym.py:38-41`.) -/
abbrev Registry := List (String × DmcArgs)

/-- `registry[env_id]`.  (`coax/utils/_dmc_gym.py:38,42`.) -/
def regFind (reg : Registry) (id : String) : Option DmcArgs := (reg.find? fun p => p.1 = id).map (·.2)

/-- `make_dmc`, `coax/utils/_dmc_gym.py:11-42`: the registry afterwards, and the settings of the environment that `make(env_id)` builds. -/
def makeDmc (reg : Registry) (a : DmcArgs) : Registry × Except Err DmcArgs :=
  let reg := if (regFind reg a.envId).isNone then (a.envId, a) :: reg else reg
  (reg, match regFind reg a.envId with | some b => .ok b | none => .error .keyError)

/-- A dm_env array specification, flattened.  The bounds of a `BoundedArray` are given as a scalar or as one number per entry; `many` stands for arrays of bounds with
more than one axis whose shape does not broadcast with a flat array of `dim` zeros, for example shape (2, 3) with six zeros; shapes with several axes that do broadcast are not modelled.  (`coax/utils/_dmc_gym.py:92-101`.) -/
inductive Bound where
  | scalar (x : ℝ)
  | flat (l : List ℝ)
  | many

/-- A dm_env specification: its number of entries, whether it has a float dtype, and its bounds.  (`coax/utils/_dmc_gym.py:92-101`.) -/
inductive DmSpec where
  | array (dim : Nat) (float : Bool)
  | bounded (dim : Nat) (float : Bool) (lo hi : Bound)
  /-- a specification of another type, for example `DiscreteArray` -/
  | other (float : Bool)

/-- `s.minimum + zeros`: numpy broadcasting of the bound with `dim` zeros.  (`coax/utils/_dmc_gym.py:98-99`.) -/
def Bound.plusZeros (dim : Nat) : Bound → Except Err (List ℝ)
  | .scalar x => .ok (List.replicate dim x)
  | .flat [x] => .ok (List.replicate dim x)
  | .flat l => if l.length = dim then .ok l else if dim = 1 then .ok l else .error .valueError
  | .many => .error .valueError

/-- `extract_min_max`, `coax/utils/_dmc_gym.py:88-101`; `none` is an infinite bound. -/
def extractMinMax : DmSpec → Except Err (List (Option ℝ) × List (Option ℝ))
  | .array dim float => if float then .ok (List.replicate dim none, List.replicate dim none) else .error .assertionError
  | .bounded dim float lo hi =>
    if float then do
      let l ← lo.plusZeros dim
      let h ← hi.plusZeros dim
      pure (l.map some, h.map some)
    else .error .assertionError
  | .other float => if float then .error .valueError else .error .assertionError

/-- `spec_to_box`, `coax/utils/_dmc_gym.py:104-116`: the bounds of the Box.  `onp.concatenate` of nothing raises `ValueError`. -/
def specToBox (specs : List DmSpec) : Except Err (List (Option ℝ) × List (Option ℝ)) := do
  let bs ← specs.mapM extractMinMax
  if bs.isEmpty then .error .valueError
  else
    let low := bs.flatMap (·.1)
    let high := bs.flatMap (·.2)
    if low.length = high.length then pure (low, high) else .error .assertionError

/-- A value of an observation dict: a scalar or the entries of an array.  (`coax/utils/_dmc_gym.py:124-126`.) -/
inductive DmVal where
  | scalar (x : ℝ)
  | array (l : List ℝ)

/-- `flatten_obs`, `coax/utils/_dmc_gym.py:119-127`, of the values of the dict. -/
def flattenObs (obs : List DmVal) : Except Err (List ℝ) :=
  if obs.isEmpty then .error .valueError
  else .ok (obs.flatMap fun v => match v with | .scalar x => [x] | .array l => l)

/-- A dm_env time step: `last()` and `discount`.  (`coax/utils/_dmc_gym.py:70-72`.) -/
structure DmStep where
  obs : List DmVal
  reward : ℝ
  last : Bool
  discount : ℝ

/-- What `DmcGymWrapper.step` returns for a time step, `coax/utils/_dmc_gym.py:69-73`: next state, reward, terminated, truncated. -/
def dmcStep (t : DmStep) : Except Err (List ℝ × ℝ × Bool × Bool) := (flattenObs t.obs).map fun s => (s, t.reward, t.last, false)

end Coax.Utils
