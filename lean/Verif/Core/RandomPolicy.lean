import Verif.Err
import Mathlib.Analysis.SpecialFunctions.Log.Basic

/-!
Model of `RandomPolicy` (`coax/_core/random_policy.py`), over the reals.  The axes of Box members are flattened to `Fin d`.  All bounds of a Box are finite and the
lower ones are less than the upper ones (`gymnasium` samples unbounded entries from other distributions).
-/

namespace Coax.Core

/-- The action space.  (`coax/_core/random_policy.py:44,48,53`.) -/
inductive ActSpace where
  /-- `Discrete(n)` -/
  | discrete (n : Nat)
  /-- a `Box` with float dtype -/
  | box (d : Nat) (low high : Fin d → ℝ)
  /-- a `Box` with integer dtype -/
  | intBox (d : Nat) (low high : Fin d → Int)
  /-- any other space -/
  | other

/-- A member of the space.  (`coax/_core/random_policy.py:40`.) -/
inductive Act where
  | int (k : Nat)
  | floats (d : Nat) (x : Fin d → ℝ)
  | ints (d : Nat) (x : Fin d → Int)
  | other

/-- The distribution parameters that are returned.  (`coax/_core/random_policy.py:64-70`.) -/
inductive ActParams where
  | logits (n : Nat) (z : Fin n → ℝ)
  | normal (d : Nat) (mu logvar : Fin d → ℝ)

/-- `__init__`, `coax/_core/random_policy.py:30-36`: the attributes that the object has afterwards. -/
def randomPolicyAttrs : List String := ["action_space", "random_seed"]

/-- The log-propensity, `coax/_core/random_policy.py:44-56`.  The object has no attribute `num_actions`. -/
noncomputable def randomLogp : ActSpace → Except Err ℝ
  | .discrete n => if "num_actions" ∈ randomPolicyAttrs then .ok (-Real.log n) else .error .attributeError
  | .box _ low high => .ok (-∑ i, Real.log (high i - low i))
  | .intBox _ low high => .ok (-∑ i, Real.log ((high i - low i : Int) : ℝ))
  | .other => .error .notImplementedError

/-- `__call__`, `coax/_core/random_policy.py:38-56`; `a` is what `self.action_space.sample()` returned. -/
noncomputable def randomCall (sp : ActSpace) (a : Act) (returnLogp : Bool) : Except Err (Act × Option ℝ) :=
  if returnLogp then (randomLogp sp).map fun l => (a, some l) else .ok (a, none)

/-- `mode`, `coax/_core/random_policy.py:58-60`. -/
noncomputable def randomMode (sp : ActSpace) (a : Act) : Except Err (Act × Option ℝ) := randomCall sp a false

/-- `dist_params`, `coax/_core/random_policy.py:62-75`. -/
noncomputable def randomDistParams : ActSpace → Except Err ActParams
  | .discrete n => .ok (.logits n fun _ => 0)
  | .box d _ _ => .ok (.normal d (fun _ => 0) fun _ => 15 * 1)
  | .intBox d _ _ => .ok (.normal d (fun _ => 0) fun _ => 15 * 1)
  | .other => .error .notImplementedError

end Coax.Core
