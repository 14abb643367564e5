import Verif.Err
import Mathlib.Data.Real.Sign
import Mathlib.Analysis.SpecialFunctions.Log.Basic

/-! Model of `LogTransform` (`coax/value_transforms/_log_transform.py:6-53`), elementwise over the reals. -/

namespace Coax.Values

/-- `transform_func`, `coax/value_transforms/_log_transform.py:46-47`. -/
noncomputable def logTransform (scale x : ℝ) : ℝ := Real.sign x * scale * Real.log (1 + |x| / scale)

/-- `inverse_func`, `coax/value_transforms/_log_transform.py:49-50`. -/
noncomputable def logInverse (scale x : ℝ) : ℝ := Real.sign x * scale * (Real.exp (|x| / scale) - 1)

open Classical in
/-- `LogTransform.__init__`, `coax/value_transforms/_log_transform.py:42-53`: the pair of functions. -/
noncomputable def newLogTransform (scale : ℝ) : Except Err ((ℝ → ℝ) × (ℝ → ℝ)) :=
  if ¬ scale > 0 then .error .assertionError else .ok (logTransform scale, logInverse scale)

end Coax.Values
