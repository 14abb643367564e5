import Verif.Err
import Mathlib.Analysis.SpecialFunctions.Log.Basic

/-!
Model of the loss functions (`coax/value_losses/_losses.py`), over the reals.

A batch array of any dimension at least one is a list of rows, one per sample; a row holds the remaining axes, flattened
(a row of a one-dimensional array has one entry).  All arrays passed to one loss have the same shape: broadcasting is not
modelled.  The mean of an empty array, which is `nan` in Python, is `none`.
-/

namespace Coax.Values

/-- `jnp.mean` of all entries.  (`coax/value_losses/_losses.py:186`.) -/
noncomputable def meanAll (rows : List (List ℝ)) : Option ℝ :=
  let l := rows.flatten
  if l = [] then none else some (l.sum / l.length)

/-- `_mean_with_weights`, `coax/value_losses/_losses.py:180-186`. -/
noncomputable def meanWithWeights (loss : List (List ℝ)) (w : Option (List ℝ)) : Except Err (Option ℝ) :=
  match w with
  | none => .ok (meanAll loss)
  | some w =>
    if loss.length ≠ w.length then .error .assertionError
    else .ok (meanAll (List.zipWith (fun x row => row.map (fun l => x * l)) w loss))

/-- An elementwise function of two batches of the same shape.  (`coax/value_losses/_losses.py:48,96-98,135,176`.) -/
def elementwise (f : ℝ → ℝ → ℝ) (a b : List (List ℝ)) : List (List ℝ) := List.zipWith (List.zipWith f) a b

/-- The elementwise loss of `mse`, `coax/value_losses/_losses.py:48`. -/
noncomputable def mseLoss (yTrue yPred : ℝ) : ℝ := 0.5 * (yPred - yTrue) ^ 2

/-- `mse`, `coax/value_losses/_losses.py:13-49`. -/
noncomputable def mse (yTrue yPred : List (List ℝ)) (w : Option (List ℝ)) : Except Err (Option ℝ) :=
  meanWithWeights (elementwise mseLoss yTrue yPred) w

/-- The elementwise loss of `huber`, `coax/value_losses/_losses.py:96-98`. -/
noncomputable def huberLoss (delta yTrue yPred : ℝ) : ℝ :=
  let err := |yPred - yTrue|
  let errClipped := min err delta
  0.5 * errClipped ^ 2 + delta * (err - errClipped)

/-- `huber`, `coax/value_losses/_losses.py:52-99`. -/
noncomputable def huber (yTrue yPred : List (List ℝ)) (w : Option (List ℝ)) (delta : ℝ) : Except Err (Option ℝ) :=
  meanWithWeights (elementwise (huberLoss delta) yTrue yPred) w

/-- The elementwise loss of `logloss`, `coax/value_losses/_losses.py:135`. -/
noncomputable def logLoss (yTrue yPred : ℝ) : ℝ := -yTrue * Real.log yPred - (1 - yTrue) * Real.log (1 - yPred)

/-- `logloss`, `coax/value_losses/_losses.py:102-136`. -/
noncomputable def logloss (yTrue yPred : List (List ℝ)) (w : Option (List ℝ)) : Except Err (Option ℝ) :=
  meanWithWeights (elementwise logLoss yTrue yPred) w

/-- The elementwise loss of `logloss_sign`, `coax/value_losses/_losses.py:176`. -/
noncomputable def logLossSign (yTrueSign logits : ℝ) : ℝ := Real.log (1 + Real.exp (-yTrueSign * logits))

/-- `logloss_sign`, `coax/value_losses/_losses.py:139-177`. -/
noncomputable def loglossSign (yTrueSign logits : List (List ℝ)) (w : Option (List ℝ)) : Except Err (Option ℝ) :=
  meanWithWeights (elementwise logLossSign yTrueSign logits) w

open Classical in
/-- The elementwise loss of `quantile_huber`, `coax/value_losses/_losses.py:236-241`. -/
noncomputable def quantileHuberElem (delta yTrue yPred quantile : ℝ) : ℝ :=
  let tdError := yTrue - yPred
  let tdErrorAbs := |tdError|
  let errClipped := min tdErrorAbs delta
  let h := 0.5 * errClipped ^ 2 + delta * (tdErrorAbs - errClipped)
  |quantile - (if tdError < 0 then 1 else 0)| * h / delta

/-- `quantile_huber`, `coax/value_losses/_losses.py:189-243`: for each sample and each predicted quantile, the sum over the targets of the sample.
The arrays are two-dimensional. -/
noncomputable def quantileHuber (yTrue yPred quantiles : List (List ℝ)) (w : Option (List ℝ)) (delta : ℝ) : Except Err (Option ℝ) :=
  meanWithWeights
    (List.zipWith (fun ys pq => List.zipWith (fun p q => (ys.map (fun y => quantileHuberElem delta y p q)).sum) pq.1 pq.2)
      yTrue (yPred.zip quantiles)) w

end Coax.Values
