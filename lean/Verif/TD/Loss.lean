import Verif.TD.Targets
import Verif.Values.Losses
import Verif.Policy.Objectives
import Verif.Dists.Categorical
import Mathlib.Analysis.Calculus.Deriv.Basic

/-!
Model of the loss of the TD updaters (`loss_func` in `coax/td_learning/_base.py`), over the reals.

The predictions of the value function are a list, one entry per sample, and the target is what `target_func` returns (`Verif/TD/Targets.lean`); how they are computed is
left open here.  Differentiation by jax is modelled by the derivative of the function that is differentiated.  Random number keys and the function state are left out.
-/

namespace Coax.TD

open Coax.Values Coax.Pol

/-- A loss function of two one-dimensional arrays and weights.  (`coax/td_learning/_base.py:286,443`.) -/
abbrev LossFn := List ℝ → List ℝ → Option (List ℝ) → Except Err (Option ℝ)

/-- A one-dimensional array as the loss functions see it: one row per sample.  (`coax/td_learning/_base.py:286,443`.) -/
def oneD (l : List ℝ) : List (List ℝ) := l.map (fun x => [x])

/-- `coax.value_losses.mse` of one-dimensional arrays, `coax/value_losses/_losses.py:13-49`. -/
noncomputable def mse1 : LossFn := fun y p w => mse (oneD y) (oneD p) w

/-- `coax.value_losses.huber` of one-dimensional arrays, the default loss, `coax/value_losses/_losses.py:52-99`. -/
noncomputable def huber1 (delta : ℝ) : LossFn := fun y p w => huber (oneD y) (oneD p) w delta

/-- The number that a loss function returns.  (`jax.grad` is applied only where it returns one.)  (`coax/td_learning/_base.py:294,451`.) -/
def scalar : Except Err (Option ℝ) → ℝ
  | .ok (some x) => x
  | _ => 0

/-- `jax.grad(loss_function, argnums=1)`, `coax/td_learning/_base.py:294,451`: the partial derivatives by the predictions. -/
noncomputable def gradPred (L : LossFn) (y p : List ℝ) (w : Option (List ℝ)) : List ℝ :=
  (List.range p.length).map (fun i => deriv (fun x => scalar (L y (p.set i x) w)) (p.getD i 0))

/-- What `loss_func` returns, without the metrics of the regularizer.  (`coax/td_learning/_base.py:292-302,449-459`.) -/
structure LossOut where
  loss : Option ℝ
  tdError : List ℝ
  meanTdError : Option ℝ
  meanTdErrorTarg : Option ℝ

/-- `G -= regularizer`, `coax/td_learning/_base.py:284-285,441-442`; without a regularizer it is the number 0. -/
noncomputable def subtractReg (G : List ℝ) : Option (List ℝ) → Except Err (List ℝ)
  | none => .ok G
  | some r => broadcast (fun g x => g - x) G r

/-- `td_error = -V.shape[0] * dLoss_dV(G, V)`, `coax/td_learning/_base.py:295,452`. -/
noncomputable def tdErrorOf (L : LossFn) (G V : List ℝ) : List ℝ := (gradPred L G V none).map (fun g => -(V.length : ℝ) * g)

/-- `loss_func` for a deterministic value function, `coax/td_learning/_base.py:238-302,393-459`.  `reg` is the result of the regularizer, if there is one; `V` are the
predictions, `VTarg` those of the target network for the same states.  Arrays of different lengths raise: `AssertionError` from the loss function or from chex, or `TypeError`
from jax; the model has one error for all of them. -/
noncomputable def detLoss (L : LossFn) (reg : Option (Except Err (List ℝ))) (target : Except Err (List ℝ)) (V VTarg W : List ℝ) : Except Err LossOut :=
  let W := clipW W
  match (match reg with
    | none => .ok none
    | some (.error e) => .error e
    | some (.ok r) => .ok (some r) : Except Err (Option (List ℝ))) with
  | .error e => .error e
  | .ok r => match target with
    | .error e => .error e
    | .ok G => match subtractReg G r with
      | .error e => .error e
      | .ok G =>
        if G.length = V.length ∧ VTarg.length = V.length ∧ W.length = V.length then
          match L G V (some W) with
          | .error e => .error e
          | .ok loss =>
            let td := tdErrorOf L G V
            .ok ⟨loss, td, mean (List.zipWith (fun w t => w * t) W td), mean ((gradPred L V VTarg (some W)).map (fun g => -g))⟩
        else .error .assertionError

/-- The loss for a value function with a `DiscretizedIntervalDist`, `coax/td_learning/_base.py:263-265,420-422`: the mean cross entropy.  The weights `W` are computed before (lines
240, 396), but not used. -/
noncomputable def intervalLoss (n : Nat) (target pred : List (List ℝ)) (_W : List ℝ) : Except Err (Option ℝ) :=
  match Coax.Dists.crossEntropy n target pred with
  | .error e => .error e
  | .ok ce => .ok (mean ce)

/-- The loss for a value function with an `EmpiricalQuantileDist`, `coax/td_learning/_base.py:266-269,423-426`. -/
noncomputable def quantileLoss (target pred fractions : List (List ℝ)) (W : List ℝ) : Except Err (Option ℝ) :=
  quantileHuber target pred fractions (some (clipW W)) 1

/-- `EmpiricalQuantileDist.affine_transform`, `coax/proba_dists/_empirical_quantile.py:41-65`, the values of one row. -/
def quantileAffine (values : List ℝ) (scale shift : ℝ) (f fInv : ℝ → ℝ) : List ℝ := values.map (fun v => f (shift + scale * fInv v))

end Coax.TD
