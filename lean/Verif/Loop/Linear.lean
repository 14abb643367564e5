import Verif.Loop.TabularV

/-!
Model of `SimpleTD.update` for a state value function that is linear in its params, with the optimizer `optax.sgd`, over the reals: the function of `doc/examples/cartpole/model_based.py` is a fixed term plus a linear layer on features of the
state.

The params are one number for each feature (a bias is the param of a feature that is constant).  As for tables (`Verif.Loop.TabularV`), differentiation by jax is modelled by the derivative of the function that is differentiated, value transforms are
the identity and there is no regularizer.  The optimizer of the example is Adam; here it is gradient descent with a schedule of learning rates, as with tables.
-/

namespace Coax.Loop

open Coax.RewardTracing Coax.TD Coax.Core

variable {σ : Type _} {n d : Nat}

/-- The values of a batch of states, `doc/examples/cartpole/model_based.py:17-19`: a term without params, plus a linear layer on features of the states. -/
noncomputable def affine (base : σ → ℝ) (phi : σ → Fin d → ℝ) (θ : Fin d → ℝ) (S : List σ) : List ℝ := S.map fun s => base s + ((List.finRange d).map fun k => phi s k * θ k).sum

/-- `coax.V(func_v, env)`, `doc/examples/cartpole/model_based.py:33`. -/
noncomputable def affineV (base : σ → ℝ) (phi : σ → Fin d → ℝ) (θ : Fin d → ℝ) : VFn (Fin d → ℝ) σ := ⟨affine base phi, θ, id, id⟩

/-- `loss_func` of the updater, `coax/td_learning/_base.py:223-302`, as a function of the params `θ` of `v`; the target function gets the params `θV` of `v` and `θT` of `v_targ` (`target_params`, which are not differentiated,
lines 332-338). -/
noncomputable def affineLoss (L : LossFn) (base : σ → ℝ) (phi : σ → Fin d → ℝ) (rows : List (Out σ (Fin n) ℝ)) (θT θV θ : Fin d → ℝ) : Except Err LossOut :=
  match toVBatch rows with
  | .error e => .error e
  | .ok b => detLoss L none (simpleTD (affineV base phi θV) (affineV base phi θT) b) (affine base phi θ (rows.map (·.S))) (affine base phi θT (rows.map (·.S))) (rows.map (·.W))

/-- `simple_td.update(transition_batch)` with the optimizer `optax.sgd(lr)`, `coax/td_learning/_base.py:60-116`: each param minus the learning rate times the partial derivative of the loss.  The loss of an empty batch is NaN; then
`update` raises `RuntimeError` (line 89). -/
noncomputable def affineUpdate (lr : ℝ) (L : LossFn) (base : σ → ℝ) (phi : σ → Fin d → ℝ) (θT θ : Fin d → ℝ) (rows : List (Out σ (Fin n) ℝ)) : Except Err (Fin d → ℝ) :=
  match affineLoss L base phi rows θT θ θ with
  | .error e => .error e
  | .ok out =>
    if out.loss.isNone then .error .runtimeError
    else .ok fun k => θ k - lr * deriv (fun x => lossValue (affineLoss L base phi rows θT θ (setState θ k x))) (θ k)

/-- Updates with a list of batches and `v_targ=None`: the target function is `v` itself, `coax/td_learning/_base.py:27,209-218`, `doc/examples/cartpole/model_based.py:48,66`.
`k` is the number of updates made before; the optimizer is `optax.sgd` with a schedule of learning rates. -/
noncomputable def affineLearn (lr : ℕ → ℝ) (L : LossFn) (base : σ → ℝ) (phi : σ → Fin d → ℝ) : ℕ → (Fin d → ℝ) → List (List (Out σ (Fin n) ℝ)) → Except Err (Fin d → ℝ)
  | _, θ, [] => .ok θ
  | k, θ, rows :: bs =>
    match affineUpdate (lr k) L base phi θ θ rows with
    | .error e => .error e
    | .ok θ' => affineLearn lr L base phi (k + 1) θ' bs

/-- Updates with a list of batches, each followed by `v_targ.soft_update(v, tau)`, `doc/examples/frozen_lake/a2c.py:56-62`.  The params of `v` and `v_targ`. -/
noncomputable def affineLearnT (lr : ℕ → ℝ) (tau : ℝ) (L : LossFn) (base : σ → ℝ) (phi : σ → Fin d → ℝ) : ℕ → (Fin d → ℝ) × (Fin d → ℝ) → List (List (Out σ (Fin n) ℝ)) → Except Err ((Fin d → ℝ) × (Fin d → ℝ))
  | _, θ, [] => .ok θ
  | k, (θ, θT), rows :: bs =>
    match affineUpdate (lr k) L base phi θT θ rows with
    | .error e => .error e
    | .ok θ' => affineLearnT lr tau L base phi (k + 1) (θ', softV tau θT θ') bs

end Coax.Loop
