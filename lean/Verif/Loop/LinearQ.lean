import Verif.Loop.Linear

/-!
Model of `Sarsa.update` and `QLearning.update` for q-functions that are linear in their params, with the optimizer `optax.sgd`, over the reals: the function of `doc/examples/frozen_lake/sarsa.py` with observations that are not one-hot encoded.

The params are one number for each feature of a state and an action.  The updater uses the function only through its values, which are those of a table (`Verif.Loop.Tabular`) that depends on the params.  The other
simplifications are those of `Verif.Loop.Tabular`.
-/

namespace Coax.Loop

open Coax.RewardTracing Coax.TD Coax.Core

variable {σ : Type _} {n d : Nat}

/-- The values of a function that is a linear layer on features of a state and an action, plus a term without params, `doc/examples/frozen_lake/sarsa.py:14-17`. -/
noncomputable def affineQ (base : σ → Fin n → ℝ) (phi : σ → Fin n → Fin d → ℝ) (θ : Fin d → ℝ) : σ → Fin n → ℝ := fun s a => base s a + ((List.finRange d).map fun k => phi s a k * θ k).sum

/-- `loss_func` of the updater, `coax/td_learning/_base.py:393-459`, as a function of the params `θ` of `q`; the target function gets the params `θQ` of `q` and `θT` of `q_targ` (`target_params`, which are not differentiated,
lines 490-495). -/
noncomputable def affineLossQ (L : LossFn) (updateRule : QFn (σ → Fin n → ℝ) σ (List ℝ) → QFn (σ → Fin n → ℝ) σ (List ℝ) → TBatch σ (List ℝ) → Except Err (List ℝ)) (type1 : Bool) (base : σ → Fin n → ℝ) (phi : σ → Fin n → Fin d → ℝ)
    (rows : List (Out σ (Fin n) ℝ)) (θT θQ θ : Fin d → ℝ) : Except Err LossOut :=
  tableLoss L updateRule type1 rows (affineQ base phi θT) (affineQ base phi θQ) (affineQ base phi θ)

/-- `sarsa.update(transition_batch)` with the optimizer `optax.sgd(lr)`, `coax/td_learning/_base.py:60-116`: each param minus the learning rate times the partial derivative of the loss.  The loss of an empty batch is NaN; then
`update` raises `RuntimeError` (line 89). -/
noncomputable def affineUpdateQ (lr : ℝ) (L : LossFn) (updateRule : QFn (σ → Fin n → ℝ) σ (List ℝ) → QFn (σ → Fin n → ℝ) σ (List ℝ) → TBatch σ (List ℝ) → Except Err (List ℝ)) (type1 : Bool) (base : σ → Fin n → ℝ)
    (phi : σ → Fin n → Fin d → ℝ) (θT θ : Fin d → ℝ) (rows : List (Out σ (Fin n) ℝ)) : Except Err (Fin d → ℝ) :=
  match affineLossQ L updateRule type1 base phi rows θT θ θ with
  | .error e => .error e
  | .ok out =>
    if out.loss.isNone then .error .runtimeError
    else .ok fun k => θ k - lr * deriv (fun x => lossValue (affineLossQ L updateRule type1 base phi rows θT θ (setState θ k x))) (θ k)

/-- Updates with a list of batches and `q_targ=None`: the target function is `q` itself, `coax/td_learning/_base.py:27,364-373`, `doc/examples/frozen_lake/sarsa.py:30,51`.  `k` is the number of updates made before; the optimizer is
`optax.sgd` with a schedule of learning rates. -/
noncomputable def affineLearnQ (lr : ℕ → ℝ) (L : LossFn) (updateRule : QFn (σ → Fin n → ℝ) σ (List ℝ) → QFn (σ → Fin n → ℝ) σ (List ℝ) → TBatch σ (List ℝ) → Except Err (List ℝ)) (type1 : Bool) (base : σ → Fin n → ℝ)
    (phi : σ → Fin n → Fin d → ℝ) : ℕ → (Fin d → ℝ) → List (List (Out σ (Fin n) ℝ)) → Except Err (Fin d → ℝ)
  | _, θ, [] => .ok θ
  | k, θ, rows :: bs =>
    match affineUpdateQ (lr k) L updateRule type1 base phi θ θ rows with
    | .error e => .error e
    | .ok θ' => affineLearnQ lr L updateRule type1 base phi (k + 1) θ' bs

/-- Updates with a list of batches, each followed by `q_targ.soft_update(q, tau)`, `doc/examples/cartpole/dqn.py:65-70`.  The params of `q` and `q_targ`. -/
noncomputable def affineLearnTQ (lr : ℕ → ℝ) (tau : ℝ) (L : LossFn) (updateRule : QFn (σ → Fin n → ℝ) σ (List ℝ) → QFn (σ → Fin n → ℝ) σ (List ℝ) → TBatch σ (List ℝ) → Except Err (List ℝ)) (type1 : Bool) (base : σ → Fin n → ℝ)
    (phi : σ → Fin n → Fin d → ℝ) : ℕ → (Fin d → ℝ) × (Fin d → ℝ) → List (List (Out σ (Fin n) ℝ)) → Except Err ((Fin d → ℝ) × (Fin d → ℝ))
  | _, θ, [] => .ok θ
  | k, (θ, θT), rows :: bs =>
    match affineUpdateQ (lr k) L updateRule type1 base phi θT θ rows with
    | .error e => .error e
    | .ok θ' => affineLearnTQ lr tau L updateRule type1 base phi (k + 1) (θ', softV tau θT θ') bs

end Coax.Loop
