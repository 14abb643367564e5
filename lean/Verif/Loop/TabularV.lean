import Verif.Loop.OnlineTarget

/-!
Model of `SimpleTD.update` for a state value function that is a table, with the optimizer `optax.sgd` and a schedule of learning rates, and of the loop of `doc/examples/frozen_lake/a2c.py` around it, over the reals.

The params are one number for each state.  As for q-functions (`Verif.Loop.Tabular`), differentiation by jax is modelled by the derivative of the function that is differentiated, value transforms are the identity and there is
no regularizer.  The update of the policy in the example is left out: the policy is part of the process that produces the steps.
-/

namespace Coax.Loop

open Coax.RewardTracing Coax.TD Coax.Core

variable {σ : Type _} {n : Nat}

/-- `coax.V(func, env)` for a function that is a table: a linear layer without bias on one-hot states, `doc/examples/frozen_lake/a2c.py:14-16,26`. -/
noncomputable def tabularV (θ : σ → ℝ) : VFn (σ → ℝ) σ := ⟨fun θ S => S.map θ, θ, id, id⟩

/-- The fields of a transition batch that `SimpleTD.target_func` reads, `coax/td_learning/_simple_td.py:71-81`; without next states it raises. -/
def toVBatch (rows : List (Out σ (Fin n) ℝ)) : Except Err (TBatch σ Unit) :=
  match rows.mapM (fun o => o.S_next) with
  | some S => .ok { Rn := rows.map (·.Rn), In := rows.map (·.In), S_next := S, A_next := [] }
  | none => .error .typeError

/-- `loss_func` of the updater, `coax/td_learning/_base.py:223-302`, as a function of the params `θ` of `v`; the target function gets the params `θV` of `v` and `θT` of `v_targ` (`target_params`, which are not differentiated,
lines 332-338). -/
noncomputable def tableLossV (L : LossFn) (rows : List (Out σ (Fin n) ℝ)) (θT θV θ : σ → ℝ) : Except Err LossOut :=
  match toVBatch rows with
  | .error e => .error e
  | .ok b => detLoss L none (simpleTD (tabularV θV) (tabularV θT) b) ((rows.map (·.S)).map θ) ((rows.map (·.S)).map θT) (rows.map (·.W))

variable [DecidableEq σ]

/-- The params with one entry changed.  (`coax/td_learning/_base.py:307-309`.) -/
def setState (θ : σ → ℝ) (s : σ) (x : ℝ) : σ → ℝ := fun s' => if s' = s then x else θ s'

/-- `simple_td.update(transition_batch)` with the optimizer `optax.sgd(lr)`, `coax/td_learning/_base.py:60-116`: each param minus the learning rate times the partial derivative of the loss.  The loss of an empty batch is NaN; then
`update` raises `RuntimeError` (line 89). -/
noncomputable def sgdUpdateV (lr : ℝ) (L : LossFn) (θT θ : σ → ℝ) (rows : List (Out σ (Fin n) ℝ)) : Except Err (σ → ℝ) :=
  match tableLossV L rows θT θ θ with
  | .error e => .error e
  | .ok out =>
    if out.loss.isNone then .error .runtimeError
    else .ok fun s => θ s - lr * deriv (fun x => lossValue (tableLossV L rows θT θ (setState θ s x))) (θ s)

omit [DecidableEq σ] in
/-- `v_targ.soft_update(v, tau)`, `coax/_core/base_func.py:88-89,116`. -/
def softV (tau : ℝ) (θT θ : σ → ℝ) : σ → ℝ := fun s => (1 - tau) * θT s + tau * θ s

/-- Updates with a list of batches, each followed by `v_targ.soft_update(v, tau)`, `doc/examples/frozen_lake/a2c.py:56-62`.  `k` is the number of updates made before. -/
noncomputable def learnV (lr : ℕ → ℝ) (L : LossFn) : ℕ → (σ → ℝ) × (σ → ℝ) → List (List (Out σ (Fin n) ℝ) × ℝ) → Except Err ((σ → ℝ) × (σ → ℝ))
  | _, θ, [] => .ok θ
  | k, (θ, θT), (rows, tau) :: bs =>
    match sgdUpdateV (lr k) L θT θ rows with
    | .error e => .error e
    | .ok θ' => learnV lr L (k + 1) (θ', softV tau θT θ') bs

/-- `simple_td.update(transition_batch); v_targ.soft_update(v, tau=0.01)`, `doc/examples/frozen_lake/a2c.py:58-62`.  The params of `v` and `v_targ`. -/
noncomputable def updateV (lr : ℕ → ℝ) (tau : ℝ) (L : LossFn) (k : ℕ) (θ : (σ → ℝ) × (σ → ℝ)) (o : Out σ (Fin n) ℝ) : Except Err ((σ → ℝ) × (σ → ℝ)) :=
  match sgdUpdateV (lr k) L θ.2 θ.1 [o] with
  | .error e => .error e
  | .ok θ' => .ok (θ', softV tau θ.2 θ')

/-- The training loop with a state value function and a target network, `doc/examples/frozen_lake/a2c.py:46-67`. -/
noncomputable def onlineV (lr : ℕ → ℝ) (tau : ℝ) (L : LossFn) : NStep σ (Fin n) ℝ × ((σ → ℝ) × (σ → ℝ)) × ℕ → List (Step σ (Fin n) ℝ × Bool) → Except Err (NStep σ (Fin n) ℝ × ((σ → ℝ) × (σ → ℝ)) × ℕ) :=
  onlineU (updateV lr tau L)

end Coax.Loop
