import Verif.Loop.TabularV
import Verif.Policy.Regularizers

/-!
Model of `SimpleTD.update` and of the updates of q-functions with a `policy_regularizer`, for tables with the optimizer `optax.sgd`, and of the training loop around them, over the reals.

The policy of the regularizer has discrete actions and its logits are a function of the state.  It is not changed while the values are learned.  The example loops cited below make their updaters without a regularizer; here the updater gets one and the loop is the same.  Everything else is as in
`Verif.Loop.Tabular` and `Verif.Loop.TabularV`.
-/

namespace Coax.Loop

open Coax.RewardTracing Coax.TD Coax.Core Coax.Pol

variable {σ : Type _} {n : Nat}

/-- `policy_regularizer.batch_eval(...)`, `coax/td_learning/_base.py:248-250,404-406`, `coax/regularizers/_base.py:66-87`: the policy is evaluated in the states `transition_batch.S`; `function` is the function of the regularizer. -/
noncomputable def regBatch (logits : σ → Fin n → ℝ) (function : List (List ℝ) → Except Err (List ℝ)) (rows : List (Out σ (Fin n) ℝ)) : Except Err (List ℝ) :=
  baseBatchEval .type2 (.ok (rows.map fun o => (List.finRange n).map (logits o.S))) function

/-- `loss_func` of `SimpleTD` with a regularizer, `coax/td_learning/_base.py:223-302`. -/
noncomputable def tableLossVReg (L : LossFn) (reg : List (Out σ (Fin n) ℝ) → Except Err (List ℝ)) (rows : List (Out σ (Fin n) ℝ)) (θT θV θ : σ → ℝ) : Except Err LossOut :=
  match toVBatch rows with
  | .error e => .error e
  | .ok b => detLoss L (some (reg rows)) (simpleTD (tabularV θV) (tabularV θT) b) ((rows.map (·.S)).map θ) ((rows.map (·.S)).map θT) (rows.map (·.W))

/-- `loss_func` of the updaters of q-functions with a regularizer, `coax/td_learning/_base.py:393-459`. -/
noncomputable def tableLossReg (L : LossFn) (reg : List (Out σ (Fin n) ℝ) → Except Err (List ℝ)) (updateRule : QFn (σ → Fin n → ℝ) σ (List ℝ) → QFn (σ → Fin n → ℝ) σ (List ℝ) → TBatch σ (List ℝ) → Except Err (List ℝ)) (type1 : Bool)
    (rows : List (Out σ (Fin n) ℝ)) (θT θQ θ : σ → Fin n → ℝ) : Except Err LossOut :=
  match toTBatch id (fun a : Fin n => oneHot n a) rows with
  | .error e => .error e
  | .ok b =>
    match functionType1 n (table type1 θ) (rows.map (·.S)) (rows.map fun o => oneHot n o.A), functionType1 n (table type1 θT) (rows.map (·.S)) (rows.map fun o => oneHot n o.A) with
    | .ok Q, .ok QT => detLoss L (some (reg rows)) (updateRule (tabular type1 θQ) (tabular type1 θT) b) Q QT (rows.map (·.W))
    | .error e, _ => .error e
    | _, .error e => .error e

variable [DecidableEq σ]

/-- `simple_td.update(transition_batch)` with a regularizer, `coax/td_learning/_base.py:60-116`. -/
noncomputable def sgdUpdateVReg (lr : ℝ) (L : LossFn) (reg : List (Out σ (Fin n) ℝ) → Except Err (List ℝ)) (θT θ : σ → ℝ) (rows : List (Out σ (Fin n) ℝ)) : Except Err (σ → ℝ) :=
  match tableLossVReg L reg rows θT θ θ with
  | .error e => .error e
  | .ok out =>
    if out.loss.isNone then .error .runtimeError
    else .ok fun s => θ s - lr * deriv (fun x => lossValue (tableLossVReg L reg rows θT θ (setState θ s x))) (θ s)

/-- `qlearning.update(transition_batch)` with a regularizer, `coax/td_learning/_base.py:60-116`. -/
noncomputable def sgdUpdateReg (lr : ℝ) (L : LossFn) (reg : List (Out σ (Fin n) ℝ) → Except Err (List ℝ)) (updateRule : QFn (σ → Fin n → ℝ) σ (List ℝ) → QFn (σ → Fin n → ℝ) σ (List ℝ) → TBatch σ (List ℝ) → Except Err (List ℝ)) (type1 : Bool)
    (θT θ : σ → Fin n → ℝ) (rows : List (Out σ (Fin n) ℝ)) : Except Err (σ → Fin n → ℝ) :=
  match tableLossReg L reg updateRule type1 rows θT θ θ with
  | .error e => .error e
  | .ok out =>
    if out.loss.isNone then .error .runtimeError
    else .ok fun s a => θ s a - lr * deriv (fun x => lossValue (tableLossReg L reg updateRule type1 rows θT θ (setEntry θ s a x))) (θ s a)

/-- `simple_td.update(transition_batch); v_targ.soft_update(v, tau)`, `doc/examples/frozen_lake/a2c.py:58-62`. -/
noncomputable def updateVReg (lr : ℕ → ℝ) (tau : ℝ) (L : LossFn) (reg : List (Out σ (Fin n) ℝ) → Except Err (List ℝ)) (k : ℕ) (θ : (σ → ℝ) × (σ → ℝ)) (o : Out σ (Fin n) ℝ) : Except Err ((σ → ℝ) × (σ → ℝ)) :=
  match sgdUpdateVReg (lr k) L reg θ.2 θ.1 [o] with
  | .error e => .error e
  | .ok θ' => .ok (θ', softV tau θ.2 θ')

/-- `sarsa.update(transition_batch); q_targ.soft_update(q, tau)`, `doc/examples/frozen_lake/double_qlearning.py:53-56`. -/
noncomputable def updateTReg (lr : ℕ → ℝ) (tau : ℝ) (L : LossFn) (reg : List (Out σ (Fin n) ℝ) → Except Err (List ℝ)) (updateRule : QFn (σ → Fin n → ℝ) σ (List ℝ) → QFn (σ → Fin n → ℝ) σ (List ℝ) → TBatch σ (List ℝ) → Except Err (List ℝ)) (type1 : Bool)
    (k : ℕ) (θ : (σ → Fin n → ℝ) × (σ → Fin n → ℝ)) (o : Out σ (Fin n) ℝ) : Except Err ((σ → Fin n → ℝ) × (σ → Fin n → ℝ)) :=
  match sgdUpdateReg (lr k) L reg updateRule type1 θ.2 θ.1 [o] with
  | .error e => .error e
  | .ok θ' => .ok (θ', softTable tau θ.2 θ')

/-- The training loop with a state value function and a regularizer, `doc/examples/frozen_lake/a2c.py:46-67`. -/
noncomputable def onlineVReg (lr : ℕ → ℝ) (tau : ℝ) (L : LossFn) (reg : List (Out σ (Fin n) ℝ) → Except Err (List ℝ)) :
    NStep σ (Fin n) ℝ × ((σ → ℝ) × (σ → ℝ)) × ℕ → List (Step σ (Fin n) ℝ × Bool) → Except Err (NStep σ (Fin n) ℝ × ((σ → ℝ) × (σ → ℝ)) × ℕ) :=
  onlineU (updateVReg lr tau L reg)

/-- The training loop with a q-function and a regularizer, `doc/examples/frozen_lake/double_qlearning.py:41-61`. -/
noncomputable def onlineTReg (lr : ℕ → ℝ) (tau : ℝ) (L : LossFn) (reg : List (Out σ (Fin n) ℝ) → Except Err (List ℝ)) (updateRule : QFn (σ → Fin n → ℝ) σ (List ℝ) → QFn (σ → Fin n → ℝ) σ (List ℝ) → TBatch σ (List ℝ) → Except Err (List ℝ))
    (type1 : Bool) : NStep σ (Fin n) ℝ × ((σ → Fin n → ℝ) × (σ → Fin n → ℝ)) × ℕ → List (Step σ (Fin n) ℝ × Bool) → Except Err (NStep σ (Fin n) ℝ × ((σ → Fin n → ℝ) × (σ → Fin n → ℝ)) × ℕ) :=
  onlineU (updateTReg lr tau L reg updateRule type1)

end Coax.Loop
