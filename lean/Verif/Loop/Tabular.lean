import Verif.Loop.Online
import Verif.TD.Loss

/-!
Model of `QLearning.update` for a q-function that is a table, with the optimizer `optax.sgd`, and of the loops around it (`doc/examples/stubs/qlearning.py`, `doc/examples/stubs/dqn.py`), over the reals.

The params are one number for each state and action.  States and actions are discrete and one-hot encoded.  Differentiation by jax is modelled by the derivative of the function that is differentiated;
`optax.sgd` is not part of the repository.  Value transforms are the identity and there is no regularizer.
-/

namespace Coax.Loop

open Coax.RewardTracing Coax.TD Coax.Core

variable {σ : Type _} {n : Nat}

/-- A q-function of type 1 or type 2 that is a table.  Type 1 is `kron` and a linear layer, `doc/examples/frozen_lake/qlearning.py:14-17`, without the bias of the linear layer; type 2 is a linear layer with
`n` outputs, `doc/examples/stubs/qlearning.py:21-24`. -/
noncomputable def table (type1 : Bool) (θ : σ → Fin n → ℝ) : Func σ (List ℝ) ℝ :=
  if type1 then .type1 (List.zipWith fun s A => dot A ((List.finRange n).map (θ s)))
  else .type2 (fun S => S.map fun s => (List.finRange n).map (θ s))

/-- `coax.Q(func, env)` with such a function, `doc/examples/frozen_lake/qlearning.py:21`. -/
noncomputable def tabular (type1 : Bool) (θ : σ → Fin n → ℝ) : QFn (σ → Fin n → ℝ) σ (List ℝ) := ⟨table type1, θ, id, id⟩

/-- `loss_func` of the updater, `coax/td_learning/_base.py:393-459`, as a function of the params `θ` of `q`; the target function gets the params `θQ` of `q` and `θT` of `q_targ` (`target_params`, which are not differentiated, lines 490-495).  `transition_batch` is a list of rows. -/
noncomputable def tableLoss (L : LossFn) (updateRule : QFn (σ → Fin n → ℝ) σ (List ℝ) → QFn (σ → Fin n → ℝ) σ (List ℝ) → TBatch σ (List ℝ) → Except Err (List ℝ)) (type1 : Bool) (rows : List (Out σ (Fin n) ℝ))
    (θT θQ θ : σ → Fin n → ℝ) : Except Err LossOut :=
  match toTBatch id (fun a : Fin n => oneHot n a) rows with
  | .error e => .error e
  | .ok b =>
    match functionType1 n (table type1 θ) (rows.map (·.S)) (rows.map fun o => oneHot n o.A), functionType1 n (table type1 θT) (rows.map (·.S)) (rows.map fun o => oneHot n o.A) with
    | .ok Q, .ok QT => detLoss L none (updateRule (tabular type1 θQ) (tabular type1 θT) b) Q QT (rows.map (·.W))
    | .error e, _ => .error e
    | _, .error e => .error e

/-- The value of the loss as a function of the params that `jax.grad` differentiates, `coax/td_learning/_base.py:465-466`. -/
noncomputable def lossValue (r : Except Err LossOut) : ℝ :=
  match r with
  | .ok ⟨some x, _, _, _⟩ => x
  | _ => 0

variable [DecidableEq σ]

/-- The params with one entry changed.  (`coax/td_learning/_base.py:465-466`.) -/
def setEntry (θ : σ → Fin n → ℝ) (s : σ) (a : Fin n) (x : ℝ) : σ → Fin n → ℝ := fun s' a' => if s' = s ∧ a' = a then x else θ s' a'

/-- `qlearning.update(transition_batch)` with the optimizer `optax.sgd(lr)`, `coax/td_learning/_base.py:60-116`: each param minus the learning rate times the partial derivative of the loss.  The loss of an empty batch is NaN; then
`update` raises `RuntimeError` (line 89). -/
noncomputable def sgdUpdate (lr : ℝ) (L : LossFn) (updateRule : QFn (σ → Fin n → ℝ) σ (List ℝ) → QFn (σ → Fin n → ℝ) σ (List ℝ) → TBatch σ (List ℝ) → Except Err (List ℝ)) (type1 : Bool)
    (θT θ : σ → Fin n → ℝ) (rows : List (Out σ (Fin n) ℝ)) : Except Err (σ → Fin n → ℝ) :=
  match tableLoss L updateRule type1 rows θT θ θ with
  | .error e => .error e
  | .ok out =>
    if out.loss.isNone then .error .runtimeError
    else .ok fun s a => θ s a - lr * deriv (fun x => lossValue (tableLoss L updateRule type1 rows θT θ (setEntry θ s a x))) (θ s a)

omit [DecidableEq σ] in
/-- `q_targ.soft_update(q, tau)`, `coax/_core/base_func.py:88-89,116`. -/
def softTable (tau : ℝ) (θT θ : σ → Fin n → ℝ) : σ → Fin n → ℝ := fun s a => (1 - tau) * θT s a + tau * θ s a

/-- Updates with a list of batches, each followed by `q_targ.soft_update(q, tau)`, `doc/examples/stubs/dqn.py:64-71`; `tau = 0` where the target network is not updated.  (If the updater has no target network, then `q_targ` is
`q` itself, `coax/td_learning/_base.py:27`, which is `tau = 1`.)  The params of `q` and `q_targ`. -/
noncomputable def learn (lr : ℝ) (L : LossFn) (updateRule : QFn (σ → Fin n → ℝ) σ (List ℝ) → QFn (σ → Fin n → ℝ) σ (List ℝ) → TBatch σ (List ℝ) → Except Err (List ℝ)) (type1 : Bool) :
    (σ → Fin n → ℝ) × (σ → Fin n → ℝ) → List (List (Out σ (Fin n) ℝ) × ℝ) → Except Err ((σ → Fin n → ℝ) × (σ → Fin n → ℝ))
  | θ, [] => .ok θ
  | (θ, θT), (rows, tau) :: bs =>
    match sgdUpdate lr L updateRule type1 θT θ rows with
    | .error e => .error e
    | .ok θ' => learn lr L updateRule type1 (θ', softTable tau θT θ') bs

/-- `while cache: transition_batch = cache.pop(); qlearning.update(transition_batch)`, `doc/examples/stubs/qlearning.py:53-55`, without a target network; with fuel, and `RuntimeError` if it runs out. -/
noncomputable def learnPops (lr : ℝ) (L : LossFn) (updateRule : QFn (σ → Fin n → ℝ) σ (List ℝ) → QFn (σ → Fin n → ℝ) σ (List ℝ) → TBatch σ (List ℝ) → Except Err (List ℝ)) (type1 : Bool) :
    Nat → NStep σ (Fin n) ℝ → (σ → Fin n → ℝ) → Except Err (NStep σ (Fin n) ℝ × (σ → Fin n → ℝ))
  | 0, _, _ => .error .runtimeError
  | fuel + 1, t, θ =>
    if t.bool = false then .ok (t, θ)
    else
      match t.pop with
      | (_, .error e) => .error e
      | (t', .ok o) =>
        match sgdUpdate lr L updateRule type1 θ θ [o] with
        | .error e => .error e
        | .ok θ' => learnPops lr L updateRule type1 fuel t' θ'

/-- The body of the training loop for a sequence of steps, `doc/examples/stubs/qlearning.py:45-61`: `cache.add(s, a, r, done)` and the updates. -/
noncomputable def online (lr : ℝ) (L : LossFn) (updateRule : QFn (σ → Fin n → ℝ) σ (List ℝ) → QFn (σ → Fin n → ℝ) σ (List ℝ) → TBatch σ (List ℝ) → Except Err (List ℝ)) (type1 : Bool) :
    NStep σ (Fin n) ℝ × (σ → Fin n → ℝ) → List (Step σ (Fin n) ℝ × Bool) → Except Err (NStep σ (Fin n) ℝ × (σ → Fin n → ℝ))
  | s, [] => .ok s
  | (t, θ), (x, d) :: xs =>
    match t.add x d with
    | (_, some e) => .error e
    | (t', none) =>
      match learnPops lr L updateRule type1 (t'.len + 1) t' θ with
      | .error e => .error e
      | .ok s => online lr L updateRule type1 s xs

end Coax.Loop
