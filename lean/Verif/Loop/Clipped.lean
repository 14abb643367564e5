import Verif.Loop.Schedule

/-!
Model of the loop around `ClippedDoubleQLearning` with two q-functions that are tables, two target networks and a coin that decides which q-function is updated, `doc/examples/frozen_lake/td3.py`.

The optimizer of each updater is `optax.sgd` with a schedule; each optimizer counts its own updates.  The policy does not enter the targets if actions are discrete (`coax/td_learning/_clippeddoubleqlearning.py:233-264`), and where the
transitions come from is left open; so the policy and its updates are not part of the model.
-/

namespace Coax.Loop

open Coax.RewardTracing Coax.TD Coax.Core

variable {σ : Type _} {n : Nat} [DecidableEq σ]

/-- The target function of either updater: `q_targ_list=[q1_targ, q2_targ]`, `doc/examples/frozen_lake/td3.py:44-47`, `coax/td_learning/_clippeddoubleqlearning.py:229-333`.  The params of `q1_targ` are `θT true`, those of `q2_targ` are `θT false`. -/
noncomputable def clippedRule (type1 : Bool) (θT : Bool → σ → Fin n → ℝ) (q : QFn (σ → Fin n → ℝ) σ (List ℝ)) (b : TBatch σ (List ℝ)) : Except Err (List ℝ) :=
  clippedDoubleQ n q [tabular type1 (θT true), tabular type1 (θT false)] b

/-- Updates of one of two q-functions with a list of batches, `doc/examples/frozen_lake/td3.py:71-80`: the coin decides between `qlearning1` (true) and `qlearning2`, then both target networks are updated by `soft_update`.  `k i` is the number of
updates that updater `i` has made before, by which its optimizer finds the learning rate (`coax/td_learning/_base.py:60-116`).  The loss function (`coax/td_learning/_clippeddoubleqlearning.py:119-190`) differs from that of the other updaters only in
the target-network estimate for the metrics (lines 170-183), which is that of `q1_targ` here.  The params of the q-functions and of the target networks. -/
noncomputable def learnC (lr : ℕ → ℝ) (L : LossFn) (type1 : Bool) :
    (Bool → ℕ) → (Bool → σ → Fin n → ℝ) × (Bool → σ → Fin n → ℝ) → List (Bool × List (Out σ (Fin n) ℝ) × ℝ) → Except Err ((Bool → σ → Fin n → ℝ) × (Bool → σ → Fin n → ℝ))
  | _, θ, [] => .ok θ
  | k, (θ, θT), (coin, rows, tau) :: bs =>
    match sgdUpdate (lr (k coin)) L (fun q _ => clippedRule type1 θT q) type1 (θT true) (θ coin) rows with
    | .error e => .error e
    | .ok θ' =>
      let θs : Bool → σ → Fin n → ℝ := fun i => if i = coin then θ' else θ i
      learnC lr L type1 (fun i => if i = coin then k i + 1 else k i) (θs, fun i => softTable tau (θT i) (θs i)) bs

end Coax.Loop
