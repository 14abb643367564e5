import Verif.Loop.Tabular

/-!
The loops of `Verif.Loop.Tabular` with a learning rate that changes from update to update, `optax.sgd(schedule)`.  The optimizer state contains the number of updates made before; `optax` is not part of the repository.
-/

namespace Coax.Loop

open Coax.RewardTracing Coax.TD Coax.Core

variable {σ : Type _} {n : Nat} [DecidableEq σ]

/-- Updates with a list of batches, each followed by `q_targ.soft_update(q, tau)`, `doc/examples/stubs/dqn.py:64-71`, with the optimizer `optax.sgd(lr)` where `lr` is a schedule (`coax/td_learning/_base.py:60-116`: the optimizer state
is kept from one update to the next).  `k` is the number of updates made before. -/
noncomputable def learnS (lr : ℕ → ℝ) (L : LossFn) (updateRule : QFn (σ → Fin n → ℝ) σ (List ℝ) → QFn (σ → Fin n → ℝ) σ (List ℝ) → TBatch σ (List ℝ) → Except Err (List ℝ)) (type1 : Bool) :
    ℕ → (σ → Fin n → ℝ) × (σ → Fin n → ℝ) → List (List (Out σ (Fin n) ℝ) × ℝ) → Except Err ((σ → Fin n → ℝ) × (σ → Fin n → ℝ))
  | _, θ, [] => .ok θ
  | k, (θ, θT), (rows, tau) :: bs =>
    match sgdUpdate (lr k) L updateRule type1 θT θ rows with
    | .error e => .error e
    | .ok θ' => learnS lr L updateRule type1 (k + 1) (θ', softTable tau θT θ') bs

/-- `while cache: transition_batch = cache.pop(); qlearning.update(transition_batch)`, `doc/examples/stubs/qlearning.py:53-55`, without a target network; with fuel, and `RuntimeError` if it runs out.  The params and the number of updates. -/
noncomputable def learnPopsS (lr : ℕ → ℝ) (L : LossFn) (updateRule : QFn (σ → Fin n → ℝ) σ (List ℝ) → QFn (σ → Fin n → ℝ) σ (List ℝ) → TBatch σ (List ℝ) → Except Err (List ℝ)) (type1 : Bool) :
    Nat → NStep σ (Fin n) ℝ → (σ → Fin n → ℝ) × ℕ → Except Err (NStep σ (Fin n) ℝ × (σ → Fin n → ℝ) × ℕ)
  | 0, _, _ => .error .runtimeError
  | fuel + 1, t, (θ, k) =>
    if t.bool = false then .ok (t, θ, k)
    else
      match t.pop with
      | (_, .error e) => .error e
      | (t', .ok o) =>
        match sgdUpdate (lr k) L updateRule type1 θ θ [o] with
        | .error e => .error e
        | .ok θ' => learnPopsS lr L updateRule type1 fuel t' (θ', k + 1)

/-- The body of the training loop for a sequence of steps, `doc/examples/stubs/qlearning.py:45-61`: `cache.add(s, a, r, done)` and the updates. -/
noncomputable def onlineS (lr : ℕ → ℝ) (L : LossFn) (updateRule : QFn (σ → Fin n → ℝ) σ (List ℝ) → QFn (σ → Fin n → ℝ) σ (List ℝ) → TBatch σ (List ℝ) → Except Err (List ℝ)) (type1 : Bool) :
    NStep σ (Fin n) ℝ × (σ → Fin n → ℝ) × ℕ → List (Step σ (Fin n) ℝ × Bool) → Except Err (NStep σ (Fin n) ℝ × (σ → Fin n → ℝ) × ℕ)
  | s, [] => .ok s
  | (t, θk), (x, d) :: xs =>
    match t.add x d with
    | (_, some e) => .error e
    | (t', none) =>
      match learnPopsS lr L updateRule type1 (t'.len + 1) t' θk with
      | .error e => .error e
      | .ok s => onlineS lr L updateRule type1 s xs

end Coax.Loop
