import Verif.Loop.Schedule

/-!
The online loop with a target network, `doc/examples/frozen_lake/double_qlearning.py:41-61`, for a table and `optax.sgd` with a schedule of learning rates (the example uses `optax.adam`, which is not part of the repository).
-/

namespace Coax.Loop

open Coax.RewardTracing Coax.TD Coax.Core

variable {σ : Type _} {n : Nat}

/-- `while tracer: transition_batch = tracer.pop(); ...`, `doc/examples/frozen_lake/double_qlearning.py:51-56`, `doc/examples/frozen_lake/a2c.py:56-62`, where `update` is the rest of the body; with fuel, and `RuntimeError` if it runs out.
`k` counts the updates. -/
noncomputable def learnPopsU {Θ : Type _} (update : ℕ → Θ → Out σ (Fin n) ℝ → Except Err Θ) : Nat → NStep σ (Fin n) ℝ → Θ × ℕ → Except Err (NStep σ (Fin n) ℝ × Θ × ℕ)
  | 0, _, _ => .error .runtimeError
  | fuel + 1, t, (θ, k) =>
    if t.bool = false then .ok (t, θ, k)
    else
      match t.pop with
      | (_, .error e) => .error e
      | (t', .ok o) =>
        match update k θ o with
        | .error e => .error e
        | .ok θ' => learnPopsU update fuel t' (θ', k + 1)

/-- The body of the training loop for a sequence of steps, `doc/examples/frozen_lake/double_qlearning.py:41-61`, `doc/examples/frozen_lake/a2c.py:46-67`: `tracer.add(s, a, r, done)` and the updates. -/
noncomputable def onlineU {Θ : Type _} (update : ℕ → Θ → Out σ (Fin n) ℝ → Except Err Θ) : NStep σ (Fin n) ℝ × Θ × ℕ → List (Step σ (Fin n) ℝ × Bool) → Except Err (NStep σ (Fin n) ℝ × Θ × ℕ)
  | s, [] => .ok s
  | (t, θk), (x, d) :: xs =>
    match t.add x d with
    | (_, some e) => .error e
    | (t', none) =>
      match learnPopsU update (t'.len + 1) t' θk with
      | .error e => .error e
      | .ok s => onlineU update s xs

variable [DecidableEq σ]

/-- `qlearning.update(transition_batch); q_targ.soft_update(q, tau=0.1)`, `doc/examples/frozen_lake/double_qlearning.py:53-56`.  The params of `q` and `q_targ`. -/
noncomputable def updateT (lr : ℕ → ℝ) (tau : ℝ) (L : LossFn) (updateRule : QFn (σ → Fin n → ℝ) σ (List ℝ) → QFn (σ → Fin n → ℝ) σ (List ℝ) → TBatch σ (List ℝ) → Except Err (List ℝ)) (type1 : Bool)
    (k : ℕ) (θ : (σ → Fin n → ℝ) × (σ → Fin n → ℝ)) (o : Out σ (Fin n) ℝ) : Except Err ((σ → Fin n → ℝ) × (σ → Fin n → ℝ)) :=
  match sgdUpdate (lr k) L updateRule type1 θ.2 θ.1 [o] with
  | .error e => .error e
  | .ok θ' => .ok (θ', softTable tau θ.2 θ')

/-- The training loop with a q-function and a target network, `doc/examples/frozen_lake/double_qlearning.py:41-61`. -/
noncomputable def onlineT (lr : ℕ → ℝ) (tau : ℝ) (L : LossFn) (updateRule : QFn (σ → Fin n → ℝ) σ (List ℝ) → QFn (σ → Fin n → ℝ) σ (List ℝ) → TBatch σ (List ℝ) → Except Err (List ℝ)) (type1 : Bool) :
    NStep σ (Fin n) ℝ × ((σ → Fin n → ℝ) × (σ → Fin n → ℝ)) × ℕ → List (Step σ (Fin n) ℝ × Bool) → Except Err (NStep σ (Fin n) ℝ × ((σ → Fin n → ℝ) × (σ → Fin n → ℝ)) × ℕ) :=
  onlineU (updateT lr tau L updateRule type1)

end Coax.Loop
