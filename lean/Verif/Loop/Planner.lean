import Verif.Loop.Acting
import Verif.Loop.TabularV
import Verif.Core.Successor

/-!
The loop of `doc/examples/cartpole/model_based.py:54-72`: a state value function is learned with `SimpleTD`, and the policy is a value-based one on `SuccessorStateQ`, which looks one step ahead with a transition model and a reward function.

States are one-hot vectors over finitely many states: `σ` for those in which actions are taken and `κ` for those in which an episode has ended.  The value function is linear, so its params are one number for each state of either kind.  The
transition model and the reward function are not updated: `model_updater.update` (line 67) is left out.  No value transforms.
-/

namespace Coax.Loop

open Coax.RewardTracing Coax.TD Coax.Core

variable {σ κ U : Type _} {n : Nat}

/-- A state as a one-hot vector, which is what `default_preprocessor` gives for Discrete spaces, `coax/utils/_array.py:326-330`. -/
def oneHotState {τ : Type _} [DecidableEq τ] (s : τ) : τ → ℝ := fun s' => if s' = s then 1 else 0

/-- `coax.V(func_v, env, ...)` where `func_v` is a linear layer without bias, on vectors, `doc/examples/cartpole/model_based.py:17-19,33`. -/
def linearV {τ : Type _} [Fintype τ] (θ : τ → ℝ) (S : List (τ → ℝ)) : List ℝ := S.map fun x => ∑ s, x s * θ s

/-- `q = coax.SuccessorStateQ(v, p, r, gamma=0.9)`, `doc/examples/cartpole/model_based.py:32-38`.  `p` and `r` are deterministic functions on vectors, of either type. -/
def planner [Fintype σ] [Fintype κ] (p : Func (σ ⊕ κ → ℝ) (List ℝ) (σ ⊕ κ → ℝ)) (r : Func (σ ⊕ κ → ℝ) (List ℝ) ℝ) (gamma : ℝ) (θ : σ ⊕ κ → ℝ) : SuccessorQ (σ ⊕ κ → ℝ) (σ ⊕ κ → ℝ) ℝ ℝ :=
  { p := p, pMean := id, r := r, rMean := id, rInv := id, v := linearV θ, vMean := id, f := id, fInv := id, gamma := gamma }

/-- `a = pi(s)` with a value-based policy on the planner, `doc/examples/cartpole/model_based.py:39,59`: `sel` is the policy as a function of the row of q-values, which are those of `function_type2` (`coax/_core/value_based_policy.py:34-44`; an
output of another shape raises). -/
noncomputable def lookahead [Fintype σ] [Fintype κ] [DecidableEq σ] [DecidableEq κ] (p : Func (σ ⊕ κ → ℝ) (List ℝ) (σ ⊕ κ → ℝ)) (r : Func (σ ⊕ κ → ℝ) (List ℝ) ℝ) (gamma : ℝ) (sel : ℕ → (Fin n → ℝ) → U → Option (Fin n)) :
    ℕ → (σ ⊕ κ → ℝ) → σ → U → Option (Fin n) := fun ep θ s u =>
  match (planner p r gamma θ).type2 n [oneHotState (.inl s)] with
  | .ok [row] => if h : row.length = n then sel ep (fun a => row[a]) u else none
  | _ => none

/-- A transition as one between states of both kinds.  (`doc/examples/cartpole/model_based.py:63-65`; the tracer does not get `s_next`, so states in which an episode has ended do not occur in transitions.) -/
def Out.embed (o : Out σ (Fin n) ℝ) : Out (σ ⊕ κ) (Fin n) ℝ := ⟨.inl o.S, o.A, o.logP, o.Rn, o.In, o.S_next.map .inl, o.A_next, o.logP_next, o.W, o.idx, none⟩

/-- `simple_td.update(transition_batch)`, with `v_targ=None`, `doc/examples/cartpole/model_based.py:48,66`. -/
noncomputable def updateSimple [DecidableEq σ] [DecidableEq κ] (lr : ℕ → ℝ) (L : LossFn) (k : ℕ) (θ : σ ⊕ κ → ℝ) (o : Out σ (Fin n) ℝ) : Except Err (σ ⊕ κ → ℝ) := sgdUpdateV (lr k) L θ θ [Out.embed o]

end Coax.Loop
