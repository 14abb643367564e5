import Verif.Core.QTypes
import Verif.Policy.Objectives

/-!
Model of `SuccessorStateQ` (`coax/_core/successor_state_q.py`), for Discrete action spaces, over the reals.

The three function approximators are given by their forward functions, as in `Verif/Core/QTypes.lean`: `p` and `r` of either type, `v` a function of batches of states.  What is done with their
outputs row by row is the function `mean`: for a stochastic function the mean of the distribution (postprocessed for `r` and `v`), for a deterministic one the output itself.  States are the
preprocessed ones, and all three use the same preprocessor.
-/

namespace Coax.Core

open Coax.Pol

variable {σ X Y Z : Type _}

/-- The function approximators and `gamma`, `coax/_core/successor_state_q.py:47-67`.  `f` and `fInv` are the value transform of `v`; `rInv` is the inverse of the value transform
of `r`, which `SuccessorStateQ` does not use. -/
structure SuccessorQ (σ X Y Z : Type _) where
  p : Func σ (List ℝ) X
  pMean : X → σ
  r : Func σ (List ℝ) Y
  rMean : Y → ℝ
  rInv : ℝ → ℝ
  v : List σ → List Z
  vMean : Z → ℝ
  f : ℝ → ℝ
  fInv : ℝ → ℝ
  gamma : ℝ

/-- `f(R + params['gamma'] * f_inv(V))`, `coax/_core/successor_state_q.py:142-143,199-200`. -/
noncomputable def SuccessorQ.combine (q : SuccessorQ σ X Y Z) (R V : List ℝ) : Except Err (List ℝ) := broadcast (fun r v => q.f (r + q.gamma * q.fInv v)) R V

variable [AddCommGroup X] [Module ℝ X] [AddCommGroup Y] [Module ℝ Y]

/-- `function_type1`, `coax/_core/successor_state_q.py:105-154`. -/
noncomputable def SuccessorQ.type1 (n : Nat) (q : SuccessorQ σ X Y Z) (S : List σ) (A : List (List ℝ)) : Except Err (List ℝ) :=
  match functionType1 n q.p S A with
  | .error e => .error e
  | .ok D => match functionType1 n q.r S A with
    | .error e => .error e
    | .ok R => q.combine (R.map q.rMean) ((q.v (D.map q.pMean)).map q.vMean)

/-- `_reshape_to_replicas`, `coax/_core/base_stochastic_func_type1.py:444-451`. -/
def toReplicas {α : Type _} (n : Nat) (rows : List (List α)) : Except Err (List α) :=
  if rows.any (fun r => decide (r.length ≠ n)) then .error .assertionError else .ok rows.flatten

/-- `function_type2`, `coax/_core/successor_state_q.py:156-215`.  (`_reshape_from_replicas`, `coax/_core/base_stochastic_func_type1.py:434-441`, is the function `reshapeRows`.) -/
noncomputable def SuccessorQ.type2 (n : Nat) (q : SuccessorQ σ X Y Z) (S : List σ) : Except Err (List (List ℝ)) :=
  match functionType2 n q.p S with
  | .error e => .error e
  | .ok D => match toReplicas n D with
    | .error e => .error e
    | .ok D => match functionType2 n q.r S with
      | .error e => .error e
      | .ok R => match toReplicas n R with
        | .error e => .error e
        | .ok R => match q.combine (R.map q.rMean) ((q.v (D.map q.pMean)).map q.vMean) with
          | .error e => .error e
          | .ok Q => reshapeRows n Q

/-- `q(s, a)`: `Q.__call__`, `coax/_core/successor_state_q.py:217-243`, `coax/_core/q.py:124-131`. -/
noncomputable def SuccessorQ.callAction (n : Nat) (q : SuccessorQ σ X Y Z) (s : σ) (a : Nat) : Except Err ℝ :=
  match q.type1 n [s] [oneHot n a] with
  | .error e => .error e
  | .ok Q => match Q.map q.fInv with
    | x :: _ => .ok x
    | [] => .error .indexError

/-- `q(s)`, `coax/_core/successor_state_q.py:217-243`, `coax/_core/q.py:124-131`. -/
noncomputable def SuccessorQ.callState (n : Nat) (q : SuccessorQ σ X Y Z) (s : σ) : Except Err (List ℝ) :=
  match q.type2 n [s] with
  | .error e => .error e
  | .ok Q => match Q.map (fun row => row.map q.fInv) with
    | x :: _ => .ok x
    | [] => .error .indexError

end Coax.Core
