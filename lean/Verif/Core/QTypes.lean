import Verif.Err
import Mathlib.Data.Real.Basic
import Mathlib.Algebra.Module.Basic
import Mathlib.Algebra.BigOperators.Group.List.Basic

/-!
Model of the two views of functions of a state and a discrete action: `Q.function_type1`, `Q.function_type2`
(`coax/_core/q.py:133-190`) and the same properties of `BaseStochasticFuncType1`
(`coax/_core/base_stochastic_func_type1.py:100-177`).

A batch is a list.  The forward function is an arbitrary function of batches.  One entry of its output is an element of a
real vector space `V`: `ℝ` for `Q`; for the stochastic functions each leaf of the distribution parameters is handled on its own
(`jax.tree_map`), an entry being an array.  Params, function state, rng and `is_training` are fixed.  The action
preprocessor is the default one, one-hot encoding.
-/

namespace Coax.Core

variable {σ α V : Type _}

/-- The forward function with its `modeltype`.  (`coax/_core/q.py:192-207,276-281`.) -/
inductive Func (σ α V : Type _) where
  | type1 (f : List σ → List α → List V)
  | type2 (f : List σ → List (List V))

/-- The one-hot encoding of a discrete action.  (`coax/_core/q.py:180-184`.) -/
noncomputable def oneHot (n a : Nat) : List ℝ := (List.range n).map (fun k => if k = a then 1 else 0)

variable [AddCommGroup V] [Module ℝ V]

/-- `jnp.dot` of a weight vector with a list of entries.  (`coax/_core/q.py:150`.) -/
noncomputable def dot (A : List ℝ) (q : List V) : V := (List.zipWith (fun w x => w • x) A q).sum

/-- `function_type1`, `coax/_core/q.py:133-153`, `coax/_core/base_stochastic_func_type1.py:100-131`.  The second error is the
assertion of the stochastic functions; for `Q` jax raises. -/
noncomputable def functionType1 (n : Nat) (F : Func σ (List ℝ) V) (S : List σ) (A : List (List ℝ)) : Except Err (List V) :=
  match F with
  | .type1 f => .ok (f S A)
  | .type2 f =>
    if A.any (fun a => decide (a.length ≠ n)) then .error .assertionError
    else
      let Q_s := f S
      if Q_s.length ≠ A.length ∨ Q_s.any (fun q => decide (q.length ≠ n)) then .error .assertionError
      else .ok (List.zipWith dot A Q_s)

/-- `jnp.repeat(x, n, axis=0)`, `coax/_core/q.py:179`. -/
def repeatRows (n : Nat) (S : List σ) : List σ := S.flatMap (fun s => List.replicate n s)

/-- `jnp.tile(jnp.arange(n), batch_size)`, `coax/_core/q.py:180`. -/
def tileActions (n batchSize : Nat) : List Nat := (List.replicate batchSize (List.range n)).flatten

/-- `reshape(-1, n)`, `coax/_core/q.py:186`, `coax/_core/base_stochastic_func_type1.py:150-157`: `AssertionError` in the latter if
the size is not a multiple of `n` (in the former jax raises). -/
def reshapeRows (n : Nat) (xs : List V) : Except Err (List (List V)) :=
  if xs.length % n ≠ 0 then .error .assertionError
  else .ok ((List.range (xs.length / n)).map (fun b => (xs.drop (b * n)).take n))

/-- `function_type2`, `coax/_core/q.py:155-190`, `coax/_core/base_stochastic_func_type1.py:133-177`. -/
noncomputable def functionType2 (n : Nat) (F : Func σ (List ℝ) V) (S : List σ) : Except Err (List (List V)) :=
  match F with
  | .type2 f => .ok (f S)
  | .type1 f => reshapeRows n (f (repeatRows n S) ((tileActions n S.length).map (oneHot n)))

/-- `Q.__call__(s, a)` and `Q.__call__(s)`, `coax/_core/q.py:98-131`: the batch has one row, the result is transformed back. -/
noncomputable def callAction (n : Nat) (F : Func σ (List ℝ) ℝ) (inverse : ℝ → ℝ) (s : σ) (a : Nat) : Except Err ℝ :=
  match functionType1 n F [s] [oneHot n a] with
  | .error e => .error e
  | .ok Q => match Q.map inverse with
    | x :: _ => .ok x
    | [] => .error .indexError

/-- `Q.__call__(s)`, `coax/_core/q.py:98-131`. -/
noncomputable def callState (n : Nat) (F : Func σ (List ℝ) ℝ) (inverse : ℝ → ℝ) (s : σ) : Except Err (List ℝ) :=
  match functionType2 n F [s] with
  | .error e => .error e
  | .ok Q => match Q.map (fun row => row.map inverse) with
    | x :: _ => .ok x
    | [] => .error .indexError

end Coax.Core
