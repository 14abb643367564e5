import Verif.TD.Targets
import Verif.Dists.Interval
import Mathlib.Algebra.Module.Pi
import Mathlib.Algebra.Module.Prod

/-!
Model of the target functions of the TD updaters for distributional value functions, `StochasticV` and `StochasticQ` (`coax/td_learning/`), over the reals.

`D` are the distribution parameters of one row, an element of a real vector space (the leaves side by side): logits for a discretized interval, values and
quantile fractions for an empirical quantile distribution.  As in `Verif.TD.Targets` random number keys are left out, the observations are already preprocessed,
and all arrays of a batch must have the same number of rows.  `none` stands for NaN.
-/

namespace Coax.TD

open Coax.Core

variable {P σ α D : Type _}

/-- What the updaters use of a distribution: `postprocess_variate(mean(dist_params), batch_mode=True)` and `affine_transform(dist_params, scale, shift, (f, f_inv))`, for one row.  (`coax/td_learning/_base.py:260-261,272-275,516-518`.) -/
structure ReturnDist (D : Type _) where
  mean : D → ℝ
  affine : (scale shift : ℝ) → (f fInv : ℝ → ℝ) → D → Option D

/-- `DiscretizedIntervalDist`, `coax/proba_dists/_discretized_interval.py:69-119,150-159`; see `Verif.Dists.Interval`. -/
noncomputable def intervalDist {k : Nat} (hk : 0 < k) (low high : ℝ) : ReturnDist (Fin k → ℝ) where
  mean := Dists.intervalMean low high
  affine scale shift f fInv logits := Dists.affineTransform hk low high logits scale shift f fInv

/-- `EmpiricalQuantileDist`, `coax/proba_dists/_empirical_quantile.py:27-29,41-65`; variates are not postprocessed (`coax/proba_dists/_base.py:301`).  A row consists of the
values and the quantile fractions. -/
noncomputable def quantileDist (k : Nat) : ReturnDist ((Fin k → ℝ) × (Fin k → ℝ)) where
  mean d := (∑ i, d.1 i) / k
  affine scale shift f fInv d := some (fun i => f (shift + scale * fInv (d.1 i)), d.2)

/-- A `StochasticQ` (`coax/_core/stochastic_q.py:79-82`). -/
structure SQFn (P σ α D : Type _) where
  forward : P → Func σ α D
  params : P
  dist : ReturnDist D
  transform : ℝ → ℝ
  inverse : ℝ → ℝ

/-- A `StochasticV` (`coax/_core/stochastic_v.py:66-68`). -/
structure SVFn (P σ D : Type _) where
  forward : P → List σ → List D
  params : P
  dist : ReturnDist D
  transform : ℝ → ℝ
  inverse : ℝ → ℝ

/-- `affine_transform(dist_params_next, In, Rn, value_transform)` for a batch, `coax/td_learning/_base.py:356-360,513-518`. -/
noncomputable def affineRows (dist : ReturnDist D) (f fInv : ℝ → ℝ) (b : TBatch σ α) (ds : List D) : Except Err (List (Option D)) :=
  if b.Rn.length = ds.length ∧ b.In.length = ds.length then
    .ok (List.zipWith (fun ri d => dist.affine ri.2 ri.1 f fInv d) (b.Rn.zip b.In) ds)
  else .error .assertionError

/-- `_get_target_dist_params` once the next distributions are there, `coax/td_learning/_base.py:504-518`. -/
noncomputable def targetDist (qTarg : SQFn P σ α D) (b : TBatch σ α) : Except Err (List D) → Except Err (List (Option D))
  | .error e => .error e
  | .ok ds => affineRows qTarg.dist qTarg.transform qTarg.inverse b ds

/-- `SimpleTD.target_func` for a `StochasticV`, `coax/td_learning/_simple_td.py:71-77`, `coax/td_learning/_base.py:347-360`. -/
noncomputable def stochSimpleTD (vTarg : SVFn P σ D) (b : TBatch σ α) : Except Err (List (Option D)) :=
  affineRows vTarg.dist vTarg.transform vTarg.inverse b (vTarg.forward vTarg.params b.S_next)

/-- A type-1 function for any action space; type-2 functions only exist for discrete actions.  (`coax/_core/base_stochastic_func_type1.py:100-131`.) -/
def evalDist (F : Func σ α D) (S : List σ) (A : List α) : Except Err (List D) :=
  match F with
  | .type1 f => .ok (f S A)
  | .type2 _ => .error .assertionError

section
variable [AddCommGroup D] [Module ℝ D]

/-- `Sarsa.target_func` for a `StochasticQ`, `coax/td_learning/_sarsa.py:69-76`, for discrete actions. -/
noncomputable def stochSarsa (n : Nat) (qTarg : SQFn P σ (List ℝ) D) (b : TBatch σ (List ℝ)) : Except Err (List (Option D)) :=
  targetDist qTarg b (functionType1 n (qTarg.forward qTarg.params) b.S_next b.A_next)

/-- `mean_func_type2` and `postprocess_variate(·, batch_mode=True)`, `coax/_core/base_stochastic_func_type1.py:358-377`. -/
noncomputable def meanType2 (n : Nat) (q : SQFn P σ (List ℝ) D) (S : List σ) : Except Err (List (List ℝ)) :=
  match functionType2 n (q.forward q.params) S with
  | .error e => .error e
  | .ok ds => if ds.any (fun r => decide (r.length ≠ n)) then .error .assertionError else .ok (ds.map (fun r => r.map q.dist.mean))

/-- `QLearning.target_func` for a `StochasticQ`, `coax/td_learning/_qlearning.py:111-142`, for discrete actions. -/
noncomputable def stochQLearning (n : Nat) (qTarg : SQFn P σ (List ℝ) D) (b : TBatch σ (List ℝ)) : Except Err (List (Option D)) :=
  match meanType2 n qTarg b.S_next with
  | .error e => .error e
  | .ok Q_s => match greedy n Q_s with
    | .error e => .error e
    | .ok A => targetDist qTarg b (functionType1 n (qTarg.forward qTarg.params) b.S_next A)

/-- `DoubleQLearning.target_func` for a `StochasticQ`, `coax/td_learning/_doubleqlearning.py:99-130`, for discrete actions: the params of `q` in the forward function of `q_targ`. -/
noncomputable def stochDoubleQLearning (n : Nat) (q qTarg : SQFn P σ (List ℝ) D) (b : TBatch σ (List ℝ)) : Except Err (List (Option D)) :=
  match meanType2 n qTarg b.S_next with
  | .error e => .error e
  | .ok Q_s => match greedy n Q_s with
    | .error e => .error e
    | .ok A => targetDist qTarg b (functionType1 n (qTarg.forward q.params) b.S_next A)

/-- `ExpectedSarsa.target_func` for a `StochasticQ`, `coax/td_learning/_expectedsarsa.py:100-114`; `logits` is the output of `pi_targ`. -/
noncomputable def stochExpectedSarsa (n : Nat) (logits : List σ → List (List ℝ)) (qTarg : SQFn P σ (List ℝ) D) (b : TBatch σ (List ℝ)) : Except Err (List (Option D)) :=
  targetDist qTarg b (functionType1 n (qTarg.forward qTarg.params) b.S_next ((logits b.S_next).map softmax))

end

/-- `QLearning.target_func` for other action spaces, `coax/td_learning/_qlearning.py:131-142`; `mode` is `pi_targ.mode_func`. -/
noncomputable def stochQLearningCont (mode : List σ → List α) (qTarg : SQFn P σ α D) (b : TBatch σ α) : Except Err (List (Option D)) :=
  targetDist qTarg b (evalDist (qTarg.forward qTarg.params) b.S_next (mode b.S_next))

/-- `DoubleQLearning.target_func` for other action spaces, `coax/td_learning/_doubleqlearning.py:119-130`. -/
noncomputable def stochDoubleQLearningCont (mode : List σ → List α) (q qTarg : SQFn P σ α D) (b : TBatch σ α) : Except Err (List (Option D)) :=
  targetDist qTarg b (evalDist (qTarg.forward q.params) b.S_next (mode b.S_next))

/-- `jnp.argmin`: the first position of the least entry (`ValueError` if there is none).  (`coax/td_learning/_clippeddoubleqlearning.py:301`.) -/
noncomputable def argmin (l : List ℝ) : Except Err Nat :=
  match l.min? with
  | none => .error .valueError
  | some m => .ok (l.idxOf m)

/-- The rest of `ClippedDoubleQLearning.target_func` for a `StochasticQ`, `coax/td_learning/_clippeddoubleqlearning.py:294-328`, once the lists `A_next_list` and `Q_sa_next_list` are
there, here as one list of pairs.  For each row, on its own (`jax.vmap`): the pair with the least value, at position `k`, the params of the target q-function at position
`k % len(q_targ_list)`, and the forward function and value transform of `self.q` with these params.  (The params are tiled first, but only the first copy is used.) -/
noncomputable def clippedSelect (evalRow : Func σ α D → List σ → List α → Except Err (List D)) (q : SQFn P σ α D) (qs : List (SQFn P σ α D))
    (pairs : List (List α × List ℝ)) (b : TBatch σ α) : Except Err (List (Option D)) :=
  (List.range b.S_next.length).mapM (fun r => (do
    let vals ← pairs.mapM (fun p => match p.2[r]? with | some x => .ok x | none => .error Err.valueError)
    let k ← argmin vals
    match pairs[k]?, qs[k % qs.length]?, b.S_next[r]?, b.Rn[r]?, b.In[r]? with
    | some p, some qj, some s, some rn, some inn => match p.1[r]? with
      | none => .error .valueError
      | some a => match evalRow (q.forward qj.params) [s] [a] with
        | .error e => .error e
        | .ok [d] => .ok (q.dist.affine inn rn q.transform q.inverse d)
        | .ok _ => .error .valueError
    | _, _, _, _, _ => .error .valueError : Except Err (Option D)))

/-- The inner loop, `coax/td_learning/_clippeddoubleqlearning.py:252-265,280-293`: given actions, and their values by all target q-functions. -/
noncomputable def clippedInner (eval : Func σ α D → List σ → List α → Except Err (List D)) (qs : List (SQFn P σ α D)) (S : List σ) (A : List α) :
    Except Err (List (List α × List ℝ)) :=
  qs.mapM (fun q => (eval (q.forward q.params) S A).map (fun ds => (A, ds.map (fun d => q.inverse (q.dist.mean d)))))

/-- The nested loops, `coax/td_learning/_clippeddoubleqlearning.py:238-265`: the outer index is the q-function that chose the actions. -/
noncomputable def clippedPairs [AddCommGroup D] [Module ℝ D] (n : Nat) (qs : List (SQFn P σ (List ℝ) D)) (S : List σ) : Except Err (List (List (List (List ℝ) × List ℝ))) :=
  qs.mapM (fun qi => (match meanType2 n qi S with
    | .error e => .error e
    | .ok Q_s => match Q_s.mapM greedyRow with
      | .error e => .error e
      | .ok A => clippedInner (functionType1 n) qs S A : Except Err (List (List (List ℝ) × List ℝ))))

/-- `ClippedDoubleQLearning.target_func` for a `StochasticQ`, `coax/td_learning/_clippeddoubleqlearning.py:229-328`, for discrete actions. -/
noncomputable def stochClippedDoubleQ [AddCommGroup D] [Module ℝ D] (n : Nat) (q : SQFn P σ (List ℝ) D) (qs : List (SQFn P σ (List ℝ) D)) (b : TBatch σ (List ℝ)) :
    Except Err (List (Option D)) :=
  match clippedPairs n qs b.S_next with
  | .error e => .error e
  | .ok pairs => clippedSelect (functionType1 n) q qs pairs.flatten b

/-- The same for other action spaces, `coax/td_learning/_clippeddoubleqlearning.py:267-328`; `modes` are the actions of the target policies (samples for
`SoftClippedDoubleQLearning`). -/
noncomputable def stochClippedDoubleQCont (modes : List (List σ → List α)) (q : SQFn P σ α D) (qs : List (SQFn P σ α D)) (b : TBatch σ α) : Except Err (List (Option D)) :=
  match modes.mapM (fun mode => clippedInner evalDist qs b.S_next (mode b.S_next)) with
  | .error e => .error e
  | .ok pairs => clippedSelect evalDist q qs pairs.flatten b

end Coax.TD
