import Verif.TD.Stochastic

/-!
Model of what `StochasticQ` returns when called: `mean` and `dist_params` (`coax/_core/base_stochastic_func_type1.py:59-98`, which `coax/_core/stochastic_q.py` uses as they are).  The batch
has one row.  For `StochasticV` see `callMeanV`.
-/

namespace Coax.TD

open Coax.Core

variable {P σ D : Type _}

/-- `postprocess_variate(rng, X, index=index)` on a batch of means: which entry is returned.  (`coax/_core/base_stochastic_func_type1.py:65,69`.) -/
abbrev Pick := List ℝ → Nat → Option ℝ

/-- `DiscretizedIntervalDist.postprocess_variate`, `coax/proba_dists/_discretized_interval.py:150-159`. -/
def intervalPick : Pick := fun X index => X[index]?

/-- `EmpiricalQuantileDist` has the method of the base class, `coax/proba_dists/_base.py:264-301`, which does not use `index`. -/
def quantilePick : Pick := fun X _ => X[0]?

variable [AddCommGroup D] [Module ℝ D]

/-- `mean(s, a)`, `coax/_core/base_stochastic_func_type1.py:59-60,66-70`. -/
noncomputable def callMeanAction (n : Nat) (pick : Pick) (q : SQFn P σ (List ℝ) D) (s : σ) (a : Nat) : Except Err ℝ :=
  match functionType1 n (q.forward q.params) [s] [oneHot n a] with
  | .error e => .error e
  | .ok ds => match pick (ds.map q.dist.mean) 0 with
    | some x => .ok x
    | none => .error .indexError

/-- `mean(s)`, `coax/_core/base_stochastic_func_type1.py:59-65,70`: a list with one entry for each action. -/
noncomputable def callMeanState (n : Nat) (pick : Pick) (q : SQFn P σ (List ℝ) D) (s : σ) : Except Err (List ℝ) :=
  match meanType2 n q [s] with
  | .error e => .error e
  | .ok X => match X[0]? with
    | none => .error .indexError
    | some x => (List.range n).mapM (fun i => match pick x i with
      | some y => .ok y
      | none => .error Err.indexError)

/-- `dist_params(s, a)`, `coax/_core/base_stochastic_func_type1.py:85-86,93-98`. -/
noncomputable def callDistAction (n : Nat) (q : SQFn P σ (List ℝ) D) (s : σ) (a : Nat) : Except Err D :=
  match functionType1 n (q.forward q.params) [s] [oneHot n a] with
  | .error e => .error e
  | .ok ds => match ds[0]? with
    | some x => .ok x
    | none => .error .indexError

/-- `dist_params(s)`, `coax/_core/base_stochastic_func_type1.py:85-92,98`. -/
noncomputable def callDistState (n : Nat) (q : SQFn P σ (List ℝ) D) (s : σ) : Except Err (List D) :=
  match functionType2 n (q.forward q.params) [s] with
  | .error e => .error e
  | .ok ds => match ds[0]? with
    | none => .error .indexError
    | some x => (List.range n).mapM (fun i => match x[i]? with
      | some y => .ok y
      | none => .error Err.indexError)

omit [AddCommGroup D] [Module ℝ D] in
/-- `StochasticV.mean(s)`, `coax/_core/base_stochastic_func_type2.py:36-40`. -/
noncomputable def callMeanV (pick : Pick) (v : SVFn P σ D) (s : σ) : Except Err ℝ :=
  match pick ((v.forward v.params [s]).map v.dist.mean) 0 with
  | some x => .ok x
  | none => .error .indexError

end Coax.TD
