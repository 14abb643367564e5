import Verif.Core.Successor
import Mathlib.Analysis.SpecialFunctions.Log.Basic

/-!
Model of how stochastic functions are called for samples, modes and means: `StochasticFuncType2Mixin` (`coax/_core/base_stochastic_func_type2.py:30-112`) for functions of states, and
`BaseStochasticFuncType1` (`coax/_core/base_stochastic_func_type1.py:44-98,248-377`) for functions of states and actions; and of `sample` and `log_proba` of `EmpiricalQuantileDist`
(`coax/proba_dists/_empirical_quantile.py:31-39`).

A distribution works on whole batches; the random key is fixed, so that sampling is a function of the parameters.  An array is the list of its entries along the first axis.
Preprocessed states are of any type.  Discrete actions are encoded as one-hot vectors.
-/

namespace Coax.Core

/-- A distribution: parameters `D`, variates `X` and log-probabilities `L` of one row (`coax/proba_dists/_base.py:62-134`). -/
structure BDist (D X L : Type _) where
  sample : List D → List X
  mean : List D → List X
  mode : List D → List X
  logProba : List D → List X → List L

variable {σ D X L Y : Type _}

/-- `postprocess_variate(rng, X, index=index)` (`coax/proba_dists/_base.py:264-301`). -/
abbrev PostPick (X Y : Type _) := List X → Nat → Option Y

/-- `x[0]`, as in `batch_to_single` (`coax/_core/base_stochastic_func_type1.py:48,56`). -/
def firstRow {α : Type _} (l : List α) : Except Err α :=
  match l[0]? with
  | some x => .ok x
  | none => .error .indexError

/-- `postprocess_variate(rng, X, index=i)`, `coax/_core/base_stochastic_func_type1.py:50,55`. -/
def post (pick : PostPick X Y) (x : List X) (i : Nat) : Except Err Y :=
  match pick x i with
  | some y => .ok y
  | none => .error .indexError

/-! ### Functions of states -/

/-- `sample_func`, `coax/_core/base_stochastic_func_type2.py:65-73`. -/
def sampleFunc (f : List σ → List D) (d : BDist D X L) (S : List σ) : List X × List L := (d.sample (f S), d.logProba (f S) (d.sample (f S)))

/-- `__call__(s, return_logp=True)`, `coax/_core/base_stochastic_func_type2.py:30-34`. -/
def callSample (pick : PostPick X Y) (f : List σ → List D) (d : BDist D X L) (s : σ) : Except Err (Y × L) :=
  match post pick (sampleFunc f d [s]).1 0 with
  | .error e => .error e
  | .ok x => match firstRow (sampleFunc f d [s]).2 with
    | .error e => .error e
    | .ok l => .ok (x, l)

/-- `mean(s)`, `coax/_core/base_stochastic_func_type2.py:36-40,87-92`. -/
def callMean (pick : PostPick X Y) (f : List σ → List D) (d : BDist D X L) (s : σ) : Except Err Y := post pick (d.mean (f [s])) 0

/-- `mode(s)`, `coax/_core/base_stochastic_func_type2.py:42-46,106-111`. -/
def callMode (pick : PostPick X Y) (f : List σ → List D) (d : BDist D X L) (s : σ) : Except Err Y := post pick (d.mode (f [s])) 0

/-- `dist_params(s)`, `coax/_core/base_stochastic_func_type2.py:48-51`. -/
def callParams (f : List σ → List D) (s : σ) : Except Err D := firstRow (f [s])

/-! ### Functions of states and actions -/

variable [AddCommGroup D] [Module ℝ D]

/-- `sample_func_type1`, `coax/_core/base_stochastic_func_type1.py:260-268`. -/
noncomputable def sampleType1 (n : Nat) (F : Func σ (List ℝ) D) (d : BDist D X L) (S : List σ) (A : List (List ℝ)) : Except Err (List X × List L) :=
  match functionType1 n F S A with
  | .error e => .error e
  | .ok ds => .ok (d.sample ds, d.logProba ds (d.sample ds))

/-- `sample_func_type2`, `coax/_core/base_stochastic_func_type1.py:282-293`. -/
noncomputable def sampleType2 (n : Nat) (F : Func σ (List ℝ) D) (d : BDist D X L) (S : List σ) : Except Err (List (List X) × List (List L)) :=
  match functionType2 n F S with
  | .error e => .error e
  | .ok rows => match toReplicas n rows with
    | .error e => .error e
    | .ok ds => match reshapeRows n (d.sample ds) with
      | .error e => .error e
      | .ok x => match reshapeRows n (d.logProba ds (d.sample ds)) with
        | .error e => .error e
        | .ok l => .ok (x, l)

/-- `mode_func_type1` and `mean_func_type1`, `coax/_core/base_stochastic_func_type1.py:307-313,349-355`; `g` is `proba_dist.mode` or `proba_dist.mean`. -/
noncomputable def pointType1 (n : Nat) (F : Func σ (List ℝ) D) (g : List D → List X) (S : List σ) (A : List (List ℝ)) : Except Err (List X) :=
  match functionType1 n F S A with
  | .error e => .error e
  | .ok ds => .ok (g ds)

/-- `mode_func_type2` and `mean_func_type2`, `coax/_core/base_stochastic_func_type1.py:327-335,369-377`. -/
noncomputable def pointType2 (n : Nat) (F : Func σ (List ℝ) D) (g : List D → List X) (S : List σ) : Except Err (List (List X)) :=
  match functionType2 n F S with
  | .error e => .error e
  | .ok rows => match toReplicas n rows with
    | .error e => .error e
    | .ok ds => reshapeRows n (g ds)

/-- `__call__(s, a, return_logp=True)`, `coax/_core/base_stochastic_func_type1.py:44-45,52-57`. -/
noncomputable def callSampleAction (n : Nat) (pick : PostPick X Y) (F : Func σ (List ℝ) D) (d : BDist D X L) (s : σ) (a : Nat) : Except Err (Y × L) :=
  match sampleType1 n F d [s] [oneHot n a] with
  | .error e => .error e
  | .ok (x, l) => match post pick x 0 with
    | .error e => .error e
    | .ok y => match firstRow l with
      | .error e => .error e
      | .ok l => .ok (y, l)

/-- `[postprocess_variate(rng, X, index=i) for i in range(n)]`, `coax/_core/base_stochastic_func_type1.py:50,65,79`. -/
def postAll (pick : PostPick X Y) (x : List X) : List Nat → Except Err (List Y)
  | [] => .ok []
  | i :: is => match post pick x i with
    | .error e => .error e
    | .ok y => match postAll pick x is with
      | .error e => .error e
      | .ok ys => .ok (y :: ys)

/-- `__call__(s, return_logp=True)`, `coax/_core/base_stochastic_func_type1.py:44-51,57`. -/
noncomputable def callSampleState (n : Nat) (pick : PostPick X Y) (F : Func σ (List ℝ) D) (d : BDist D X L) (s : σ) : Except Err (List Y × List L) :=
  match sampleType2 n F d [s] with
  | .error e => .error e
  | .ok (x, l) => match firstRow x with
    | .error e => .error e
    | .ok x => match firstRow l with
      | .error e => .error e
      | .ok l => match postAll pick x (List.range n) with
        | .error e => .error e
        | .ok ys => .ok (ys, l)

/-- `mode(s, a)` and `mean(s, a)`, `coax/_core/base_stochastic_func_type1.py:59-60,66-70,72-73,80-84`. -/
noncomputable def callPointAction (n : Nat) (pick : PostPick X Y) (F : Func σ (List ℝ) D) (g : List D → List X) (s : σ) (a : Nat) : Except Err Y :=
  match pointType1 n F g [s] [oneHot n a] with
  | .error e => .error e
  | .ok x => post pick x 0

/-- `mode(s)` and `mean(s)`, `coax/_core/base_stochastic_func_type1.py:59-65,70,72-79,84`. -/
noncomputable def callPointState (n : Nat) (pick : PostPick X Y) (F : Func σ (List ℝ) D) (g : List D → List X) (s : σ) : Except Err (List Y) :=
  match pointType2 n F g [s] with
  | .error e => .error e
  | .ok x => match firstRow x with
    | .error e => .error e
    | .ok x => postAll pick x (List.range n)

/-! ### Quantiles -/

/-- `EmpiricalQuantileDist.sample`, `coax/proba_dists/_empirical_quantile.py:31-34`: `jax.random.choice(rng, values, values.shape, replace=True)` draws along the first axis, that of the batch, an index for
every entry of the shape `(batch, num_quantiles)`, and takes the whole row with that index. -/
def quantileSample {m : Nat} (idx : Nat → Nat → Nat) (values : List (Fin m → ℝ)) : List (List (List ℝ)) :=
  (List.range values.length).map fun b => (List.range m).map fun j => ((values[idx b j]?).map List.ofFn).getD []

open Classical in
/-- The logarithm of the share of the entries that equal `v`; `none` is minus infinity (`coax/proba_dists/_empirical_quantile.py:38-39`). -/
noncomputable def logShare (x : List ℝ) (v : ℝ) : Option ℝ :=
  if x.countP (fun y => decide (y = v)) = 0 then none else some (Real.log ((x.countP (fun y => decide (y = v)) : ℝ) / x.length))

/-- `EmpiricalQuantileDist.log_proba` of what `sample` returns, `coax/proba_dists/_empirical_quantile.py:36-39`: `X[None, ...]` has the axes 1, batch, num_quantiles, num_quantiles, and
`values[..., None]` has the axes batch, num_quantiles, 1.  The first axis of the result has size 1. -/
noncomputable def quantileLogProba {m : Nat} (values : List (Fin m → ℝ)) (X : List (List (List ℝ))) : List (List (List (Option ℝ))) :=
  [List.zipWith (fun Xb vb => List.zipWith logShare Xb (List.ofFn vb)) X values]

/-- `EmpiricalQuantileDist`, whose parameters are reduced to the values; there is no mode (`coax/proba_dists/_empirical_quantile.py:15-88`). -/
noncomputable def quantileBDist (m : Nat) (idx : Nat → Nat → Nat) : BDist (Fin m → ℝ) (List (List ℝ)) (List (List (Option ℝ))) where
  sample := quantileSample idx
  mean := fun vs => vs.map fun v => [[(List.ofFn v).sum / m]]
  mode := fun _ => []
  logProba := quantileLogProba

/-- `postprocess_variate` of `EmpiricalQuantileDist`, `coax/proba_dists/_base.py:264-301`: the index is not used. -/
def quantilePost {X : Type _} : PostPick X X := fun x _ => x[0]?

end Coax.Core
