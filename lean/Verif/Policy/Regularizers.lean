import Verif.Err
import Verif.Dists.Categorical
import Mathlib.Data.Real.Basic

/-!
Model of the regularizers (`coax/regularizers/`), over the reals.

For the n-step entropy regularizer one sample of the batch is modelled: all operations act on each sample separately.  `H` are the entropies of the policy at the
states `extra_info['states']` and `dones` is `extra_info['dones']`, both indexed by the number of steps from the current one.  NaN is `none`.
-/

namespace Coax.Pol

/-- The kinds of function approximators that a regularizer tells apart, `coax/regularizers/_base.py:70-81`. -/
inductive FuncKind where
  | type1
  | type2
  | other
  deriving DecidableEq

/-- `Regularizer.batch_eval`, `coax/regularizers/_base.py:66-87`: for a function of type 1 the distribution parameters are computed and then
`TypeError` is raised, because the second `if` is not an `elif`. -/
def baseBatchEval {D R : Type _} (kind : FuncKind) (distParams : Except Err D) (function : D → Except Err R) : Except Err R :=
  match kind with
  | .type1 => match distParams with
    | .error e => .error e
    | .ok _ => .error .typeError
  | .type2 => match distParams with
    | .error e => .error e
    | .ok d => function d
  | .other => .error .typeError

/-- `function` of `EntropyRegularizer`, `coax/regularizers/_entropy.py:35-37`, with a categorical policy over `n` actions. -/
noncomputable def entropyReg (n : Nat) (beta : ℝ) (Z : List (List ℝ)) : Except Err (List ℝ) :=
  match Coax.Dists.entropy n Z with
  | .error e => .error e
  | .ok H => .ok (H.map (fun h => -beta * h))

/-- `function` of `KLDivRegularizer`, `coax/regularizers/_kl_div.py:46-48`, with a categorical policy; `none` stands for the default priors (line 44). -/
noncomputable def klReg (n : Nat) (beta : ℝ) (Z : List (List ℝ)) (priors : Option (List (List ℝ))) : Except Err (List ℝ) :=
  match Coax.Dists.klDivergence n Z (priors.getD (Coax.Dists.defaultPriors n)) with
  | .error e => .error e
  | .ok K => .ok (K.map (fun k => beta * k))

/-- `NStepEntropyRegularizer.__init__`, `coax/regularizers/_nstep_entropy.py:47-50`: `none` is an argument that is neither list, tuple nor array. -/
def checkSteps : Option (List Nat) → Except Err (List Nat)
  | none => .error .typeError
  | some [] => .error .valueError
  | some n => .ok n

/-- `jnp.take` on an array of floats: NaN outside.  (`coax/regularizers/_nstep_entropy.py:55`.) -/
def takeReal (l : List ℝ) (k : Nat) : Option ℝ := l[k]?

/-- `jnp.take` on an array of booleans: `True` outside.  (`coax/regularizers/_nstep_entropy.py:103`.) -/
def takeBool (l : List Bool) (k : Nat) : Bool := l[k]?.getD true

/-- `_gammas`, `coax/regularizers/_nstep_entropy.py:55`. -/
def gammas (gamma : ℝ) (n : List Nat) : List (Option ℝ) :=
  n.map (takeReal ((List.range (n.getLast?.getD 0 + 1)).map (fun i => gamma ^ i)))

/-- `jnp.cumsum` with a start value.  (`coax/regularizers/_nstep_entropy.py:131`.) -/
def cumsum (acc : ℝ) : List Bool → List ℝ
  | [] => []
  | d :: ds => (acc + if d then 1 else 0) :: cumsum (acc + if d then 1 else 0) ds

/-- `valid_from_done`, `coax/regularizers/_nstep_entropy.py:115-131`: ones, with `1 - clip(cumsum(dones[:-1]), a_max=1)` from index 1 on. -/
noncomputable def validFromDone (dones : List Bool) : List ℝ :=
  match dones with
  | [] => []
  | _ :: _ => 1 :: (cumsum 0 dones.dropLast).map (fun c => 1 - min c 1)

/-- One summand of `entropy`: `gamma * entropy * valid`; NaN times zero is NaN.  (`coax/regularizers/_nstep_entropy.py:57-60`.) -/
def summand (g h : Option ℝ) (v : ℝ) : Option ℝ :=
  match g, h with
  | some g, some h => some (g * h * v)
  | _, _ => none

/-- Sum of an array that may contain NaN.  (`coax/regularizers/_nstep_entropy.py:60`.) -/
def sumNaN : List (Option ℝ) → Option ℝ
  | [] => some 0
  | none :: _ => none
  | some x :: l => (sumNaN l).map (x + ·)

/-- `entropy` of the n-step regularizer, `coax/regularizers/_nstep_entropy.py:57-60`, after `jnp.take` of the states and of the dones (lines 96-97, 102). -/
noncomputable def nstepEntropy (gamma : ℝ) (n : List Nat) (H : List ℝ) (dones : List Bool) : Option ℝ :=
  sumNaN (List.zipWith (fun gh v => summand gh.1 gh.2 v) ((gammas gamma n).zip (n.map (takeReal H))) (validFromDone (n.map (takeBool dones))))

/-- `batch_eval` and `function` of the n-step regularizer, `coax/regularizers/_nstep_entropy.py:62-64, 77-111`.  `extraInfo` is `none` if it is not a dict;
`numParams` is `len(dist_params)`, which is 2 for a normal and 1 for a categorical distribution. -/
noncomputable def nstepReg (beta gamma : ℝ) (n : List Nat) (kind : FuncKind) (numParams : Nat) (extraInfo : Option (List ℝ × List Bool)) :
    Except Err (Option ℝ) :=
  match extraInfo with
  | none => .error .typeError
  | some (H, dones) =>
    if kind = .type2 then
      if numParams = 2 then .ok ((nstepEntropy gamma n H dones).map (fun h => -beta * h)) else .error .assertionError
    else .error .typeError

end Coax.Pol
