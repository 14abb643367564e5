import Verif.Dists.Composite

/-!
Model of the regularizers (`coax/regularizers/_entropy.py`, `coax/regularizers/_kl_div.py`) for all distributions of policies; one row of the batch.  (For batches of categorical distributions see
`Policy/Regularizers`.)
-/

namespace Coax.Pol

open Coax.Dists

/-- `default_priors` of a leaf, `coax/proba_dists/_categorical.py:125-127`, `coax/proba_dists/_normal.py:179-182`. -/
def leafPriors : Leaf → LeafParams
  | .cat n => .logits (List.replicate n 0)
  | .normal d _ => .normal (List.replicate d 0) (List.replicate d 0)

mutual
/-- `ProbaDist.default_priors`, `coax/proba_dists/_composite.py:222-233`. -/
def distPriors : Dist → Dists.Tree LeafParams
  | .leaf l => .leaf (leafPriors l)
  | .list ds => .list (distPriorsList ds)
  | .dict ds => .dict (distPriorsDict ds)

/-- The elements of a tuple, `coax/proba_dists/_composite.py:227-228`. -/
def distPriorsList : List Dist → List (Dists.Tree LeafParams)
  | [] => []
  | d :: ds => distPriors d :: distPriorsList ds

/-- The entries of a dict, `coax/proba_dists/_composite.py:230-231`. -/
def distPriorsDict : List (String × Dist) → List (String × Dists.Tree LeafParams)
  | [] => []
  | (k, d) :: ds => (k, distPriors d) :: distPriorsDict ds
end

/-- The distribution of a policy: a nested one, `SquashedNormalDist`, `EmpiricalQuantileDist` (`coax/regularizers/_entropy.py:36`). -/
inductive PolicyDist where
  | nested (d : Dist)
  | squashed
  | quantiles

/-- `proba_dist.entropy(dist_params)`.  `SquashedNormalDist` and `EmpiricalQuantileDist` do not set `_entropy_func`, which `BaseProbaDist.entropy` returns (`coax/proba_dists/_base.py:160`,
`coax/proba_dists/_squashed_normal.py:60-64`, `coax/proba_dists/_empirical_quantile.py:67-70`): AttributeError. -/
noncomputable def PolicyDist.entropy (log2pi : ℝ) (t : Dists.Tree LeafParams) : PolicyDist → Except Err ℝ
  | .nested d => d.entropy log2pi t
  | .squashed => .error .attributeError
  | .quantiles => .error .attributeError

/-- `proba_dist.kl_divergence(dist_params, priors)`, the same way (`coax/proba_dists/_base.py:208`). -/
noncomputable def PolicyDist.kl (t u : Dists.Tree LeafParams) : PolicyDist → Except Err ℝ
  | .nested d => d.kl t u
  | .squashed => .error .attributeError
  | .quantiles => .error .attributeError

/-- `function` of `EntropyRegularizer`, `coax/regularizers/_entropy.py:35-37`. -/
noncomputable def entropyRegD (log2pi beta : ℝ) (p : PolicyDist) (t : Dists.Tree LeafParams) : Except Err ℝ :=
  match p.entropy log2pi t with
  | .error e => .error e
  | .ok h => .ok (-beta * h)

/-- `function` of `KLDivRegularizer`, `coax/regularizers/_kl_div.py:46-48`. -/
noncomputable def klRegD (beta : ℝ) (p : PolicyDist) (t priors : Dists.Tree LeafParams) : Except Err ℝ :=
  match p.kl t priors with
  | .error e => .error e
  | .ok k => .ok (beta * k)

/-- `KLDivRegularizer(f, beta, priors=None)`, `coax/regularizers/_kl_div.py:41-48`. -/
noncomputable def klRegDefault (beta : ℝ) (d : Dist) (t : Dists.Tree LeafParams) : Except Err ℝ := klRegD beta (.nested d) t (distPriors d)

end Coax.Pol
