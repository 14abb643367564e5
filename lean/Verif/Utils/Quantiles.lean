import Verif.Err
import Mathlib.Analysis.SpecialFunctions.Trigonometric.Basic

/-!
Model of the quantile fractions and their embedding (`coax/utils/_quantile_funcs.py`), over the reals.  The random numbers are an argument.
-/

namespace Coax.Utils

/-- `jnp.cumsum` along the last axis, `coax/utils/_quantile_funcs.py:36`. -/
noncomputable def cumsum : ℝ → List ℝ → List ℝ
  | _, [] => []
  | acc, x :: xs => (acc + x) :: cumsum (acc + x) xs

/-- One row of `quantiles_uniform`, `coax/utils/_quantile_funcs.py:33-37`; `u` are the numbers from `jax.random.uniform`.  If all of them are zero the division gives NaN: `none`. -/
noncomputable def quantilesUniformRow (u : List ℝ) : Option (List ℝ) :=
  if u ≠ [] ∧ u.sum = 0 then none else some (cumsum 0 (u.map fun x => x / u.sum))

/-- `quantiles_uniform`, `coax/utils/_quantile_funcs.py:13-37`: `u` has a row for each sample. -/
noncomputable def quantilesUniform (u : List (List ℝ)) : List (Option (List ℝ)) := u.map quantilesUniformRow

/-- `quantiles`, `coax/utils/_quantile_funcs.py:40-60`. -/
noncomputable def quantiles (batchSize numQuantiles : Nat) : List (List ℝ) :=
  List.replicate batchSize ((List.range numQuantiles).map fun i : Nat => (i : ℝ) / (numQuantiles : ℝ))

/-- The embedding of one fraction by `quantile_cos_embedding`, `coax/utils/_quantile_funcs.py:89-96`. -/
noncomputable def cosEmbedding (n : Nat) (tau : ℝ) : List ℝ := (List.range n).map fun i : Nat => Real.cos (((i : ℝ) + 1) * Real.pi * tau)

/-- `quantile_cos_embedding`, `coax/utils/_quantile_funcs.py:63-96`, of an array with two axes. -/
noncomputable def quantileCosEmbedding (n : Nat) (fractions : List (List ℝ)) : List (List (List ℝ)) := fractions.map fun row => row.map (cosEmbedding n)

end Coax.Utils
