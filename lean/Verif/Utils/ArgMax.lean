import Verif.Dists.Categorical

/-!
Model of `argmax` and `argmin` with random tie breaking (`coax/utils/_array.py:43-113`), along one axis.  The Gumbel noise that `jax.random.categorical` adds to the logits is an argument.
-/

namespace Coax.Utils

variable {n : Nat}

/-- `jnp.argmax` of one row: the first of the maximising indices.  (Used by `jax.random.categorical`, which is called in `coax/utils/_array.py:78`.) -/
noncomputable def firstMax (x : Fin n → ℝ) : Option (Fin n) := (List.finRange n).find? fun k => decide (∀ j, x j ≤ x k)

/-- `candidates` and `logits`, `coax/utils/_array.py:75-76`. -/
noncomputable def tieLogits (x : Fin n → ℝ) (k : Fin n) : ℝ :=
  let candidate : ℝ := if ∀ j, x j ≤ x k then 1 else 0
  (2 * candidate - 1) * 50

/-- `argmax` of one row, `coax/utils/_array.py:43-78`; `g` is the Gumbel noise.  An empty row raises (`jnp.max`): `none`. -/
noncomputable def argmaxRng (g x : Fin n → ℝ) : Option (Fin n) := firstMax fun k => g k + tieLogits x k

/-- `argmin` of one row, `coax/utils/_array.py:81-112`. -/
noncomputable def argminRng (g x : Fin n → ℝ) : Option (Fin n) := argmaxRng g fun k => -x k

/-- The noise that `jax.random.categorical` makes of uniform random numbers.  (Called in `coax/utils/_array.py:78`.) -/
noncomputable def gumbel (u : ℝ) : ℝ := -Real.log (-Real.log u)

end Coax.Utils
