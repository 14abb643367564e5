import Verif.Dists.Categorical

/-!
Model of the value-based policies (`coax/_core/value_based_policy.py`) and of sampling from a stochastic function of states
(`coax/_core/base_stochastic_func_type2.py`), for one state.

`Q` is the row of q-values of that state, `self._Q_s` (`coax/_core/value_based_policy.py:34-44`), which is the type-2 view of the q-function
modelled in `Verif.Core.QTypes`.  Its two assertions are the row length `n`, which the type of `Q` carries.
-/

namespace Coax.Core

open Coax.Dists

variable {n : Nat}

/-- `Q_s == Q_s.max(axis=1, keepdims=True)` as numbers, `coax/_core/value_based_policy.py:192`. -/
noncomputable def isMax (Q : Fin n → ℝ) (a : Fin n) : ℝ := if ∀ j, Q j ≤ Q a then 1 else 0

/-- The logits of `EpsilonGreedy`, `coax/_core/value_based_policy.py:189-198`. -/
noncomputable def epsilonGreedyLogits (epsilon : ℝ) (Q : Fin n → ℝ) : Fin n → ℝ := fun a =>
  let A := isMax Q a
  let A := A / ∑ j, isMax Q j
  let A := A * (1 - epsilon)
  let A := A + epsilon / n
  Real.log (A + 1e-15)

/-- The logits of `BoltzmannPolicy`, `coax/_core/value_based_policy.py:254-257`. -/
noncomputable def boltzmannLogits (temperature : ℝ) (Q : Fin n → ℝ) : Fin n → ℝ := fun a => Q a / temperature

/-- `__call__` with `return_logp=True`, `coax/_core/base_stochastic_func_type2.py:30-34,66-71`: the action and its log-propensity.  `u` are the uniform random
numbers of `sample`, `tau` its Gumbel-softmax temperature, `draw` the tie breaking of `postprocess_variate`. -/
noncomputable def policyCall (draw : List (Fin n) → Option (Fin n)) (tau : ℝ) (u logits : Fin n → ℝ) : Option (Fin n) × ℝ :=
  let X := sampleRow tau u logits
  (argmax draw X, logProbaRow logits X)

/-- `mode`, `coax/_core/base_stochastic_func_type2.py:42-46`. -/
noncomputable def policyMode (draw : List (Fin n) → Option (Fin n)) (tau : ℝ) (logits : Fin n → ℝ) : Option (Fin n) := argmax draw (modeRow tau logits)

/-- `mean`, `coax/_core/base_stochastic_func_type2.py:36-40`. -/
noncomputable def policyMean (draw : List (Fin n) → Option (Fin n)) (logits : Fin n → ℝ) : Option (Fin n) := argmax draw (meanRow logits)

end Coax.Core
