import Verif.Loop.Closed

/-!
`ExpectedSarsa(q, pi)` where `pi` is a value-based policy on the same `q`, as in `doc/examples/frozen_lake/expected_sarsa.py:22-31`: the probabilities in the target move with the values.
-/

namespace Coax.Loop

open Coax.TD Coax.Core

variable {σ P : Type _}

/-- `ExpectedSarsa.target_func`, `coax/td_learning/_expectedsarsa.py:100-118`, where `pi_targ` is `EpsilonGreedy(q)` or `BoltzmannPolicy(q)`: `pi_targ.function` computes the logits from the rows of `q.function_type2` (`coax/_core/value_based_policy.py:34-46,189-199`) with
the params that `q` has at this time (`pi_targ.params`, lines 203-206).  There is no target network: `q_targ` is `q` (`coax/td_learning/_base.py:27`), so both get their params from `qTarg`.  `Q_s` must have `n` columns (line 43). -/
noncomputable def expectedSarsaOf (n : Nat) (logits : (Fin n → ℝ) → Fin n → ℝ) (q qTarg : QFn P σ (List ℝ)) (b : TBatch σ (List ℝ)) : Except Err (List ℝ) :=
  match functionType2 n (qTarg.forward qTarg.params) b.S_next with
  | .error e => .error e
  | .ok Q_s =>
    if Q_s.any (fun row => decide (row.length ≠ n)) then .error .assertionError
    else expectedSarsa n (fun _ => Q_s.map fun row => (List.finRange n).map (logits fun a => row.getD a 0)) q qTarg b

end Coax.Loop
