import Verif.Err
import Mathlib.Algebra.Order.Field.Basic
import Mathlib.Algebra.BigOperators.Group.List.Basic

/-!
Model of `TransitionBatch.from_single` (`coax/reward_tracing/_transition.py`).

Floats are elements of an exact ordered field.  States and actions are opaque.  Log-propensities and rewards are scalars
(the code also allows arrays).  `isinstance` checks are not modelled: arguments have the right Python type.
-/

namespace Coax.RewardTracing

/-- What a user passes to `add`: `(s, a, r, logp, w)`, `coax/reward_tracing/_nstep.py:49`. -/
structure Step (σ α K : Type _) where
  s : σ
  a : α
  r : K
  logp : K
  w : K
deriving DecidableEq, Repr

/-- A `TransitionBatch` of size one, `coax/reward_tracing/_transition.py:81-97`: each field is the single entry of the
column.  `extraInfo` is `extra_info` as one list of `(step, done)` instead of a dict of tuples. -/
structure Out (σ α K : Type _) where
  S : σ
  A : α
  logP : K
  Rn : K
  In : K
  S_next : Option σ
  A_next : Option α
  logP_next : Option K
  W : K
  idx : Nat
  extraInfo : Option (List (Step σ α K × Bool))
deriving DecidableEq, Repr

variable {σ α K : Type _} [Field K] [LinearOrder K]

/-- `TransitionBatch.from_single`, `coax/reward_tracing/_transition.py:99-183`.  `idx=None` becomes `arange(1)`, that is
`0` (line 96). -/
def fromSingle (s : σ) (a : α) (logp r : K) (done : Bool) (gamma : K) (sNext : Option σ) (aNext : Option α)
    (logpNext : Option K) (w : K) (idx : Option Nat) (extraInfo : Option (List (Step σ α K × Bool))) :
    Except Err (Out σ α K) :=
  if ¬ logp ≤ 0 then .error .typeError
  else if ¬ (0 ≤ gamma ∧ gamma ≤ 1) then .error .typeError
  else if logpNext.any (fun l => decide (¬ l ≤ 0)) then .error .typeError
  else if ¬ w > 0 then .error .typeError
  else .ok
    { S := s, A := a, logP := logp, Rn := r, In := gamma * (1 - if done then 1 else 0)
      S_next := sNext, A_next := aNext, logP_next := logpNext, W := w, idx := idx.getD 0, extraInfo := extraInfo }

end Coax.RewardTracing
