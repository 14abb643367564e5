import Verif.Core.SoftUpdate

/-!
Model of `update` and `apply_grads` of the TD updaters and policy objectives (`coax/td_learning/_base.py:60-116`,
`coax/policy_objectives/_base.py:128-179`).

Gradients are trees of arrays whose entries may be NaN (`none`).  The gradient computation and the optimizer are arbitrary functions.
-/

namespace Coax.TD

open Coax.Core

/-- Gradients: a tree whose entries may be NaN.  (`coax/td_learning/_base.py:86-88`.) -/
abbrev Grads (K : Type _) := List (String × List (Option K))

/-- The state that an update can change: params and function state of the function approximator, the state of the optimizer, and the random key
(`RandomStateMixin.rng` moves on at each access, `coax/_base/mixins.py`).  (`coax/td_learning/_base.py:86-91,112-116`.) -/
structure UState (K : Type _) where
  params : PyTree K
  functionState : PyTree K
  optState : PyTree K
  rng : Nat

variable {K M B : Type _}

/-- What an updater computes with: the gradients, new function state and metrics (`_grads_and_metrics_func`) from the current state and a batch, and
`_apply_grads_func` (optimizer update and `optax.apply_updates`).  `checksOpt` is true for TD updaters, whose `optimizer_state` setter compares
structures (`coax/td_learning/_base.py:199-205`), and false for policy objectives (`coax/policy_objectives/_base.py:119-121`). -/
structure Updater (K M B : Type _) where
  compute : UState K → B → Except Err (Grads K × PyTree K × M)
  applyGrads : PyTree K → PyTree K → Grads K → Except Err (PyTree K × PyTree K)
  checksOpt : Bool

/-- `any(jnp.any(jnp.isnan(g)) for g in tree_leaves(grads))`, `coax/td_learning/_base.py:88`. -/
def hasNaN (g : Grads K) : Bool := g.any (fun leaf => leaf.2.any Option.isNone)

/-- `apply_grads`, `coax/td_learning/_base.py:93-116`, `coax/policy_objectives/_base.py:156-179`: the function state is set first, then the state of the optimizer, then
the params. -/
def applyGrads (u : Updater K M B) (s : UState K) (g : Grads K) (fs : PyTree K) : UState K × Except Err Unit :=
  if structure_ fs ≠ structure_ s.functionState then (s, .error .typeError)
  else
    let s1 := { s with functionState := fs }
    match u.applyGrads s1.optState s1.params g with
    | .error e => (s1, .error e)
    | .ok (opt, params) =>
      if u.checksOpt = true ∧ structure_ opt ≠ structure_ s1.optState then (s1, .error .attributeError)
      else
        let s2 := { s1 with optState := opt }
        if structure_ params ≠ structure_ s2.params then (s2, .error .typeError)
        else ({ s2 with params := params }, .ok ())

/-- `update`, `coax/td_learning/_base.py:60-91`, `coax/policy_objectives/_base.py:128-154`.  Reading the random key moves it on. -/
def update (u : Updater K M B) (s : UState K) (batch : B) : UState K × Except Err M :=
  let s0 := { s with rng := s.rng + 1 }
  match u.compute s batch with
  | .error e => (s0, .error e)
  | .ok (g, fs, metrics) =>
    if hasNaN g = true then (s0, .error .runtimeError)
    else match applyGrads u s0 g fs with
      | (s1, .error e) => (s1, .error e)
      | (s1, .ok ()) => (s1, .ok metrics)

end Coax.TD
