import Verif.Core.QTypes

/-!
Model of `TransitionModel.__call__` (`coax/_core/transition_model.py:84-120`).  Its two function views are those of `Verif/Core/QTypes.lean`
(`coax/_core/transition_model.py:122-199` has the same code, with the same assertions, as `coax/_core/base_stochastic_func_type1.py:100-177`): one entry of the output
is an element of a real vector space `V`, the product of the leaves of the preprocessed observations.
-/

namespace Coax.Core

variable {σ σ' O V : Type _} [AddCommGroup V] [Module ℝ V]

/-- `TransitionModel.__call__(s, a)`, `coax/_core/transition_model.py:110,116-120`, for discrete actions and the default `action_preprocessor`.  `pre` is `observation_preprocessor`,
which makes a batch of one; `post X` is `observation_postprocessor(rng, X)[index]` for the entry `X = S_next[index]`. -/
noncomputable def tmCallAction (n : Nat) (F : Func σ' (List ℝ) V) (pre : σ → σ') (post : V → O) (s : σ) (a : Nat) : Except Err O :=
  match functionType1 n F [pre s] [oneHot n a] with
  | .error e => .error e
  | .ok S_next => match S_next[0]? with
    | some X => .ok (post X)
    | none => .error .indexError

/-- `TransitionModel.__call__(s)`, `coax/_core/transition_model.py:110-115,120`: `batch_to_single` and then the entries `0, …, n - 1`. -/
noncomputable def tmCallState (n : Nat) (F : Func σ' (List ℝ) V) (pre : σ → σ') (post : V → O) (s : σ) : Except Err (List O) :=
  match functionType2 n F [pre s] with
  | .error e => .error e
  | .ok S_next => match S_next[0]? with
    | none => .error .indexError
    | some row => (List.range n).mapM fun i => match row[i]? with
      | some X => .ok (post X)
      | none => .error .indexError

end Coax.Core
