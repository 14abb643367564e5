import Verif.Core.QTypes
import Mathlib.Analysis.SpecialFunctions.Log.Basic

/-!
Model of the target functions of the TD updaters (`coax/td_learning/`), for deterministic value functions, over the reals.

A function approximator is its forward function, which depends on the params (function state included), the current params, and
its value transform.  Target functions evaluate with `is_training=False`; random number keys are left out.  `S_next` and
`A_next` of a batch are already preprocessed.  All arrays of a batch have the same number of rows; otherwise the model
raises `TypeError` (jax would broadcast arrays with one row).  Infinities and NaN are not modelled.
-/

namespace Coax.TD

open Coax.Core

variable {P σ α : Type _}

/-- A state value function `coax.V` (`coax/_core/v.py:67-85`). -/
structure VFn (P σ : Type _) where
  forward : P → List σ → List ℝ
  params : P
  transform : ℝ → ℝ
  inverse : ℝ → ℝ

/-- A state-action value function `coax.Q` (`coax/_core/q.py:74-96`). -/
structure QFn (P σ α : Type _) where
  forward : P → Func σ α ℝ
  params : P
  transform : ℝ → ℝ
  inverse : ℝ → ℝ

/-- The fields of a `TransitionBatch` that targets depend on.  (`coax/reward_tracing/_transition.py:81-99`.) -/
structure TBatch (σ α : Type _) where
  Rn : List ℝ
  In : List ℝ
  S_next : List σ
  A_next : List α

/-- `f(transition_batch.Rn + transition_batch.In * f_inv(Q_next))`, for example `coax/td_learning/_simple_td.py:81`. -/
noncomputable def backup (f fInv : ℝ → ℝ) (b : TBatch σ α) (Qnext : List ℝ) : Except Err (List ℝ) :=
  if b.Rn.length = Qnext.length ∧ b.In.length = Qnext.length then
    .ok (List.zipWith (fun ri q => f (ri.1 + ri.2 * fInv q)) (b.Rn.zip b.In) Qnext)
  else .error .typeError

/-- `SimpleTD.target_func`, `coax/td_learning/_simple_td.py:71-81`. -/
noncomputable def simpleTD (v vTarg : VFn P σ) (b : TBatch σ α) : Except Err (List ℝ) :=
  backup v.transform vTarg.inverse b (vTarg.forward vTarg.params b.S_next)

/-- `function_type1` for any action space: type-2 functions only exist for discrete actions.  (`coax/_core/q.py:133-153`.) -/
noncomputable def evalAt (F : Func σ α ℝ) (S : List σ) (A : List α) : Except Err (List ℝ) :=
  match F with
  | .type1 f => .ok (f S A)
  | .type2 _ => .error .assertionError

/-- `Sarsa.target_func`, `coax/td_learning/_sarsa.py:69-80`, for discrete actions. -/
noncomputable def sarsa (n : Nat) (q qTarg : QFn P σ (List ℝ)) (b : TBatch σ (List ℝ)) : Except Err (List ℝ) :=
  match functionType1 n (qTarg.forward qTarg.params) b.S_next b.A_next with
  | .error e => .error e
  | .ok Q => backup q.transform qTarg.inverse b Q

/-- `Sarsa.target_func`, `coax/td_learning/_sarsa.py:69-80`, for other action spaces. -/
noncomputable def sarsaCont (q qTarg : QFn P σ α) (b : TBatch σ α) : Except Err (List ℝ) :=
  match evalAt (qTarg.forward qTarg.params) b.S_next b.A_next with
  | .error e => .error e
  | .ok Q => backup q.transform qTarg.inverse b Q

/-- One row of `A = (Q_s == Q_s.max(axis=1, keepdims=True)); A /= A.sum(axis=1, keepdims=True)`,
`coax/td_learning/_qlearning.py:127-129`. -/
noncomputable def greedyRow (q : List ℝ) : Except Err (List ℝ) :=
  match q.max? with
  | none => .error .valueError
  | some m =>
    let A := q.map (fun x => if x = m then (1 : ℝ) else 0)
    .ok (A.map (fun x => x / A.sum))

/-- The greedy actions in all rows, with the assertion on the number of actions, `coax/td_learning/_qlearning.py:124-129`. -/
noncomputable def greedy (n : Nat) (Q_s : List (List ℝ)) : Except Err (List (List ℝ)) :=
  if Q_s.any (fun q => decide (q.length ≠ n)) then .error .assertionError else Q_s.mapM greedyRow

/-- `QLearning.target_func`, `coax/td_learning/_qlearning.py:111-146`, for discrete actions.  (Line 144 uses the forward function of
`q` with the params of `q_targ`.) -/
noncomputable def qLearning (n : Nat) (q qTarg : QFn P σ (List ℝ)) (b : TBatch σ (List ℝ)) : Except Err (List ℝ) :=
  match functionType2 n (qTarg.forward qTarg.params) b.S_next with
  | .error e => .error e
  | .ok Q_s => match greedy n Q_s with
    | .error e => .error e
    | .ok A => match functionType1 n (q.forward qTarg.params) b.S_next A with
      | .error e => .error e
      | .ok Q => backup q.transform qTarg.inverse b Q

/-- The same for other action spaces; `mode` is `pi_targ.mode_func`.  (`coax/td_learning/_qlearning.py:131-146`.) -/
noncomputable def qLearningCont (mode : List σ → List α) (q qTarg : QFn P σ α) (b : TBatch σ α) : Except Err (List ℝ) :=
  match evalAt (q.forward qTarg.params) b.S_next (mode b.S_next) with
  | .error e => .error e
  | .ok Q => backup q.transform qTarg.inverse b Q

/-- `DoubleQLearning.target_func`, `coax/td_learning/_doubleqlearning.py:99-134`, for discrete actions. -/
noncomputable def doubleQLearning (n : Nat) (q qTarg : QFn P σ (List ℝ)) (b : TBatch σ (List ℝ)) : Except Err (List ℝ) :=
  match functionType2 n (qTarg.forward qTarg.params) b.S_next with
  | .error e => .error e
  | .ok Q_s => match greedy n Q_s with
    | .error e => .error e
    | .ok A => match functionType1 n (q.forward q.params) b.S_next A with
      | .error e => .error e
      | .ok Q => backup q.transform qTarg.inverse b Q

/-- The same for other action spaces.  (`coax/td_learning/_doubleqlearning.py:119-134`.) -/
noncomputable def doubleQLearningCont (mode : List σ → List α) (q qTarg : QFn P σ α) (b : TBatch σ α) : Except Err (List ℝ) :=
  match evalAt (q.forward q.params) b.S_next (mode b.S_next) with
  | .error e => .error e
  | .ok Q => backup q.transform qTarg.inverse b Q

/-- `jax.nn.softmax` of one row.  (`coax/td_learning/_expectedsarsa.py:107`.) -/
noncomputable def softmax (l : List ℝ) : List ℝ := l.map (fun x => Real.exp x / (l.map Real.exp).sum)

/-- `ExpectedSarsa.target_func`, `coax/td_learning/_expectedsarsa.py:100-118`; `logits` is the output of `pi_targ`. -/
noncomputable def expectedSarsa (n : Nat) (logits : List σ → List (List ℝ)) (q qTarg : QFn P σ (List ℝ)) (b : TBatch σ (List ℝ)) :
    Except Err (List ℝ) :=
  match functionType1 n (qTarg.forward qTarg.params) b.S_next ((logits b.S_next).map softmax) with
  | .error e => .error e
  | .ok Q => backup q.transform qTarg.inverse b Q

/-- `temperature * logsumexp(Q / temperature)` of one row, `coax/td_learning/_softqlearning.py:102`. -/
noncomputable def softMax (tau : ℝ) (q : List ℝ) : ℝ := tau * Real.log ((q.map (fun x => Real.exp (x / tau))).sum)

/-- `SoftQLearning.target_func`, `coax/td_learning/_softqlearning.py:95-106`. -/
noncomputable def softQLearning (n : Nat) (tau : ℝ) (q qTarg : QFn P σ (List ℝ)) (b : TBatch σ (List ℝ)) : Except Err (List ℝ) :=
  match functionType2 n (qTarg.forward qTarg.params) b.S_next with
  | .error e => .error e
  | .ok Q_s =>
    if Q_s.any (fun r => decide (r.length ≠ n)) then .error .assertionError
    else backup q.transform qTarg.inverse b (Q_s.map (softMax tau))

/-- `jnp.min(jnp.stack(arrays, axis=-1), axis=-1)`, `coax/td_learning/_clippeddoubleqlearning.py:297,330`. -/
noncomputable def stackMin : List (List ℝ) → Except Err (List ℝ)
  | [] => .error .valueError
  | v :: vs => if vs.any (fun u => decide (u.length ≠ v.length)) then .error .valueError else .ok (vs.foldl (List.zipWith min) v)

/-- The inner loop of `ClippedDoubleQLearning.target_func`: evaluate given actions on all target q-functions and undo their value
transforms, `coax/td_learning/_clippeddoubleqlearning.py:252-264`. -/
noncomputable def evaluateAll (n : Nat) (qs : List (QFn P σ (List ℝ))) (S : List σ) (A : List (List ℝ)) : Except Err (List (List ℝ)) :=
  qs.mapM (fun q => (functionType1 n (q.forward q.params) S A).map (fun Q => Q.map q.inverse))

/-- The nested loops, `coax/td_learning/_clippeddoubleqlearning.py:238-265`: all values, the outer index being the q-function that
chose the action. -/
noncomputable def clippedValues (n : Nat) (qs : List (QFn P σ (List ℝ))) (S : List σ) : Except Err (List (List ℝ)) :=
  match qs.mapM (fun q => (match functionType2 n (q.forward q.params) S with
      | .error e => .error e
      | .ok Q_s => match Q_s.mapM greedyRow with
        | .error e => .error e
        | .ok A => evaluateAll n qs S A : Except Err (List (List ℝ)))) with
  | .error e => .error e
  | .ok vss => .ok vss.flatten

/-- `ClippedDoubleQLearning.target_func`, `coax/td_learning/_clippeddoubleqlearning.py:229-333`, for discrete actions and
deterministic q. -/
noncomputable def clippedDoubleQ (n : Nat) (q : QFn P σ (List ℝ)) (qs : List (QFn P σ (List ℝ))) (b : TBatch σ (List ℝ)) : Except Err (List ℝ) :=
  match clippedValues n qs b.S_next with
  | .error e => .error e
  | .ok vs => match stackMin vs with
    | .error e => .error e
    | .ok m => backup q.transform id b m

/-- The same for other action spaces, lines 267-293; `modes` are the actions of the target policies: their modes, or samples
for `SoftClippedDoubleQLearning` (`coax/td_learning/_softclippeddoubleqlearning.py:13-121`, otherwise the same code). -/
noncomputable def clippedDoubleQCont (modes : List (List σ → List α)) (q : QFn P σ α) (qs : List (QFn P σ α)) (b : TBatch σ α) : Except Err (List ℝ) :=
  match modes.mapM (fun mode => qs.mapM (fun q => (evalAt (q.forward q.params) b.S_next (mode b.S_next)).map (fun Q => Q.map q.inverse))) with
  | .error e => .error e
  | .ok vss => match stackMin vss.flatten with
    | .error e => .error e
    | .ok m => backup q.transform id b m

/-- The consistency checks of `ClippedDoubleQLearning.__init__`, `coax/td_learning/_clippeddoubleqlearning.py:109-118, 335-360`, on
lists of the right types (`none` is an argument that is not a list). -/
def checkLists (discrete : Bool) (piTargs qTargs : Option Nat) : Option Err :=
  let pi : Option Err :=
    if discrete then none
    else match piTargs with
      | none => some .typeError
      | some k => if k < 1 then some .valueError else none
  match pi with
  | some e => some e
  | none => match qTargs with
    | none => some .typeError
    | some k =>
      if k = 0 then some .valueError
      else if discrete then (if k < 2 then some .valueError else none)
      else if k * piTargs.getD 0 < 2 then some .valueError else none

end Coax.TD
