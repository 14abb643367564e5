import Verif.Values.Losses
import Verif.Policy.Objectives
import Verif.Core.QTypes

/-!
Model of the loss of `ModelUpdater` (`loss_func` in `coax/model_updaters/_model_updater.py:71-104`), over the reals.

Observations and actions are of arbitrary types.  The forward function is an arbitrary function of batches; params, function state and random keys are fixed.  An observation space whose
preprocessed observations are one array is modelled by an array with two axes (the axes after the first are flattened); for the other spaces they are tuples, lists or dicts of arrays.
-/

namespace Coax.Dyn

open Coax.Values Coax.Pol

/-- An array with one or with two axes, or a tuple, list or dict of arrays (`tree`, whose contents do not matter: `y_pred - y_true` raises).
(`coax/model_updaters/_model_updater.py:77-91`.) -/
inductive Arr where
  | d1 (l : List ℝ)
  | d2 (l : List (List ℝ))
  | tree

/-- Subtraction broadcasts: lengths must agree or be 1.  (`coax/value_losses/_losses.py:48,96`.) -/
def fits (a b : Nat) : Bool := decide (a = b ∨ a = 1 ∨ b = 1)

/-- An entry of a broadcast axis.  (`coax/value_losses/_losses.py:48,96`.) -/
def at1 (l : List ℝ) (j : Nat) : ℝ := if l.length = 1 then l.getD 0 0 else l.getD j 0

/-- A row of a broadcast axis.  (`coax/value_losses/_losses.py:48,96`.) -/
def atRow (l : List (List ℝ)) (i : Nat) : List ℝ := if l.length = 1 then l.getD 0 [] else l.getD i []

/-- The size of the second axis: that of the first row.  Rows have equal lengths.  (`coax/value_losses/_losses.py:48,96`.) -/
def width (l : List (List ℝ)) : Nat := (l.headD []).length

/-- The size of a broadcast axis.  (`coax/value_losses/_losses.py:48,96`.) -/
def joint (a b : Nat) : Nat := if a = 1 then b else a

/-- An elementwise function of two arrays, as `y_pred - y_true` and what follows it in the loss functions, `coax/value_losses/_losses.py:48,96-98`.  The shapes are broadcast:
an array with one axis is a row.  `TypeError` if they do not fit, or if an operand is not an array. -/
def broadcast2 (f : ℝ → ℝ → ℝ) : Arr → Arr → Except Err Arr
  | .d1 y, .d1 p =>
    if fits y.length p.length then .ok (.d1 ((List.range (joint y.length p.length)).map (fun j => f (at1 y j) (at1 p j)))) else .error .typeError
  | .d1 y, .d2 p =>
    if fits y.length (width p) then
      .ok (.d2 ((List.range p.length).map (fun i => (List.range (joint y.length (width p))).map (fun j => f (at1 y j) (at1 (p.getD i []) j)))))
    else .error .typeError
  | .d2 y, .d1 p =>
    if fits (width y) p.length then
      .ok (.d2 ((List.range y.length).map (fun i => (List.range (joint (width y) p.length)).map (fun j => f (at1 (y.getD i []) j) (at1 p j)))))
    else .error .typeError
  | .d2 y, .d2 p =>
    if fits y.length p.length && fits (width y) (width p) then
      .ok (.d2 ((List.range (joint y.length p.length)).map (fun i =>
        (List.range (joint (width y) (width p))).map (fun j => f (at1 (atRow y i) j) (at1 (atRow p i) j)))))
    else .error .typeError
  | _, _ => .error .typeError

/-- `_mean_with_weights`, `coax/value_losses/_losses.py:180-186`. -/
noncomputable def weighted : Arr → List ℝ → Except Err (Option ℝ)
  | .d1 l, w => meanWithWeights (l.map (fun x => [x])) (some w)
  | .d2 l, w => meanWithWeights l (some w)
  | .tree, _ => .error .typeError

/-- `loss_function(y_true, y_pred, W)`, `coax/model_updaters/_model_updater.py:91`, for a loss function that is made from an elementwise one (`mse`, `huber`:
`coax/value_losses/_losses.py:13-99`). -/
noncomputable def lossOf (f : ℝ → ℝ → ℝ) (yTrue yPred : Arr) (w : List ℝ) : Except Err (Option ℝ) :=
  match broadcast2 f yTrue yPred with
  | .error e => .error e
  | .ok l => weighted l w

/-- The entries of a `TransitionBatch` that are used.  (`coax/model_updaters/_model_updater.py:73-75,85-87`.) -/
structure Batch (σ α : Type _) where
  S : List σ
  A : List α
  Rn : List ℝ
  SNext : List σ
  W : List ℝ

/-- What is learned: a reward function with its `value_transform.transform_func`, or a transition model with its observation preprocessor.
(`coax/model_updaters/_model_updater.py:84-89`.) -/
inductive Kind (σ : Type _) where
  | reward (transform : ℝ → ℝ)
  | transition (preprocess : List σ → Arr)

/-- The forward function, `function_type1`: it returns predictions, or parameters of a distribution (one for the whole batch) of which one sample is drawn.
(`coax/model_updaters/_model_updater.py:77-82`.) -/
inductive Forward (σ α D : Type _) where
  | deterministic (f : List σ → List α → Arr)
  | stochastic (f : List σ → List α → D) (sample : D → Arr)

variable {σ α D : Type _}

/-- `y_true`, `coax/model_updaters/_model_updater.py:84-89`. -/
def Kind.target (k : Kind σ) (b : Batch σ α) : Arr :=
  match k with
  | .reward f => .d1 (b.Rn.map f)
  | .transition pre => pre b.SNext

/-- `y_pred`, and `dist_params` if it is assigned, `coax/model_updaters/_model_updater.py:77-82`. -/
def Forward.predict (m : Forward σ α D) (b : Batch σ α) : Arr × Option D :=
  match m with
  | .deterministic f => (f b.S b.A, none)
  | .stochastic f sample => (sample (f b.S b.A), some (f b.S b.A))

/-- The sum of two numbers either of which may be NaN.  (`coax/model_updaters/_model_updater.py:100`.) -/
noncomputable def addNaN : Option ℝ → Option ℝ → Option ℝ
  | some a, some b => some (a + b)
  | _, _ => none

/-- `loss_func`, `coax/model_updaters/_model_updater.py:71-104`: the loss and `loss_bare` of the metrics.  With a regularizer and a deterministic model, `dist_params` is not assigned
(lines 77-82, 100): `UnboundLocalError`. -/
noncomputable def lossFunc (L : Arr → Arr → List ℝ → Except Err (Option ℝ)) (reg : Option (D → List ℝ)) (k : Kind σ) (m : Forward σ α D) (b : Batch σ α) :
    Except Err (Option ℝ × Option ℝ) :=
  let W := clipW b.W
  let (yPred, distParams) := m.predict b
  let yTrue := k.target b
  match L yTrue yPred W with
  | .error e => .error e
  | .ok loss => match reg with
    | none => .ok (loss, loss)
    | some r => match distParams with
      | none => .error .nameError
      | some d => match broadcast (fun w x => w * x) W (r d) with
        | .error e => .error e
        | .ok wr => .ok (addNaN loss (mean wr), loss)

/-- The forward function of a `RewardFunction`, which is a `Q` (`coax/_core/reward_function.py:9`, `coax/model_updaters/_model_updater.py:82`): `function_type1` with preprocessed actions.
If it raises, there is no array. -/
noncomputable def rewardForward (n : Nat) (F : Core.Func σ (List ℝ) ℝ) (S : List σ) (A : List (List ℝ)) : Arr :=
  match Core.functionType1 n F S A with
  | .ok q => .d1 q
  | .error _ => .tree

end Coax.Dyn
