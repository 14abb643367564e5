import Verif.Err
import Verif.Policy.Regularizers
import Mathlib.Algebra.Field.Basic

/-!
Model of `coax.utils.jit` and `JittedFunc` (`coax/utils/_jit.py`) and of the objects whose methods are such functions.

`jax.jit` runs the Python body of a function once for every combination of static arguments and of shapes of the other arguments.  What the body reads from
Python objects while it runs becomes part of the compiled function, which is kept.  The body of a function is therefore modelled by a function of the
attributes it can read and of what it can see of its arguments; its result is the compiled function or the exception that the body raises.
-/

namespace Coax.Jit

variable {W Arr Av Ob Out : Type _}

/-- A positional argument: a pytree of arrays, or any other Python object, which can be used as a static argument if it can be hashed.
(`coax/utils/_jit.py:58-59`.) -/
inductive Arg (Arr Ob : Type _) where
  | arr (x : Arr)
  | obj (o : Ob)

/-- What the body of the function sees of an argument while it is traced: structure and shapes of an array argument, the value of a static one.
(`coax/utils/_jit.py:75-79`.) -/
inductive KeyPart (Av Ob : Type _) where
  | aval (a : Av)
  | static (o : Ob)
  deriving DecidableEq

/-- The key of the compiled function for a list of arguments of which the first has position `i`: `ValueError` for a static argument that cannot be hashed
(these are looked for first), `TypeError` for another object at a position that is not static (`jax.jit`, called at `coax/utils/_jit.py:75-79`). -/
def keyFrom (aval : Arr → Av) (static : List Nat) : Nat → List (Arg Arr Ob) → Except Err (List (KeyPart Av Ob))
  | _, [] => .ok []
  | i, a :: as =>
    match a with
    | .arr x =>
      if i ∈ static then .error .valueError
      else match keyFrom aval static (i + 1) as with
        | .error e => .error e
        | .ok k => .ok (.aval (aval x) :: k)
    | .obj o =>
      if i ∈ static then match keyFrom aval static (i + 1) as with
        | .error e => .error e
        | .ok k => .ok (.static o :: k)
      else match keyFrom aval static (i + 1) as with
        | .error .valueError => .error .valueError
        | _ => .error .typeError

/-- The body of a Python function, as `jax.jit` runs it. (`coax/utils/_jit.py:53`.) -/
abbrev Body (W Arr Av Ob Out : Type _) := W → List (KeyPart Av Ob) → Except Err (List (Arg Arr Ob) → Out)

/-- `JittedFunc`, `coax/utils/_jit.py:49-79`; `compiled` are the functions that `self._jitted_func` has compiled so far. -/
structure JittedFunc (W Arr Av Ob Out : Type _) where
  func : Body W Arr Av Ob Out
  staticArgnums : List Nat
  donateArgnums : List Nat
  compiled : List (List (KeyPart Av Ob) × (List (Arg Arr Ob) → Out))

/-- `jit` and `JittedFunc.__init__`, `coax/utils/_jit.py:46, 52-56, 75-79`. -/
def jit (func : Body W Arr Av Ob Out) (static donate : List Nat) : JittedFunc W Arr Av Ob Out :=
  ⟨func, static, donate, []⟩

/-- `JittedFunc.__call__`, `coax/utils/_jit.py:58-59`, while the attributes of the objects that the body refers to are `w`. -/
def JittedFunc.call [DecidableEq Av] [DecidableEq Ob] (aval : Arr → Av) (j : JittedFunc W Arr Av Ob Out) (w : W) (args : List (Arg Arr Ob)) :
    Except Err Out × JittedFunc W Arr Av Ob Out :=
  match keyFrom aval j.staticArgnums 0 args with
  | .error e => (.error e, j)
  | .ok k =>
    match j.compiled.lookup k with
    | some c => (.ok (c args), j)
    | none =>
      match j.func w k with
      | .error e => (.error e, j)
      | .ok c => (.ok (c args), { j with compiled := (k, c) :: j.compiled })

/-- `JittedFunc.__getstate__`, `coax/utils/_jit.py:68-69`. -/
def JittedFunc.getstate (j : JittedFunc W Arr Av Ob Out) : Body W Arr Av Ob Out × List Nat × List Nat :=
  (j.func, j.staticArgnums, j.donateArgnums)

/-- `JittedFunc.__setstate__`, `coax/utils/_jit.py:71-73`. -/
def setstate (s : Body W Arr Av Ob Out × List Nat × List Nat) : JittedFunc W Arr Av Ob Out :=
  jit s.1 s.2.1 s.2.2

/-- What happens to the objects of a program: attributes are assigned, the function is called, or everything is replaced by its image under
`loads(dumps(...))` (`coax/utils/_misc.py:187-267`; the body of the function is stored by value, so that the new function is compiled anew). -/
inductive Event (W Arr Ob : Type _) where
  | assign (f : W → W)
  | call (args : List (Arg Arr Ob))
  | reload

/-- A program run: the results of its calls in order.  (`coax/utils/_jit.py:58-73`.) -/
def run [DecidableEq Av] [DecidableEq Ob] (aval : Arr → Av) : W → JittedFunc W Arr Av Ob Out → List (Event W Arr Ob) → List (Except Err Out)
  | _, _, [] => []
  | w, j, .assign f :: es => run aval (f w) j es
  | w, j, .call args :: es => (j.call aval w args).1 :: run aval w (j.call aval w args).2 es
  | w, j, .reload :: es => run aval w (setstate j.getstate) es

/-! ### `EntropyRegularizer` -/

/-- An argument of `function`: the distribution parameters of a batch, or a number.  (`coax/regularizers/_entropy.py:35`.) -/
inductive RegVal (D K : Type _) where
  | dists (ds : List D)
  | num (x : K)

/-- The shape of an argument: batch size, or `none` for a scalar.  (`coax/regularizers/_entropy.py:35`.) -/
def RegVal.aval {D K : Type _} : RegVal D K → Option Nat
  | .dists ds => some ds.length
  | .num _ => none

/-- The attributes of an `EntropyRegularizer` (`coax/regularizers/_entropy.py:31-33`): `beta`, and the entropy of `self.f.proba_dist`. -/
structure EntropyAttrs (D K : Type _) where
  beta : K
  entropy : D → K

/-- The body of `function`, `coax/regularizers/_entropy.py:35-37`. -/
def entropyBody {D K : Type _} [Mul K] [Neg K] : Body (EntropyAttrs D K) (RegVal D K) (Option Nat) Unit (List K) := fun w k =>
  match k with
  | [.aval (some _), .aval none] => .ok (fun args => match args with
    | [.arr (.dists ds), .arr (.num beta)] => ds.map (fun d => -beta * w.entropy d)
    | _ => [])
  | _ => .error .typeError

/-- The attribute `_function` of an `EntropyRegularizer`, `coax/regularizers/_entropy.py:45`. -/
def entropyFunction {D K : Type _} [Mul K] [Neg K] : JittedFunc (EntropyAttrs D K) (RegVal D K) (Option Nat) Unit (List K) :=
  jit entropyBody [] []

/-- What is done with a regularizer: assigning `beta`, and evaluating `self.function(dist_params, **self.hyperparams)`
(`coax/regularizers/_base.py:84-85`, `coax/regularizers/_entropy.py:48-50`). -/
inductive RegEvent (D K : Type _) where
  | setBeta (b : K)
  | eval (ds : List D)

/-- A run of such events.  (`coax/regularizers/_entropy.py:48-50`: the hyperparameters are read at every evaluation.) -/
def entropyRun {D K : Type _} [Mul K] [Neg K] (w : EntropyAttrs D K) (j : JittedFunc (EntropyAttrs D K) (RegVal D K) (Option Nat) Unit (List K)) :
    List (RegEvent D K) → List (Except Err (List K))
  | [] => []
  | .setBeta b :: es => entropyRun { w with beta := b } j es
  | .eval ds :: es =>
    (j.call RegVal.aval w [.arr (.dists ds), .arr (.num w.beta)]).1
      :: entropyRun w (j.call RegVal.aval w [.arr (.dists ds), .arr (.num w.beta)]).2 es

/-! ### `NStepEntropyRegularizer` -/

/-- The attributes of an `NStepEntropyRegularizer`, `coax/regularizers/_nstep_entropy.py:51-55`; `gammas` is `_gammas`. -/
structure NStepAttrs where
  beta : ℝ
  gamma : ℝ
  gammas : List (Option ℝ)

/-- `NStepEntropyRegularizer.__init__`, `coax/regularizers/_nstep_entropy.py:51-55`. -/
def NStepAttrs.init (beta gamma : ℝ) (n : List Nat) : NStepAttrs := ⟨beta, gamma, Pol.gammas gamma n⟩

/-- The arguments of `function` for one sample: entropies and dones at the chosen steps, and `beta`.  (`coax/regularizers/_nstep_entropy.py:62`.) -/
structure NStepVal where
  H : List (Option ℝ)
  dones : List Bool
  beta : ℝ

/-- Number of steps.  (`coax/regularizers/_nstep_entropy.py:62`.) -/
def NStepVal.aval (v : NStepVal) : Nat × Nat := (v.H.length, v.dones.length)

/-- The body of `function`, `coax/regularizers/_nstep_entropy.py:57-64`, for a distribution with two parameters. -/
noncomputable def nstepBody : Body NStepAttrs NStepVal (Nat × Nat) Unit (Option ℝ) := fun w k =>
  match k with
  | [.aval _] => .ok (fun args => match args with
    | [.arr v] => (Pol.sumNaN (List.zipWith (fun gh u => Pol.summand gh.1 gh.2 u) (w.gammas.zip v.H) (Pol.validFromDone v.dones))).map (fun h => -v.beta * h)
    | _ => none)
  | _ => .error .typeError

/-- What is done with an n-step regularizer: assigning `beta` or `gamma`, evaluating.  (`coax/regularizers/_nstep_entropy.py:105-108`.) -/
inductive NStepEvent where
  | setBeta (b : ℝ)
  | setGamma (g : ℝ)
  | eval (H : List (Option ℝ)) (dones : List Bool)

/-- A run of such events.  (`coax/regularizers/_nstep_entropy.py:51-55, 105-108`: assigning `gamma` leaves `_gammas` as it is.) -/
noncomputable def nstepRun (w : NStepAttrs) (j : JittedFunc NStepAttrs NStepVal (Nat × Nat) Unit (Option ℝ)) :
    List NStepEvent → List (Except Err (Option ℝ))
  | [] => []
  | .setBeta b :: es => nstepRun { w with beta := b } j es
  | .setGamma g :: es => nstepRun { w with gamma := g } j es
  | .eval H dones :: es =>
    (j.call NStepVal.aval w [.arr ⟨H, dones, w.beta⟩]).1 :: nstepRun w (j.call NStepVal.aval w [.arr ⟨H, dones, w.beta⟩]).2 es

/-! ### The updaters of value functions -/

/-- A regularizer of an updater: the names and values of its hyperparameters, and the term it computes from the values and from the distribution parameters
of one sample.  (`coax/regularizers/_base.py:26-28, 69-89`.) -/
structure RegObj (X K : Type _) where
  names : List String
  values : List K
  term : List K → X → K

/-- The public attributes `loss_function` and `policy_regularizer` of an updater, `coax/td_learning/_base.py:28-33`.  Of the loss function, its
derivative with respect to the prediction is kept. -/
structure TdAttrs (X K : Type _) where
  lossGrad : K → K → K
  reg : Option (RegObj X K)

/-- One sample: prediction, target, and the distribution parameters of the regularized policy.  (`coax/td_learning/_base.py:439-447`.) -/
structure Sample (X K : Type _) where
  pred : K
  targ : K
  x : X

/-- The arguments of `_td_error_func`, `coax/td_learning/_base.py:179-181`: the samples, and `target_params['reg_hparams']` (lines 489-495). -/
structure TdArgs (X K : Type _) where
  samples : List (Sample X K)
  hparams : Option (List String × List K)

/-- What tracing sees of them: batch size and names of the hyperparameters.  (`coax/td_learning/_base.py:179-181`.) -/
def TdArgs.aval {X K : Type _} (a : TdArgs X K) : Nat × Option (List String) := (a.samples.length, a.hparams.map (·.1))

/-- `loss_func` as far as the TD error is concerned, `coax/td_learning/_base.py:400-443`, for a deterministic value function: the attributes
`self.policy_regularizer` and `self.loss_function` are read while the function is traced. -/
def tdBody {X K : Type _} [Field K] : Body (TdAttrs X K) (TdArgs X K) (Nat × Option (List String)) Unit (List K) := fun w k =>
  match k with
  | [.aval _] => .ok (fun args => match args with
    | [.arr a] => a.samples.map (fun s =>
        -w.lossGrad (s.targ - match w.reg with
          | none => 0
          | some r => r.term (match a.hparams with | none => [] | some hv => hv.2) s.x) s.pred)
    | _ => [])
  | _ => .error .typeError

/-- An updater: its attributes and its two compiled functions, `coax/td_learning/_base.py:478-479`.  `grads` stands for the TD errors that
`_grads_and_metrics_func` returns beside the gradients (line 471). -/
structure Updater (X K : Type _) where
  attrs : TdAttrs X K
  tdErrorFunc : JittedFunc (TdAttrs X K) (TdArgs X K) (Nat × Option (List String)) Unit (List K)
  gradsFunc : JittedFunc (TdAttrs X K) (TdArgs X K) (Nat × Option (List String)) Unit (List K)

/-- `BaseTDLearningQ.__init__`, `coax/td_learning/_base.py:478-479`. -/
def Updater.init {X K : Type _} [Field K] (attrs : TdAttrs X K) : Updater X K := ⟨attrs, jit tdBody [] [], jit tdBody [] []⟩

/-- What is done with an updater: assigning its public attributes (`coax/td_learning/_base.py:28, 33`), `td_error` (lines 153-181) and
`update(..., return_td_error=True)` (lines 60-90). -/
inductive TdEvent (X K : Type _) where
  | setLoss (g : K → K → K)
  | setReg (r : Option (RegObj X K))
  | tdError (samples : List (Sample X K))
  | update (samples : List (Sample X K))

/-- The arguments that the methods pass on, `coax/td_learning/_base.py:149-151, 179-181`, with `target_params` (lines 489-495) read at the call. -/
def Updater.args {X K : Type _} (u : Updater X K) (samples : List (Sample X K)) : List (Arg (TdArgs X K) Unit) :=
  [.arr ⟨samples, u.attrs.reg.map (fun r => (r.names, r.values))⟩]

/-- A run of such events.  (`coax/td_learning/_base.py:60-90, 153-181`.) -/
def tdRun {X K : Type _} [Field K] (u : Updater X K) : List (TdEvent X K) → List (Except Err (List K))
  | [] => []
  | .setLoss g :: es => tdRun { u with attrs := { u.attrs with lossGrad := g } } es
  | .setReg r :: es => tdRun { u with attrs := { u.attrs with reg := r } } es
  | .tdError b :: es =>
    (u.tdErrorFunc.call TdArgs.aval u.attrs (u.args b)).1
      :: tdRun { u with tdErrorFunc := (u.tdErrorFunc.call TdArgs.aval u.attrs (u.args b)).2 } es
  | .update b :: es =>
    (u.gradsFunc.call TdArgs.aval u.attrs (u.args b)).1
      :: tdRun { u with gradsFunc := (u.gradsFunc.call TdArgs.aval u.attrs (u.args b)).2 } es

/-! ### `affine_transform` -/

/-- The attribute `_affine_transform_func` of a normal, quantile or discretized distribution: the fourth argument, `value_transform`, is static
(`coax/proba_dists/_normal.py:177`, `coax/proba_dists/_empirical_quantile.py:70`, `coax/proba_dists/_discretized_interval.py:121`). -/
def leafAffine (body : Body W Arr Av Ob Out) : JittedFunc W Arr Av Ob Out := jit body [3] []

/-- The attribute `_affine_transform_func` of a composite distribution: no argument is static (`coax/proba_dists/_composite.py:207`). -/
def compositeAffine (body : Body W Arr Av Ob Out) : JittedFunc W Arr Av Ob Out := jit body [] []

end Coax.Jit
