import Verif.Err

/-!
Model of the constructors of function approximators: which preprocessors, value transform, distribution, seed and type the object gets, and from which example inputs its parameters are initialised.

Spaces, preprocessors and distributions are abstract.  Not modelled: `env` without spaces, types of arguments other than those stated, the check of the output of the network (`_check_output`).
-/

namespace Coax.Core

variable {Sp P D K : Type _}

/-- What the constructors use of spaces, preprocessors and distributions (`coax/_core/q.py:84-86`, `coax/_core/policy.py:48-50`; see the fields). -/
structure Lib (Sp P D K : Type _) where
  /-- `isinstance(space, Discrete)` (`coax/_core/q.py:262,266`) -/
  isDiscrete : Sp → Bool
  /-- `default_preprocessor(space)`, `coax/utils/_array.py:304-370`; raises TypeError for an unsupported space -/
  defaultPre : Sp → Except Err P
  /-- `ProbaDist(space)`, `coax/proba_dists/_composite.py:42-64`; raises TypeError for an unsupported space -/
  probaDist : Sp → Except Err D
  /-- `proba_dist.preprocess_variate` (`coax/_core/stochastic_transition_model.py:64`) -/
  preVariate : D → P
  /-- `proba_dist.postprocess_variate` (`coax/_core/transition_model.py:74`) -/
  postVariate : D → P
  /-- `DiscretizedIntervalDist(Box(low, high, shape=()), num_bins)` (`coax/_core/stochastic_q.py:248-249`) -/
  interval : K → K → Nat → Except Err D
  /-- `EmpiricalQuantileDist(num_quantiles=num_bins)` (`coax/_core/stochastic_q.py:251`) -/
  quantiles : Nat → D

/-- The attributes of an environment that are used (`coax/_core/q.py:94-95`, `coax/_core/stochastic_reward_function.py:73`). -/
structure EnvInfo (Sp K : Type _) where
  observationSpace : Sp
  actionSpace : Sp
  rewardRange : K × K

/-- The settings of a constructed object.  Fields that a class does not have are `none`.  `seed` is the argument given to `random_seed` (`none` stands for a random one).  `exampleObs` and `exampleAct` are
the preprocessors that make the example inputs from which the parameters of the network are initialised (`coax/_core/base_func.py:75-81`). -/
structure Built (P D K : Type _) where
  obsPre : P
  obsPost : Option P
  actPre : Option P
  transform : Option ((K → K) × (K → K))
  dist : Option D
  seed : Option Nat
  modeltype : Nat
  exampleObs : P
  exampleAct : Option P

/-- `if x is None: x = default` (for example `coax/_core/q.py:83-84`); the default is only evaluated if it is needed. -/
def orDefault (x : Option P) (dflt : Except Err P) : Except Err P := match x with
  | some p => .ok p
  | none => dflt

/-- The default value transform, `coax/_core/q.py:87-90`. -/
def orIdentity (vt : Option ((K → K) × (K → K))) : (K → K) × (K → K) := vt.getD (fun x => x, fun x => x)

/-- The check of the signature and the type of a function with actions: `coax/_core/q.py:255-283`, `coax/_core/base_stochastic_func_type1.py:379-410`, `coax/_core/transition_model.py:270-298`. -/
def checkSig12 (discrete : Bool) (sig : List String) : Except Err Nat :=
  if ¬ (sig = ["S", "A", "is_training"] ∨ sig = ["S", "is_training"]) then .error .typeError
  else if sig = ["S", "is_training"] ∧ discrete = false then .error .typeError
  else if sig = ["S", "A", "is_training"] then .ok 1
  else .ok 2

/-- The check of the signature of a function without actions: `coax/_core/v.py:134-138`, `coax/_core/base_stochastic_func_type2.py:173-177`. -/
def checkSig2 (sig : List String) : Except Err Nat :=
  if sig ≠ ["S", "is_training"] then .error .typeError else .ok 2

/-- `V.__init__`, `coax/_core/v.py:67-85`, with `_check_signature`, `coax/_core/v.py:134-147`. -/
def mkV (L : Lib Sp P D K) (env : EnvInfo Sp K) (sig : List String) (obsPre : Option P) (vt : Option ((K → K) × (K → K))) (seed : Option Nat) : Except Err (Built P D K) :=
  (orDefault obsPre (L.defaultPre env.observationSpace)).bind fun o =>
  (checkSig2 sig).bind fun t =>
  (orDefault (some o) (L.defaultPre env.observationSpace)).bind fun eo =>
  .ok { obsPre := o, obsPost := none, actPre := none, transform := some (orIdentity vt), dist := none, seed := seed, modeltype := t, exampleObs := eo, exampleAct := none }

/-- `Q.__init__`, `coax/_core/q.py:74-96`, with `_check_signature`, `coax/_core/q.py:255-283`, which does not pass on the preprocessor of the observations to `example_data`, `coax/_core/q.py:209-223`. -/
def mkQ (L : Lib Sp P D K) (env : EnvInfo Sp K) (sig : List String) (obsPre actPre : Option P) (vt : Option ((K → K) × (K → K))) (seed : Option Nat) : Except Err (Built P D K) :=
  (orDefault obsPre (L.defaultPre env.observationSpace)).bind fun o =>
  (orDefault actPre (L.defaultPre env.actionSpace)).bind fun a =>
  (checkSig12 (L.isDiscrete env.actionSpace) sig).bind fun t =>
  (orDefault none (L.defaultPre env.observationSpace)).bind fun eo =>
  (orDefault (some a) (L.defaultPre env.actionSpace)).bind fun ea =>
  .ok { obsPre := o, obsPost := none, actPre := some a, transform := some (orIdentity vt), dist := none, seed := seed, modeltype := t, exampleObs := eo, exampleAct := some ea }

/-- `BaseStochasticFuncType1.__init__`, `coax/_core/base_stochastic_func_type1.py:29-42`, with `_check_signature`, `coax/_core/base_stochastic_func_type1.py:379-410`. -/
def mkType1 (L : Lib Sp P D K) (env : EnvInfo Sp K) (sig : List String) (o a : P) (d : D) (vt : Option ((K → K) × (K → K))) (seed : Option Nat) : Except Err (Built P D K) :=
  (checkSig12 (L.isDiscrete env.actionSpace) sig).bind fun t =>
  .ok { obsPre := o, obsPost := none, actPre := some a, transform := vt, dist := some d, seed := seed, modeltype := t, exampleObs := o, exampleAct := some a }

/-- `BaseStochasticFuncType2.__init__`, `coax/_core/base_stochastic_func_type2.py:124-136`, with `_check_signature`, `coax/_core/base_stochastic_func_type2.py:173-186`. -/
def mkType2 (sig : List String) (o : P) (d : D) (vt : Option ((K → K) × (K → K))) (seed : Option Nat) : Except Err (Built P D K) :=
  (checkSig2 sig).bind fun t =>
  .ok { obsPre := o, obsPost := none, actPre := none, transform := vt, dist := some d, seed := seed, modeltype := t, exampleObs := o, exampleAct := none }

/-- `StochasticQ._get_proba_dist`, `coax/_core/stochastic_q.py:242-251`. -/
def qDist (L : Lib Sp P D K) (vt : Option ((K → K) × (K → K))) (numBins : Nat) (range : Option (K × K)) : Except Err D := match range with
  | some r => match vt with
    | some (f, _) => L.interval (f r.1) (f r.2) numBins
    | none => L.interval r.1 r.2 numBins
  | none => .ok (L.quantiles numBins)

/-- `StochasticQ.__init__`, `coax/_core/stochastic_q.py:79-104`. -/
def mkStochasticQ (L : Lib Sp P D K) (env : EnvInfo Sp K) (sig : List String) (range : Option (K × K)) (numBins : Nat) (obsPre actPre : Option P) (vt : Option ((K → K) × (K → K))) (seed : Option Nat) :
    Except Err (Built P D K) :=
  (qDist L vt numBins range).bind fun d =>
  (orDefault obsPre (L.defaultPre env.observationSpace)).bind fun o =>
  (orDefault actPre (L.defaultPre env.actionSpace)).bind fun a =>
  mkType1 L env sig o a d (some (orIdentity vt)) seed

/-- `StochasticRewardFunction.__init__`, `coax/_core/stochastic_reward_function.py:68-75`.  A pair is truthy, so `value_range or env.reward_range` is the default only for `None`. -/
def mkStochasticReward (L : Lib Sp P D K) (env : EnvInfo Sp K) (sig : List String) (range : Option (K × K)) (_numBins : Nat) (_obsPre _actPre : Option P) (_vt : Option ((K → K) × (K → K)))
    (_seed : Option Nat) : Except Err (Built P D K) :=
  mkStochasticQ L env sig (some (range.getD env.rewardRange)) 51 none none none none

/-- `StochasticV._get_proba_dist`, `coax/_core/stochastic_v.py:203-209`. -/
def vDist (L : Lib Sp P D K) (vt : Option ((K → K) × (K → K))) (numBins : Nat) (range : K × K) : Except Err D := match vt with
  | some (f, _) => L.interval (f range.1) (f range.2) numBins
  | none => L.interval range.1 range.2 numBins

/-- `StochasticV.__init__`, `coax/_core/stochastic_v.py:66-88`, with `_check_value_range`, `coax/_core/stochastic_v.py:211-219`. -/
def mkStochasticV [LT K] [DecidableLT K] (L : Lib Sp P D K) (env : EnvInfo Sp K) (sig : List String) (range : K × K) (numBins : Nat) (obsPre : Option P) (vt : Option ((K → K) × (K → K)))
    (seed : Option Nat) : Except Err (Built P D K) :=
  if range.1 < range.2 then
    (vDist L vt numBins range).bind fun d =>
    (orDefault obsPre (L.defaultPre env.observationSpace)).bind fun o =>
    mkType2 sig o d (some (orIdentity vt)) seed
  else .error .typeError

/-- `Policy.__init__`, `coax/_core/policy.py:44-58`. -/
def mkPolicy (L : Lib Sp P D K) (env : EnvInfo Sp K) (sig : List String) (obsPre : Option P) (dist : Option D) (seed : Option Nat) : Except Err (Built P D K) :=
  (orDefault obsPre (L.defaultPre env.observationSpace)).bind fun o =>
  (orDefault dist (L.probaDist env.actionSpace)).bind fun d =>
  mkType2 sig o d none seed

/-- `TransitionModel.__init__`, `coax/_core/transition_model.py:62-82`, with `_check_signature`, `coax/_core/transition_model.py:270-298`, which does not pass on the preprocessor of the observations to
`example_data`, `coax/_core/transition_model.py:218-237`. -/
def mkTransitionModel (L : Lib Sp P D K) (env : EnvInfo Sp K) (sig : List String) (obsPre obsPost actPre : Option P) (seed : Option Nat) : Except Err (Built P D K) :=
  (orDefault obsPre ((L.probaDist env.observationSpace).map L.preVariate)).bind fun o =>
  (orDefault obsPost ((L.probaDist env.observationSpace).map L.postVariate)).bind fun p =>
  (orDefault actPre (L.defaultPre env.actionSpace)).bind fun a =>
  (checkSig12 (L.isDiscrete env.actionSpace) sig).bind fun t =>
  (orDefault none ((L.probaDist env.observationSpace).map L.preVariate)).bind fun eo =>
  (orDefault (some a) (L.defaultPre env.actionSpace)).bind fun ea =>
  .ok { obsPre := o, obsPost := some p, actPre := some a, transform := none, dist := none, seed := seed, modeltype := t, exampleObs := eo, exampleAct := some ea }

/-- `StochasticTransitionModel.__init__`, `coax/_core/stochastic_transition_model.py:56-75`. -/
def mkStochasticTransitionModel (L : Lib Sp P D K) (env : EnvInfo Sp K) (sig : List String) (obsPre actPre : Option P) (dist : Option D) (seed : Option Nat) : Except Err (Built P D K) :=
  (orDefault dist (L.probaDist env.observationSpace)).bind fun d =>
  (orDefault obsPre (.ok (L.preVariate d))).bind fun o =>
  (orDefault actPre (L.defaultPre env.actionSpace)).bind fun a =>
  mkType1 L env sig o a d none seed

end Coax.Core
