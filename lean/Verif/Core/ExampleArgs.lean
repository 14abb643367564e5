import Verif.Core.Construct

/-!
Model of the arguments of the class methods `example_data`: with which preprocessors the inputs are made, and of which distribution the output is.

As in `Construct`, spaces, preprocessors and distributions are abstract; how the data are made from them is the subject of `Example`.
-/

namespace Coax.Core

variable {Sp P D K : Type _}

/-- What the example data are made with.  Fields that a class does not have are `none` (`coax/_core/base_stochastic_func_type1.py:196-246`, `coax/_core/v.py:110-132`). -/
structure DataArgs (P D : Type _) where
  obsPre : P
  actPre : Option P
  dist : Option D

/-- `V.example_data`, `coax/_core/v.py:118-119`. -/
def dataV (L : Lib Sp P D K) (env : EnvInfo Sp K) (obsPre : Option P) : Except Err (DataArgs P D) :=
  (orDefault obsPre (L.defaultPre env.observationSpace)).bind fun o =>
  .ok ⟨o, none, none⟩

/-- `Q.example_data`, `coax/_core/q.py:219-223`. -/
def dataQ (L : Lib Sp P D K) (env : EnvInfo Sp K) (obsPre actPre : Option P) : Except Err (DataArgs P D) :=
  (orDefault obsPre (L.defaultPre env.observationSpace)).bind fun o =>
  (orDefault actPre (L.defaultPre env.actionSpace)).bind fun a =>
  .ok ⟨o, some a, none⟩

/-- `Policy.example_data`, `coax/_core/policy.py:156-164`. -/
def dataPolicy (L : Lib Sp P D K) (env : EnvInfo Sp K) (obsPre : Option P) (dist : Option D) : Except Err (DataArgs P D) :=
  (orDefault obsPre (L.defaultPre env.observationSpace)).bind fun o =>
  (orDefault dist (L.probaDist env.actionSpace)).bind fun d =>
  .ok ⟨o, none, some d⟩

/-- `_check_value_range`, `coax/_core/stochastic_q.py:254-261`, `coax/_core/stochastic_v.py:212-219`.  `none` stands for `None`; other objects that are not pairs of numbers are not modelled. -/
def checkRange [LT K] [DecidableLT K] : Option (K × K) → Except Err (K × K)
  | none => .error .typeError
  | some r => if r.1 < r.2 then .ok r else .error .typeError

/-- `StochasticQ.example_data`, `coax/_core/stochastic_q.py:111-130`.  `StochasticRewardFunction` inherits it, `coax/_core/stochastic_reward_function.py:9`. -/
def dataStochasticQ [LT K] [DecidableLT K] (L : Lib Sp P D K) (env : EnvInfo Sp K) (range : Option (K × K)) (numBins : Nat) (obsPre actPre : Option P) (vt : Option ((K → K) × (K → K))) :
    Except Err (DataArgs P D) :=
  (checkRange range).bind fun r =>
  (qDist L vt numBins (some r)).bind fun d =>
  (orDefault obsPre (L.defaultPre env.observationSpace)).bind fun o =>
  (orDefault actPre (L.defaultPre env.actionSpace)).bind fun a =>
  .ok ⟨o, some a, some d⟩

/-- `StochasticV.example_data`, `coax/_core/stochastic_v.py:95-110`. -/
def dataStochasticV [LT K] [DecidableLT K] (L : Lib Sp P D K) (env : EnvInfo Sp K) (range : Option (K × K)) (numBins : Nat) (obsPre : Option P) (vt : Option ((K → K) × (K → K))) :
    Except Err (DataArgs P D) :=
  (checkRange range).bind fun r =>
  (vDist L vt numBins r).bind fun d =>
  (orDefault obsPre (L.defaultPre env.observationSpace)).bind fun o =>
  .ok ⟨o, none, some d⟩

/-- `TransitionModel.example_data`, `coax/_core/transition_model.py:233-237`. -/
def dataTransitionModel (L : Lib Sp P D K) (env : EnvInfo Sp K) (obsPre actPre : Option P) : Except Err (DataArgs P D) :=
  (orDefault obsPre ((L.probaDist env.observationSpace).map L.preVariate)).bind fun o =>
  (orDefault actPre (L.defaultPre env.actionSpace)).bind fun a =>
  .ok ⟨o, some a, none⟩

/-- `StochasticTransitionModel.example_data`, `coax/_core/stochastic_transition_model.py:77-93`.  It has no argument for the preprocessor of observations. -/
def dataStochasticTransitionModel (L : Lib Sp P D K) (env : EnvInfo Sp K) (actPre : Option P) (dist : Option D) : Except Err (DataArgs P D) :=
  (orDefault actPre (L.defaultPre env.actionSpace)).bind fun a =>
  (orDefault dist (L.probaDist env.observationSpace)).bind fun d =>
  .ok ⟨L.preVariate d, some a, some d⟩

end Coax.Core
