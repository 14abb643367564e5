import Verif.Err

/-!
Model of the type checks of coax: the predicates `is_vfunction`, `is_qfunction`, ... (`coax/utils/_misc.py:521-668`), the constructors of updaters, policy objectives,
regularizers and of composed functions, as far as they check their arguments, and what the methods of the updaters require of them afterwards.

An object is described by its class, by whether its action space is discrete, and by the structure of its parameters.  Numbers are not modelled here.
-/

namespace Coax.Kinds

/-- The classes that the checks tell apart.  (`coax/utils/_misc.py:540-668`; `RandomPolicy` is at `coax/_core/random_policy.py:14`.) -/
inductive Cls where
  | v
  | stochasticV
  | q
  | rewardFunction
  | stochasticQ
  | stochasticRewardFunction
  | successorStateQ
  | transitionModel
  | stochasticTransitionModel
  | policy
  | epsilonGreedy
  | boltzmann
  | randomPolicy
  | other
  deriving DecidableEq

/-- Base classes among these: `class RewardFunction(Q)` (`coax/_core/reward_function.py:9`) and `class StochasticRewardFunction(StochasticQ)`
(`coax/_core/stochastic_reward_function.py:9`). -/
def base : Cls → Option Cls
  | .rewardFunction => some .q
  | .stochasticRewardFunction => some .stochasticQ
  | _ => none

/-- `isinstance(obj, (C1, C2, ...))` for an object of class `c`.  (`coax/utils/_misc.py:542`.) -/
def isinstance (c : Cls) (l : List Cls) : Bool :=
  l.contains c || match base c with | none => false | some b => l.contains b

/-- `is_transition_model`, `coax/utils/_misc.py:521-542`. -/
def isTransitionModel (c : Cls) : Bool := isinstance c [.transitionModel, .stochasticTransitionModel]

/-- `is_reward_function`, `coax/utils/_misc.py:545-566`. -/
def isRewardFunction (c : Cls) : Bool := isinstance c [.rewardFunction, .stochasticRewardFunction]

/-- `is_vfunction`, `coax/utils/_misc.py:569-590`. -/
def isVFunction (c : Cls) : Bool := isinstance c [.v, .stochasticV]

/-- `is_qfunction`, `coax/utils/_misc.py:593-615`. -/
def isQFunction (c : Cls) : Bool := isinstance c [.q, .stochasticQ, .successorStateQ]

/-- `is_stochastic`, `coax/utils/_misc.py:618-644`. -/
def isStochastic (c : Cls) : Bool :=
  isinstance c [.policy, .stochasticV, .stochasticQ, .stochasticRewardFunction, .stochasticTransitionModel]

/-- `is_policy`, `coax/utils/_misc.py:647-668`. -/
def isPolicy (c : Cls) : Bool := isinstance c [.policy, .epsilonGreedy, .boltzmann]

/-- An object: class, whether its action space is discrete, structure of its parameters and of its function state, and the attribute `modeltype`.
(`coax/_core/base_func.py:57-92`, `coax/_core/q.py:193`.) -/
structure Obj where
  cls : Cls
  discrete : Bool
  arch : Nat
  modeltype : Nat
  deriving DecidableEq

/-- The attribute `action_space`: state values do not have one (`coax/_core/v.py:84`, `coax/_core/base_func.py:66-70`), nor do value-based policies
(`coax/_core/value_based_policy.py:29-32`). -/
def Obj.hasActionSpace (o : Obj) : Bool :=
  match o.cls with
  | .v => false
  | .epsilonGreedy => false
  | .boltzmann => false
  | .other => false
  | _ => true

/-- An argument `q_targ` or `v_targ`: `None`, an object, or a list or tuple.  (`coax/td_learning/_base.py:213, 368`.) -/
inductive Targ where
  | none
  | obj (o : Obj)
  | list
  deriving DecidableEq

/-- An argument `regularizer`: `None`, a `Regularizer`, or something else.  (`coax/td_learning/_base.py:30-32`.) -/
inductive RegArg where
  | none
  | regularizer
  | other
  deriving DecidableEq

/-- An updater of a value function: `_f` and `_f_targ`.  (`coax/td_learning/_base.py:26-27`.) -/
structure Updater where
  f : Obj
  fTarg : Obj ⊕ Unit
  deriving DecidableEq

/-- `BaseTDLearning.__init__`, `coax/td_learning/_base.py:24-44`. -/
def baseTD (f : Obj) (fTarg : Targ) (reg : RegArg) : Except Err Updater :=
  if reg = .other then .error .typeError
  else .ok ⟨f, match fTarg with | .none => .inl f | .obj o => .inl o | .list => .inr ()⟩

/-- `BaseTDLearningV.__init__` (which is that of `SimpleTD`), `coax/td_learning/_base.py:209-221`. -/
def tdV (v : Obj) (vTarg : Targ) (reg : RegArg) : Except Err Updater :=
  if isVFunction v.cls then
    match vTarg with
    | .none => baseTD v .none reg
    | .obj o => if isVFunction o.cls then baseTD v (.obj o) reg else .error .typeError
    | .list => .error .typeError
  else .error .typeError

/-- `BaseTDLearningQ.__init__` (which is that of `Sarsa`), `coax/td_learning/_base.py:364-376`. -/
def tdQ (q : Obj) (qTarg : Targ) (reg : RegArg) : Except Err Updater :=
  if isQFunction q.cls then
    match qTarg with
    | .none => baseTD q .none reg
    | .list => baseTD q .list reg
    | .obj o => if isQFunction o.cls then baseTD q (.obj o) reg else .error .typeError
  else .error .typeError

/-- `BaseTDLearningQWithTargetPolicy.__init__`, `coax/td_learning/_base.py:522-535`. -/
def tdQPi (q : Obj) (pi : Option Obj) (qTarg : Targ) (reg : RegArg) : Except Err Updater :=
  match pi with
  | none => tdQ q qTarg reg
  | some p => if isPolicy p.cls then tdQ q qTarg reg else .error .typeError

/-- `QLearning.__init__` and `DoubleQLearning.__init__`, `coax/td_learning/_qlearning.py:93-109`, `coax/td_learning/_doubleqlearning.py:81-97`. -/
def qLearning (q : Obj) (pi : Option Obj) (qTarg : Targ) (reg : RegArg) : Except Err Updater :=
  match tdQPi q pi qTarg reg with
  | .error e => .error e
  | .ok u => if pi.isNone && !q.discrete then .error .typeError else .ok u

/-- `ExpectedSarsa.__init__`, `coax/td_learning/_expectedsarsa.py:82-98`. -/
def expectedSarsa (q : Obj) (pi : Option Obj) (qTarg : Targ) (reg : RegArg) : Except Err Updater :=
  if q.hasActionSpace then
    if q.discrete then
      if pi.isNone then .error .typeError else tdQPi q pi qTarg reg
    else .error .notImplementedError
  else .error .attributeError

/-- `SoftQLearning.__init__`, `coax/td_learning/_softqlearning.py:77-93`. -/
def softQLearning (q : Obj) (qTarg : Targ) (reg : RegArg) : Except Err Updater :=
  if q.hasActionSpace then
    if q.discrete then
      if isStochastic q.cls then .error .notImplementedError else tdQ q qTarg reg
    else .error .notImplementedError
  else .error .attributeError

/-- An argument that should be a list of objects: `None`, a list or tuple, or something else.  (`coax/td_learning/_clippeddoubleqlearning.py:335-359`.) -/
inductive ListArg where
  | none
  | list (l : List Obj)
  | other

/-- `_check_input_lists` for the policies, `coax/td_learning/_clippeddoubleqlearning.py:335-351`, returning the list; for discrete actions nothing is checked. -/
def checkPis (discrete : Bool) : ListArg → Except Err (List Obj)
  | .none => if discrete then .ok [] else .error .typeError
  | .list l =>
    if discrete then .ok l
    else if l.isEmpty then .error .valueError
    else if l.all (fun p => isPolicy p.cls) then .ok l
    else .error .typeError
  | .other => if discrete then .ok [] else .error .typeError

/-- `_check_input_lists` for the q-functions, `coax/td_learning/_clippeddoubleqlearning.py:353-360`, `coax/policy_objectives/_soft_pg.py:63-71`. -/
def checkQs : ListArg → Except Err (List Obj)
  | .list l => if l.isEmpty then .error .valueError else if l.all (fun q => isQFunction q.cls) then .ok l else .error .typeError
  | _ => .error .typeError

/-- `ClippedDoubleQLearning.__init__`, `coax/td_learning/_clippeddoubleqlearning.py:98-119`: returns the two lists. -/
def clippedDoubleQ (q : Obj) (pis qs : ListArg) (reg : RegArg) : Except Err (List Obj × List Obj) :=
  match tdQ q .none reg with
  | .error e => .error e
  | .ok _ =>
    match checkPis q.discrete pis with
    | .error e => .error e
    | .ok ps =>
      match checkQs qs with
      | .error e => .error e
      | .ok ql =>
        if q.discrete then (if ql.length < 2 then .error .valueError else .ok (ps, ql))
        else if ql.length * ps.length < 2 then .error .valueError
        else .ok (ps, ql)

/-- `PolicyObjective.__init__`, `coax/policy_objectives/_base.py:32-36`. -/
def policyObjective (pi : Obj) (reg : RegArg) : Except Err Unit :=
  if isinstance pi.cls [.policy] then (if reg = .other then .error .typeError else .ok ()) else .error .typeError

/-- `DeterministicPG.__init__`, `coax/policy_objectives/_deterministic_pg.py:62-69`; a `SuccessorStateQ` has no attribute `modeltype`. -/
def deterministicPG (pi q : Obj) (reg : RegArg) : Except Err Unit :=
  if isQFunction q.cls then
    if q.cls = .successorStateQ then .error .attributeError
    else if q.modeltype = 1 then policyObjective pi reg
    else .error .typeError
  else .error .typeError

/-- `ModelUpdater.__init__`, `coax/model_updaters/_model_updater.py:52-56`. -/
def modelUpdater (model : Obj) (reg : RegArg) : Except Err Unit :=
  if isRewardFunction model.cls || isTransitionModel model.cls then (if reg = .other then .error .typeError else .ok ()) else .error .typeError

/-- `Regularizer.__init__`, `coax/regularizers/_base.py:21-24`. -/
def regularizer (f : Obj) : Except Err Unit := if isStochastic f.cls then .ok () else .error .typeError

/-- `BaseValueBasedPolicy.__init__`, `coax/_core/value_based_policy.py:22-27`. -/
def valueBasedPolicy (q : Obj) : Except Err Unit :=
  if isQFunction q.cls then (if q.discrete then .ok () else .error .typeError) else .error .typeError

/-- `SuccessorStateQ.__init__`, `coax/_core/successor_state_q.py:47-54`. -/
def successorStateQ (v p r : Obj) : Except Err Unit :=
  if isVFunction v.cls then
    if isTransitionModel p.cls then (if isRewardFunction r.cls then .ok () else .error .typeError) else .error .typeError
  else .error .typeError

/-! ### Using an updater -/

/-- `obj.params = ...` and `obj.function_state = ...`: a `SuccessorStateQ` has no setters (`coax/_core/successor_state_q.py:88-103`), function approximators do
(`coax/_core/base_func.py:124-128, 149-155`). -/
def assignParams (o : Obj) : Except Err Unit := if o.cls = .successorStateQ then .error .attributeError else .ok ()

/-- `f.function(params, ...)` with the parameters of another object: the structures must agree.  (`coax/td_learning/_base.py:276-277, 289-290, 433-434, 446-447`; haiku raises
`ValueError`.  Not modelled: parameters with further entries, which haiku ignores.) -/
def applyWith (f params : Obj) : Except Err Unit := if f.arch = params.arch then .ok () else .error .valueError

/-- What the target needs: the algorithm.  (`coax/td_learning/_simple_td.py:71-81`, `coax/td_learning/_sarsa.py:69-80`, `coax/td_learning/_qlearning.py:111-147`.) -/
inductive Algo where
  | simpleTD
  | sarsa
  | qLearning
  deriving DecidableEq

/-- `target_func` as far as attributes and types are concerned, for `SimpleTD` (`coax/td_learning/_simple_td.py:71-81`), `Sarsa` (`coax/td_learning/_sarsa.py:69-80`) and
`QLearning` with discrete actions (`coax/td_learning/_qlearning.py:114-126`).  If the main function is stochastic, attributes of the target function are used that only a
stochastic function has; if it is not, but the target function is, then its output is a dict: `TypeError` in the arithmetic (lines 81 and 80), and an
error in `chex.assert_rank` (line 124; the class of that error depends on `chex`). -/
def targetFunc (algo : Algo) (f fTarg : Obj) : Except Err Unit :=
  if isStochastic f.cls then (if isStochastic fTarg.cls then .ok () else .error .attributeError)
  else if isStochastic fTarg.cls then (if algo = .qLearning then .error .assertionError else .error .typeError)
  else .ok ()

/-- `td_error`, `coax/td_learning/_base.py:153-181`: `target_params` (lines 333-338, 490-495) reads the parameters of both functions, the target is computed, and the main
function is applied to the parameters of the target function (lines 276-277, 289-290, 433-434, 446-447). -/
def tdError (algo : Algo) (u : Updater) : Except Err Unit :=
  match u.fTarg with
  | .inr _ => .error .attributeError
  | .inl t =>
    match targetFunc algo u.f t with
    | .error e => .error e
    | .ok _ => applyWith u.f t

/-- `update`, `coax/td_learning/_base.py:60-90, 114-116`, for finite gradients. -/
def update (algo : Algo) (u : Updater) : Except Err Unit :=
  match tdError algo u with
  | .error e => .error e
  | .ok _ => assignParams u.f

/-! ### Replacing the optimizer -/

/-- The kinds of updaters that have an attribute `optimizer`.  (`coax/td_learning/_base.py:187`, `coax/model_updaters/_model_updater.py:207`,
`coax/policy_objectives/_base.py:107`.) -/
inductive Owner where
  | td
  | model
  | policy
  deriving DecidableEq

/-- The optimizer of an updater: an identifier, and the structure of its state.  (`coax/td_learning/_base.py:36-37`.) -/
structure Optim where
  id : Nat
  stateStructure : Nat
  deriving DecidableEq

/-- What an updater holds: the optimizer and the structure of `_optimizer_state`.  (`coax/td_learning/_base.py:36-37`.) -/
structure OptAttrs where
  optimizer : Optim
  state : Nat
  deriving DecidableEq

/-- The setter of `optimizer`: `coax/td_learning/_base.py:187-193`, `coax/model_updaters/_model_updater.py:207-213`, and `coax/policy_objectives/_base.py:107-113`, which reads
the attribute `_f` that a policy objective does not have. -/
def setOptimizer (owner : Owner) (o : OptAttrs) (new : Optim) : Except Err OptAttrs :=
  match owner with
  | .policy => .error .attributeError
  | _ => if new.stateStructure = o.state then .ok { o with optimizer := new } else .error .attributeError

/-- The setter of `optimizer_state`: `coax/td_learning/_base.py:199-205`, `coax/model_updaters/_model_updater.py:219-225`, and `coax/policy_objectives/_base.py:119-121`, which
does not check anything. -/
def setOptimizerState (owner : Owner) (o : OptAttrs) (new : Nat) : Except Err OptAttrs :=
  match owner with
  | .policy => .ok { o with state := new }
  | _ => if new = o.state then .ok { o with state := new } else .error .attributeError

end Coax.Kinds
