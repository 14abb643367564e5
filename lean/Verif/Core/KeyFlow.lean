import Verif.Core.Keys

/-!
Model of how random keys are handed on inside updates: `hk.PRNGSequence(rng)` and `next(rngs)` in `coax/td_learning`, `coax/policy_objectives`, `coax/model_updaters`, `coax/regularizers`
and in the type views of function approximators.

Only the flow of keys is modelled: what is evaluated, with which key, in which order.  What a consumer does with its key is left open (a haiku network makes a `PRNGSequence` of it).
-/

namespace Coax.Core

/-- What a random key is given to: a preprocessor of observations or actions, a network, a sample of a distribution, `postprocess_variate`
(e.g. `coax/td_learning/_base.py:394,395,412,430`, `coax/policy_objectives/_soft_pg.py:30`). -/
inductive What where
  | obs
  | act
  | net
  | sample
  | post
  deriving DecidableEq, Repr

/-- One use of a key (e.g. `coax/td_learning/_base.py:394`). -/
structure Use where
  what : What
  key : Key
  deriving DecidableEq, Repr

/-- A function with an argument `rng`, reduced to the uses that it makes (e.g. `coax/td_learning/_base.py:378`). -/
abbrev Consumer := Key → List Use

/-- A use of the key itself (e.g. `coax/td_learning/_base.py:394`). -/
def use (w : What) : Consumer := fun k => [⟨w, k⟩]

/-- A call with `next(rngs)` or with `rng` itself (`coax/td_learning/_base.py:412,414`). -/
inductive Step where
  | next (c : Consumer)
  | raw (c : Consumer)

/-- The calls of a function that starts with `rngs = hk.PRNGSequence(rng)` (`coax/td_learning/_base.py:393`): `rng` is the first argument, the state of `rngs` the second.
`next(rngs)` splits the state (haiku reserves one key at a time). -/
def runSteps (rng : Key) : Key → List Step → List Use
  | _, [] => []
  | cur, .next c :: r => c cur.split.2 ++ runSteps rng cur.split.1 r
  | cur, .raw c :: r => c rng ++ runSteps rng cur r

/-- A function that starts with `rngs = hk.PRNGSequence(rng)` (`coax/td_learning/_base.py:393`). -/
def prng (steps : List Step) : Consumer := fun k => runSteps k k steps

/-- A call under `jax.vmap` whose key is not mapped: all `n` rows use the same key (`coax/td_learning/_clippeddoubleqlearning.py:304-310,319`, `coax/regularizers/_nstep_entropy.py:89-96`). -/
def shared (n : Nat) (c : Consumer) : Consumer := fun k => (List.range n).flatMap fun _ => c k

/-- A q-function: whether it is stochastic and whether its network is of type 1 (`coax/_core/q.py:138-190`). -/
structure QFn where
  stochastic : Bool
  type1 : Bool
  deriving DecidableEq, Repr

/-- `function_type1` (and `mean_func_type1`), `coax/_core/q.py:146-149`, `coax/_core/base_stochastic_func_type1.py:126-127,350-351`: the key goes to the network, for both types. -/
def QFn.functionType1 (_ : QFn) : Consumer := use .net

/-- `function_type2` (and `mean_func_type2`), `coax/_core/q.py:172-185`, `coax/_core/base_stochastic_func_type1.py:159-172,370-371`. -/
def QFn.functionType2 (q : QFn) : Consumer := if q.type1 then prng [.next (use .act), .next (use .net)] else use .net

/-- The steps that compute `Q_s` and average stochastic values, `coax/td_learning/_qlearning.py:118-122`. -/
def QFn.valuesType2 (q : QFn) (stochastic : Bool) : List Step :=
  if stochastic then [.next q.functionType2, .next (use .post)] else [.next q.functionType2]

/-- The steps that compute `Q_sa` and average stochastic values, `coax/td_learning/_clippeddoubleqlearning.py:254-261`. -/
def QFn.valuesType1 (q : QFn) : List Step :=
  if q.stochastic then [.next q.functionType1, .next (use .post)] else [.next q.functionType1]

/-- A policy: parametrized, or derived from a q-function (`coax/_core/policy.py`, `coax/_core/value_based_policy.py:34-40`). -/
inductive PFn where
  | param
  | valueBased (q : QFn)
  deriving DecidableEq, Repr

/-- `function` and `mode_func` of a policy: `coax/_core/base_stochastic_func_type2.py:107-108`, `coax/_core/value_based_policy.py:34-40,189-190,254-255`. -/
def PFn.function : PFn → Consumer
  | .param => use .net
  | .valueBased q => prng (q.valuesType2 q.stochastic)

/-- `policy_regularizer` of an updater, or `regularizer` of a policy objective: none; entropy or KL divergence; n-step entropy over `n` states (`coax/regularizers/_base.py:72-81`,
`coax/regularizers/_nstep_entropy.py:81-98`). -/
inductive RegK where
  | none
  | plain (f : PFn)
  | nstep (n : Nat) (f : PFn)
  deriving DecidableEq, Repr

/-- `batch_eval`, `coax/regularizers/_base.py:72-81`, `coax/regularizers/_nstep_entropy.py:81-98`; the network of the latter gets the first key, because of Python's order of evaluation.
Regularizers of type-1 functions raise and are left out. -/
def RegK.batchEval : RegK → Option Consumer
  | .none => Option.none
  | .plain f => some (prng [.next (use .obs), .next f.function])
  | .nstep n f => some fun k => shared n (use .obs) k.split.1.split.2 ++ shared n f.function k.split.2

/-- The step of the regularizer in the loss of an updater, `coax/td_learning/_base.py:401-406`. -/
def RegK.steps (r : RegK) : List Step := r.batchEval.toList.map .next

/-- `_get_target_dist_params` of a v-function, `coax/td_learning/_base.py:347-357`. -/
def targetDistV : Consumer := prng [.next (use .obs), .next (use .net)]

/-- `_get_target_dist_params` of a q-function, `coax/td_learning/_base.py:504-515`. -/
def targetDistQ (qTarg : QFn) : Consumer := prng [.next (use .obs), .next qTarg.functionType1]

/-- The TD updaters with what their flow of keys depends on (`coax/td_learning`); `rows` is the batch size.  SoftQLearning rejects stochastic q-functions (`coax/td_learning/_softqlearning.py:84`). -/
inductive UpdK where
  | simpleTD (stochastic : Bool)
  | sarsa (q qTarg : QFn)
  | expectedSarsa (q qTarg : QFn) (pi : PFn)
  | qLearning (q qTarg : QFn)
  | qLearningCont (q qTarg : QFn) (pi : PFn)
  | softQLearning (qTarg : QFn)
  | clipped (q : QFn) (qTargs : List QFn) (rows : Nat)
  | clippedCont (q : QFn) (qTargs : List QFn) (pis : List PFn) (sampled : Bool) (rows : Nat)
  deriving DecidableEq, Repr

/-- `is_stochastic(self.v)` or `is_stochastic(self.q)`, `coax/td_learning/_base.py:254,410`. -/
def UpdK.stochastic : UpdK → Bool
  | .simpleTD s => s
  | .softQLearning _ => false
  | .sarsa q _ | .expectedSarsa q _ _ | .qLearning q _ | .qLearningCont q _ _ | .clipped q _ _ | .clippedCont q _ _ _ _ => q.stochastic

/-- The last steps of the targets of q-learning updaters: `coax/td_learning/_qlearning.py:139-144` (`evaluator` is `self.q` or `self.q_targ`). -/
def bootstrapSteps (q qTarg evaluator : QFn) : List Step :=
  [.next (use .obs), .next (if q.stochastic then targetDistQ qTarg else evaluator.functionType1)]

/-- The loop over `q_j` that evaluates actions, `coax/td_learning/_clippeddoubleqlearning.py:252-265`. -/
def evalSteps (qTargs : List QFn) : List Step := qTargs.flatMap fun qj => .next (use .obs) :: qj.valuesType1

/-- The last step of the clipped updaters with stochastic q-functions: `coax/td_learning/_clippeddoubleqlearning.py:300-328`, with `self.q_targ = self.q`. -/
def clippedSteps (q : QFn) (rows : Nat) : List Step := if q.stochastic then [.next (shared rows (targetDistQ q))] else []

/-- `target_func` of the updaters: `coax/td_learning/_simple_td.py:71-79`, `_sarsa.py:69-78`, `_expectedsarsa.py:100-116`, `_qlearning.py:111-144` (and `_doubleqlearning.py:99-132`),
`_softqlearning.py:95-99`, `_clippeddoubleqlearning.py:229-328`, `_softclippeddoubleqlearning.py:13-116`. -/
def UpdK.target : UpdK → Consumer
  | .simpleTD s => prng [.next (use .obs), .next (if s then targetDistV else use .net)]
  | .sarsa q qTarg => prng [.next (use .obs), .next (use .act), .next (if q.stochastic then targetDistQ qTarg else qTarg.functionType1)]
  | .expectedSarsa q qTarg pi => prng ([.next (use .obs), .next pi.function] ++ bootstrapSteps q qTarg qTarg)
  | .qLearning q qTarg => prng (.next (use .obs) :: qTarg.valuesType2 q.stochastic ++ bootstrapSteps q qTarg q)
  | .qLearningCont q qTarg pi => prng ([.next (use .obs), .next pi.function] ++ bootstrapSteps q qTarg q)
  | .softQLearning qTarg => prng [.next (use .obs), .next qTarg.functionType2]
  | .clipped q qTargs rows => prng ((qTargs.flatMap fun qi => .next (use .obs) :: qi.valuesType2 qi.stochastic ++ evalSteps qTargs) ++ clippedSteps q rows)
  | .clippedCont q qTargs pis sampled rows =>
    prng ((pis.flatMap fun pi => [.next (use .obs), .next pi.function] ++ (if sampled then [.next (use .sample)] else []) ++ evalSteps qTargs) ++ clippedSteps q rows)

/-- The preprocessors at the start of a loss: `coax/td_learning/_base.py:239` for v-functions, `coax/td_learning/_base.py:394-395` for q-functions. -/
def UpdK.inputs : UpdK → List Step
  | .simpleTD _ => [.next (use .obs)]
  | _ => [.next (use .obs), .next (use .act)]

/-- The evaluations of target networks that are only needed for metrics, without `postprocess_variate`: `coax/td_learning/_base.py:276-279,289-290,433-436,446-447`,
`coax/td_learning/_clippeddoubleqlearning.py:170-177`. -/
def UpdK.metrics : UpdK → List Step
  | .clipped _ qTargs _ | .clippedCont _ qTargs _ _ _ => qTargs.flatMap QFn.valuesType1
  | u => if u.stochastic then [.next (use .net), .next (use .post)] else [.next (use .net)]

/-- `loss_func` of the updaters: `coax/td_learning/_base.py:238-290,393-447`, `coax/td_learning/_clippeddoubleqlearning.py:121-177`.  For stochastic functions `target_func` gets `rng` itself
(`coax/td_learning/_base.py:257,414`, `coax/td_learning/_clippeddoubleqlearning.py:141`). -/
def UpdK.loss (u : UpdK) (r : RegK) : Consumer :=
  prng (u.inputs ++ r.steps ++ .next (use .net) :: (if u.stochastic then [.raw u.target, .next (use .post), .next (use .post)] else [.next u.target]) ++ u.metrics)

/-- `td_error` or `grads_and_metrics` with `self._f.rng`: `coax/td_learning/_base.py:149-151,179-181,304-309,315-318`. -/
def UpdK.call (u : UpdK) (r : RegK) (grads : Bool) : Consumer := if grads then prng [.next (u.loss r)] else u.loss r

/-- The policy objectives: VanillaPG and PPOClip (`coax/policy_objectives/_vanilla_pg.py:37`, `coax/policy_objectives/_ppo_clip.py:66`), DeterministicPG (`coax/policy_objectives/_deterministic_pg.py:87`), SoftPG (`coax/policy_objectives/_soft_pg.py:24`). -/
inductive ObjK where
  | vanilla
  | deterministic (q : QFn)
  | soft (qs : List QFn)
  deriving DecidableEq, Repr

/-- The evaluation of `q_targ`: `coax/policy_objectives/_deterministic_pg.py:95-104`, `coax/policy_objectives/_soft_pg.py:39-45`.  Stochastic q-functions get `rng` itself. -/
def QFn.objectiveSteps (q : QFn) : List Step :=
  .next (use .obs) :: if q.stochastic then [.raw q.functionType1, .next (use .post)] else [.next q.functionType1]

/-- `objective_func`: `coax/policy_objectives/_vanilla_pg.py:37-45`, `_ppo_clip.py:66-74`, `_deterministic_pg.py:87-104`, `_soft_pg.py:24-45`. -/
def ObjK.objective : ObjK → Consumer
  | .vanilla => prng [.next (use .obs), .next (use .net), .next (use .act)]
  | .deterministic q => prng ([.next (use .obs), .next (use .net)] ++ q.objectiveSteps)
  | .soft qs => prng ([.next (use .obs), .next (use .net), .next (use .sample)] ++ qs.flatMap QFn.objectiveSteps)

/-- `loss_func` of policy objectives, called with `self._pi.rng`: `coax/policy_objectives/_base.py:45-68,220`.  The regularizer gets the same `rng` as the objective. -/
def ObjK.loss (o : ObjK) (r : RegK) : Consumer := fun k => o.objective k ++ (r.batchEval.elim [] fun c => c k)

/-- `loss_func` of `ModelUpdater`: `coax/model_updaters/_model_updater.py:71-88`, called with `self.model.rng` (`coax/model_updaters/_model_updater.py:195`). -/
def modelLoss (stochastic transitionModel : Bool) : Consumer :=
  prng ([.next (use .obs), .next (use .act), .next (use .net)] ++ (if stochastic then [.next (use .sample)] else []) ++ if transitionModel then [.next (use .obs)] else [])

end Coax.Core
