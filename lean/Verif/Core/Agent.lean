import Verif.Core.Keys
import Verif.TD.Update

/-!
Model of an agent: function approximators, their copies, policies derived from q-functions, and the updaters that train them, with all references between them
(`coax/_core/base_func.py`, `coax/_core/value_based_policy.py`, `coax/_base/mixins`, `coax/td_learning/_base.py`, `coax/td_learning/_clippeddoubleqlearning.py`,
`coax/policy_objectives`, `coax/model_updaters/_model_updater.py`).

Objects are found by their number: `nets` are instances of `BaseFunc`, `derived` are instances of `EpsilonGreedy` and `BoltzmannPolicy`, `updaters` are TD updaters,
policy objectives and model updaters.  What an updater computes from the values that it is given is an arbitrary function.  A regularizer is its policy and its
hyperparameters, which do not change.  An exception leaves the changes that were made before, and the program goes on (as if it were caught).
-/

namespace Coax.Agent

open Coax.Core Coax.TD

variable {K C M B : Type _}

/-- The attributes of a `BaseFunc` that change, `coax/_core/base_func.py:71,81`. -/
structure Net (K C : Type _) where
  func : FuncState K C
  rng : Rng

/-- The two classes of derived policies, `coax/_core/value_based_policy.py:158,215`. -/
inductive Kind where
  | epsilonGreedy
  | boltzmann
  deriving DecidableEq

/-- A derived policy: the number of its q-function, and its `epsilon` or `temperature`, `coax/_core/value_based_policy.py:29,187,252`. -/
structure Derived (K : Type _) where
  kind : Kind
  q : Nat
  value : K

/-- A reference to anything that can be used as a policy, `coax/_core/policy.py:6`, `coax/_core/value_based_policy.py:19`. -/
inductive Fn where
  | net (i : Nat)
  | derived (j : Nat)
  deriving DecidableEq

/-- The references that an updater keeps.  The first argument is the function that it trains; `reg` is the policy of `policy_regularizer`.
(`coax/td_learning/_base.py:26-27,529-535`, `coax/td_learning/_clippeddoubleqlearning.py:102-111`, `coax/policy_objectives/_base.py:38-39`,
`coax/policy_objectives/_deterministic_pg.py:69`, `coax/policy_objectives/_soft_pg.py:15`, `coax/model_updaters/_model_updater.py:58`.) -/
inductive Wiring where
  | tdV (v : Nat) (vTarg : Option Nat) (reg : Option Fn)
  | tdQ (q : Nat) (qTarg : Option Nat) (reg : Option Fn)
  | tdQPi (q : Nat) (piTarg : Option Fn) (qTarg : Option Nat) (reg : Option Fn)
  | clipped (q : Nat) (piTargs : List Fn) (qTargs : List Nat) (reg : Option Fn)
  | objective (pi : Nat)
  | deterministicPG (pi : Nat) (qTarg : Nat)
  | softPG (pi : Nat) (qTargs : List Nat)
  | model (p : Nat)

/-- The function that an updater trains, `coax/td_learning/_base.py:26`, `coax/policy_objectives/_base.py:38`, `coax/model_updaters/_model_updater.py:58`. -/
def Wiring.trains : Wiring → Nat
  | .tdV v _ _ => v
  | .tdQ q _ _ => q
  | .tdQPi q _ _ _ => q
  | .clipped q _ _ _ => q
  | .objective pi => pi
  | .deterministicPG pi _ => pi
  | .softPG pi _ => pi
  | .model p => p

/-- `target_params` or `target_function_state` (for a policy objective: what `hyperparams` holds of other functions), `coax/td_learning/_base.py:333-345`. -/
structure Targets (K : Type _) where
  own : Option (PyTree K)
  targ : List (PyTree K)
  pi : List (PyTree K)
  reg : Option (PyTree K)

/-- What an updater is given besides the batch: its own params and state, the targets, the state of the targets, and a key (`coax/td_learning/_base.py:149-151`,
`coax/policy_objectives/_base.py:219-221`, `coax/model_updaters/_model_updater.py:194-196`). -/
structure Given (K : Type _) where
  params : PyTree K
  targets : Targets K
  functionState : PyTree K
  targetState : Targets K
  key : Key

/-- An updater: its references, the state of its optimizer, `_grads_and_metrics_func` (with the hyperparameters of the regularizer), `_apply_grads_func`, and whether
the setter of `optimizer_state` compares structures, `coax/td_learning/_base.py:24-45,199-205`. -/
structure UpdaterObj (K M B : Type _) where
  wiring : Wiring
  optState : PyTree K
  compute : Given K → B → Except Err (Grads K × PyTree K × M)
  applyGrads : PyTree K → PyTree K → Grads K → Except Err (PyTree K × PyTree K)
  checksOpt : Bool

/-- All objects of a program.  (`coax/_core/base_func.py:57`, `coax/_core/value_based_policy.py:22`, `coax/td_learning/_base.py:24`.) -/
structure World (K C M B : Type _) where
  nets : List (Net K C)
  derived : List (Derived K)
  updaters : List (UpdaterObj K M B)

/-- The key under which a derived policy keeps its own number, `coax/_core/value_based_policy.py:205,264-265`. -/
def Kind.label : Kind → String
  | .epsilonGreedy => "epsilon"
  | .boltzmann => "temperature"

/-- The getter of `params` of `EpsilonGreedy` and `BoltzmannPolicy`, `coax/_core/value_based_policy.py:204-205,263-265`. -/
def derivedParams (d : Derived K) (q : PyTree K) : PyTree K := (d.kind.label, [d.value]) :: q.map fun x => ("q/" ++ x.1, x.2)

/-- `params` and `function_state` of a function or derived policy, `coax/_core/base_func.py:119-122,143-147`, `coax/_core/value_based_policy.py:59-60,204-205,263-265`;
`none` if there is no such object. -/
def view (w : World K C M B) : Fn → Option (PyTree K × PyTree K)
  | .net i => w.nets[i]?.map fun n => (n.func.params, n.func.functionState)
  | .derived j => w.derived[j]?.bind fun d => w.nets[d.q]?.map fun n => (derivedParams d n.func.params, n.func.functionState)

/-- `getattr(…, 'params', None)` and `getattr(…, 'function_state', None)` of something that may be `None`, `coax/td_learning/_base.py:337,345,542-543,551-553`. -/
def viewOpt (w : World K C M B) : Option Fn → Option (Option (PyTree K × PyTree K))
  | none => some none
  | some f => (view w f).map some

/-- Params and states of a list of functions, `coax/td_learning/_clippeddoubleqlearning.py:215-217,225-226`, `coax/policy_objectives/_soft_pg.py:21-22`. -/
def viewAll (w : World K C M B) : List Fn → Option (List (PyTree K × PyTree K))
  | [] => some []
  | f :: fs => (view w f).bind fun v => (viewAll w fs).map fun vs => v :: vs

/-- The pair of `target_params` and `target_function_state`, from params and states.  (`coax/td_learning/_base.py:333-345`.) -/
def mkTargets (own : Option (PyTree K × PyTree K)) (targ pi : List (PyTree K × PyTree K)) (reg : Option (PyTree K × PyTree K)) : Targets K × Targets K :=
  (⟨own.map Prod.fst, targ.map Prod.fst, pi.map Prod.fst, reg.map Prod.fst⟩, ⟨own.map Prod.snd, targ.map Prod.snd, pi.map Prod.snd, reg.map Prod.snd⟩)

/-- `target_params` and `target_function_state` of TD updaters, `coax/td_learning/_base.py:333-345,490-502,538-553`,
`coax/td_learning/_clippeddoubleqlearning.py:212-227`, with `f_targ` or `f`, `coax/td_learning/_base.py:27`; the other functions in `hyperparams` of policy objectives,
`coax/policy_objectives/_base.py:124-126`, `coax/policy_objectives/_deterministic_pg.py:81-85`, `coax/policy_objectives/_soft_pg.py:18-22`. -/
def targets (w : World K C M B) : Wiring → Option (Targets K × Targets K)
  | .tdV v vTarg reg =>
    (view w (.net v)).bind fun o => (view w (.net (vTarg.getD v))).bind fun t => (viewOpt w reg).map fun r => mkTargets (some o) [t] [] r
  | .tdQ q qTarg reg =>
    (view w (.net q)).bind fun o => (view w (.net (qTarg.getD q))).bind fun t => (viewOpt w reg).map fun r => mkTargets (some o) [t] [] r
  | .tdQPi q piTarg qTarg reg =>
    (view w (.net q)).bind fun o => (view w (.net (qTarg.getD q))).bind fun t => (viewOpt w piTarg).bind fun p =>
      (viewOpt w reg).map fun r => mkTargets (some o) [t] p.toList r
  | .clipped q piTargs qTargs reg =>
    (view w (.net q)).bind fun o => (viewAll w (qTargs.map Fn.net)).bind fun ts => (viewAll w piTargs).bind fun ps =>
      (viewOpt w reg).map fun r => mkTargets (some o) ts ps r
  | .objective _ => some (mkTargets none [] [] none)
  | .deterministicPG _ qTarg => (view w (.net qTarg)).map fun t => mkTargets none [t] [] none
  | .softPG _ qTargs => (viewAll w (qTargs.map Fn.net)).map fun ts => mkTargets none ts [] none
  | .model _ => some (mkTargets none [] [] none)

/-- The checks of the constructor of `ClippedDoubleQLearning` and `SoftClippedDoubleQLearning`, `coax/td_learning/_clippeddoubleqlearning.py:108-117,335-360`, for lists of
policies and q-functions; `none` is `None`. -/
def clippedInit (discrete : Bool) (q : Nat) (piTargs : Option (List Fn)) (qTargs : Option (List Nat)) (reg : Option Fn) : Except Err Wiring :=
  if discrete = false ∧ piTargs = none then .error .typeError
  else if discrete = false ∧ piTargs = some [] then .error .valueError
  else match qTargs with
    | none => .error .typeError
    | some [] => .error .valueError
    | some qs =>
      let ps := piTargs.getD []
      if discrete = true then (if qs.length < 2 then .error .valueError else .ok (.clipped q ps qs reg))
      else if qs.length * ps.length < 2 then .error .valueError
      else .ok (.clipped q ps qs reg)

/-- What a program does with its objects: create, copy or seed a function (`coax/_core/base_func.py:57-91`, `coax/_base/mixins/_copy.py:5-22`,
`coax/_base/mixins/_random_state.py:10-15`), derive a policy from a q-function and set its `epsilon` or `temperature` (`coax/_core/value_based_policy.py:185-187,250-252`),
set params and function state, `soft_update`, use a function (evaluate it with its params, its state and a new key; the calls of the library use further keys for their preprocessors, `coax/_core/base_stochastic_func_type2.py:30-33`), create an updater, and call
`update` and `td_error`. -/
inductive Op (K C M B : Type _) where
  | create (s : FuncState K C) (seed : Nat)
  | copy (i : Nat)
  | seed (i : Nat) (seed : Nat)
  | derive (kind : Kind) (q : Nat) (value : K)
  | setValue (j : Nat) (value : K)
  | setParams (f : Fn) (p : PyTree K)
  | setFunctionState (f : Fn) (p : PyTree K)
  | softUpdate (i other : Nat) (tau : K)
  | use (f : Fn)
  | construct (u : UpdaterObj K M B)
  | update (k : Nat) (batch : B)
  | tdError (k : Nat) (batch : B)

/-- What an operation returns: nothing, an exception, metrics, or the params, state and key that a function was evaluated with
(`coax/td_learning/_base.py:91`, `coax/_core/base_stochastic_func_type2.py:30-33`). -/
inductive Out (K M : Type _) where
  | done
  | error (e : Err)
  | metrics (m : M)
  | used (params functionState : PyTree K) (key : Key)

/-- The outcome of something that returns nothing.  (`coax/_core/base_func.py:93-117`.) -/
def Out.ofUnit : Except Err Unit → Out K M
  | .ok () => .done
  | .error e => .error e

/-- The setter of `params` of a derived policy, `coax/_core/value_based_policy.py:207-212,267-272`: the structure is compared, then the number is set, then the params of the q-function
(`new_params['q']`).  The number is a scalar; arrays are rejected here. -/
def setDerivedParams (d : Derived K) (n : Net K C) (p : PyTree K) : (Derived K × Net K C) × Except Err Unit :=
  if structure_ p ≠ structure_ (derivedParams d n.func.params) then ((d, n), .error .typeError)
  else match p with
    | (_, [x]) :: rest =>
      let r := Core.setParams n.func (List.zipWith (fun a b => (a.1, b.2)) n.func.params rest)
      (({ d with value := x }, { n with func := r.1 }), r.2)
    | _ => ((d, n), .error .typeError)

/-- `update` of an updater with its function, given the targets, `coax/td_learning/_base.py:86-91,112-116,149-151`, `coax/policy_objectives/_base.py:148-154,176-179,219-221`,
`coax/model_updaters/_model_updater.py:136-140,162-165,194-196`. -/
def updateWith (u : UpdaterObj K M B) (n : Net K C) (t : Targets K × Targets K) (batch : B) : (UpdaterObj K M B × Net K C) × Out K M :=
  let key := n.rng.rng.2
  let n0 := { n with rng := n.rng.rng.1 }
  match u.compute ⟨n.func.params, t.1, n.func.functionState, t.2, key⟩ batch with
  | .error e => ((u, n0), .error e)
  | .ok (g, fs, m) =>
    if hasNaN g = true then ((u, n0), .error .runtimeError)
    else
      let r := TD.applyGrads (M := M) (B := B) ⟨fun _ _ => .error .typeError, u.applyGrads, u.checksOpt⟩ ⟨n0.func.params, n0.func.functionState, u.optState, 0⟩ g fs
      (({ u with optState := r.1.optState }, { n0 with func := { n0.func with params := r.1.params, functionState := r.1.functionState } }),
        match r.2 with
        | .error e => .error e
        | .ok () => .metrics m)

/-- `td_error`, `coax/td_learning/_base.py:179-181`: only a key is used (what is returned is left to `compute`). -/
def tdErrorWith (u : UpdaterObj K M B) (n : Net K C) (t : Targets K × Targets K) (batch : B) : Net K C × Out K M :=
  ({ n with rng := n.rng.rng.1 },
    match u.compute ⟨n.func.params, t.1, n.func.functionState, t.2, n.rng.rng.2⟩ batch with
    | .error e => .error e
    | .ok (_, _, m) => .metrics m)

/-- The object whose key a function or derived policy uses, `coax/_core/value_based_policy.py:48-50`. -/
def keyOf (w : World K C M B) : Fn → Option Nat
  | .net i => some i
  | .derived j => w.derived[j]?.map Derived.q

/-- One operation, see `Op` (`coax/_core/base_func.py:57-155`, `coax/_core/value_based_policy.py:22-272`, `coax/td_learning/_base.py:60-183`); `none` if it refers to an object that does
not exist. -/
def step [Field K] (isInstance : C → C → Bool) (w : World K C M B) : Op K C M B → Option (World K C M B × Out K M)
  | .create s seed => some ({ w with nets := w.nets ++ [⟨s, Rng.ofSeed seed⟩] }, .done)
  | .copy i => w.nets[i]?.map fun n => ({ w with nets := w.nets ++ [n] }, .done)
  | .seed i seed => w.nets[i]?.map fun n => ({ w with nets := w.nets.set i { n with rng := Rng.ofSeed seed } }, .done)
  | .derive kind q value => w.nets[q]?.map fun _ => ({ w with derived := w.derived ++ [⟨kind, q, value⟩] }, .done)
  | .setValue j value => w.derived[j]?.map fun d => ({ w with derived := w.derived.set j { d with value := value } }, .done)
  | .setParams (.net i) p => w.nets[i]?.map fun n =>
      ({ w with nets := w.nets.set i { n with func := (Core.setParams n.func p).1 } }, .ofUnit (Core.setParams n.func p).2)
  | .setParams (.derived j) p => w.derived[j]?.bind fun d => w.nets[d.q]?.map fun n =>
      ({ w with derived := w.derived.set j (setDerivedParams d n p).1.1, nets := w.nets.set d.q (setDerivedParams d n p).1.2 }, .ofUnit (setDerivedParams d n p).2)
  | .setFunctionState f p => (keyOf w f).bind fun i => w.nets[i]?.map fun n =>
      ({ w with nets := w.nets.set i { n with func := (Core.setFunctionState n.func p).1 } }, .ofUnit (Core.setFunctionState n.func p).2)
  | .softUpdate i other tau => w.nets[i]?.bind fun n => w.nets[other]?.map fun o =>
      ({ w with nets := w.nets.set i { n with func := (Core.softUpdate isInstance n.func o.func tau).1 } }, .ofUnit (Core.softUpdate isInstance n.func o.func tau).2)
  | .use f => (keyOf w f).bind fun i => w.nets[i]?.bind fun n => (view w f).map fun v =>
      ({ w with nets := w.nets.set i { n with rng := n.rng.rng.1 } }, .used v.1 v.2 n.rng.rng.2)
  | .construct u => w.nets[u.wiring.trains]?.bind fun _ => (targets w u.wiring).map fun _ => ({ w with updaters := w.updaters ++ [u] }, .done)
  | .update k batch => w.updaters[k]?.bind fun u => w.nets[u.wiring.trains]?.bind fun n => (targets w u.wiring).map fun t =>
      ({ w with updaters := w.updaters.set k (updateWith u n t batch).1.1, nets := w.nets.set u.wiring.trains (updateWith u n t batch).1.2 }, (updateWith u n t batch).2)
  | .tdError k batch => w.updaters[k]?.bind fun u => w.nets[u.wiring.trains]?.bind fun n => (targets w u.wiring).map fun t =>
      ({ w with nets := w.nets.set u.wiring.trains (tdErrorWith u n t batch).1 }, (tdErrorWith u n t batch).2)

/-- A program, `coax/_core/base_func.py:57-155`, `coax/td_learning/_base.py:60-183`: the objects at the end and what the operations returned. -/
def run [Field K] (isInstance : C → C → Bool) (w : World K C M B) : List (Op K C M B) → Option (World K C M B × List (Out K M))
  | [] => some (w, [])
  | op :: ops => (step isInstance w op).bind fun r => (run isInstance r.1 ops).map fun s => (s.1, r.2 :: s.2)

/-- The operations of one step of `doc/examples/stubs/ddpg.py:64-75` (`doc/examples/pendulum/ddpg.py` synchronises in every step). -/
def ddpgOps (kq kpi q pi qTarg piTarg : Nat) (tau : K) (b : B) (sync : Bool) : List (Op K C M B) :=
  [.update kq b, .update kpi b] ++ (if sync then [.softUpdate piTarg pi tau, .softUpdate qTarg q tau] else [])

/-- The operations of one step of `doc/examples/stubs/dqn.py:51-72`, with the `epsilon` of this step, the batch, and whether the target network is synchronised. -/
def dqnOps (k j q qTarg : Nat) (tau : K) (x : K × B × Bool) : List (Op K C M B) :=
  [.setValue j x.1, .use (.derived j), .update k x.2.1] ++ (if x.2.2 then [.softUpdate qTarg q tau] else [])

end Coax.Agent
