import Verif.Utils.Dmc

/-!
Model of the objects that `DmcGymWrapper` makes (`coax/utils/_dmc_gym.py:45-85`): their settings, the dm_control environment that they hold, and how calls change them.

The dm_control suite is arbitrary (`DmSuite`); its environments are deterministic given the seed with which they are loaded.  Not modelled: dtypes, and errors that dm_control raises when it steps, resets
or renders.
-/

namespace Coax.Utils

/-- The dm_control suite: loading an environment, its specifications, and how it resets, steps and renders.  (`coax/utils/_dmc_gym.py:64-67,70,79,83-85`.) -/
structure DmSuite (E A I : Type _) where
  load : String → String → Int → Except Err E
  actionSpec : E → DmSpec
  observationSpec : E → List DmSpec
  reset : E → E × List DmVal
  step : E → A → E × DmStep
  render : E → Nat → Nat → Nat → I

/-- The bounds of a Box.  (`coax/utils/_dmc_gym.py:116`.) -/
abbrev DmBox := List (Option ℝ) × List (Option ℝ)

/-- The attributes of a `DmcGymWrapper`, `coax/utils/_dmc_gym.py:52-67`. -/
structure DmcEnv (E : Type _) where
  domain : String
  task : String
  seed : Int
  height : Nat
  width : Nat
  cameraId : Nat
  dmcEnv : E
  actionSpace : DmBox
  observationSpace : DmBox

variable {E A I : Type _}

/-- `_make_env`, `coax/utils/_dmc_gym.py:63-67`: what is loaded, and its spaces. -/
def makeEnv (L : DmSuite E A I) (domain task : String) (seed : Int) : Except Err (E × DmBox × DmBox) :=
  (L.load domain task seed).bind fun e =>
  (specToBox [L.actionSpec e]).bind fun a =>
  (specToBox (L.observationSpec e)).bind fun o =>
  .ok (e, a, o)

/-- `DmcGymWrapper.__init__`, `coax/utils/_dmc_gym.py:52-61`. -/
def DmcEnv.init (L : DmSuite E A I) (x : DmcArgs) : Except Err (DmcEnv E) :=
  (makeEnv L x.domain x.task x.seed).bind fun p =>
  .ok ⟨x.domain, x.task, x.seed, x.height, x.width, x.cameraId, p.1, p.2.1, p.2.2⟩

/-- The calls of an environment.  (`coax/utils/_dmc_gym.py:69,75,82`.) -/
inductive DmCall (A : Type _) where
  | step (a : A)
  | reset (seed : Option Int)
  | render

/-- What the calls return.  (`coax/utils/_dmc_gym.py:73,80,83`.) -/
inductive DmReturn (I : Type _) where
  | stepped (s : List ℝ) (r : ℝ) (terminated truncated : Bool)
  | started (s : List ℝ)
  | picture (i : I)

/-- `_make_env` of an environment that exists already, `coax/utils/_dmc_gym.py:63-67`: the attributes that are set before something raises stay set. -/
def DmcEnv.remake (L : DmSuite E A I) (w : DmcEnv E) : DmcEnv E × Except Err Unit :=
  match L.load w.domain w.task w.seed with
  | .error err => (w, .error err)
  | .ok e =>
    match specToBox [L.actionSpec e] with
    | .error err => ({ w with dmcEnv := e }, .error err)
    | .ok a =>
      match specToBox (L.observationSpec e) with
      | .error err => ({ w with dmcEnv := e, actionSpace := a }, .error err)
      | .ok o => ({ w with dmcEnv := e, actionSpace := a, observationSpace := o }, .ok ())

/-- `step`, `reset` and `render`, `coax/utils/_dmc_gym.py:69-85`: the environment after the call, and what is returned or raised. -/
def DmcEnv.call (L : DmSuite E A I) (w : DmcEnv E) : DmCall A → DmcEnv E × Except Err (DmReturn I)
  | .step a =>
    let (e, t) := L.step w.dmcEnv a
    ({ w with dmcEnv := e }, (dmcStep t).map fun p => .stepped p.1 p.2.1 p.2.2.1 p.2.2.2)
  | .reset none =>
    let (e, obs) := L.reset w.dmcEnv
    ({ w with dmcEnv := e }, (flattenObs obs).map .started)
  | .reset (some s) =>
    match ({ w with seed := s } : DmcEnv E).remake L with
    | (w', .error err) => (w', .error err)
    | (w', .ok ()) =>
      let (e, obs) := L.reset w'.dmcEnv
      ({ w' with dmcEnv := e }, (flattenObs obs).map .started)
  | .render => (w, .ok (.picture (L.render w.dmcEnv w.height w.width w.cameraId)))

/-- A sequence of calls, after each of which the caller goes on even if it raised (`coax/utils/_dmc_gym.py:69-85`). -/
def DmcEnv.calls (L : DmSuite E A I) : DmcEnv E → List (DmCall A) → DmcEnv E × List (Except Err (DmReturn I))
  | w, [] => (w, [])
  | w, c :: cs =>
    let (w', r) := w.call L c
    let (w'', rs) := w'.calls L cs
    (w'', r :: rs)

end Coax.Utils
