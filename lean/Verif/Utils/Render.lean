import Verif.Err

/-!
Model of `generate_gif` and `render_episode` (`coax/utils/_misc.py:320-360, 431-518`).

An environment is a state machine; what `reset` and `step` return is described by the number of values, because the two functions unpack different numbers of
values.  `env.action_space.sample()` is a policy that ignores its argument.  Conversion, palette and saving of the images are not modelled, except for `resize`.
-/

namespace Coax.Render

/-- An environment: `σ` is its internal state, `O` its observations, `F` what `env.render()` returns.  `step` returns the next state, the observation, and the two flags
that end an episode.  (`coax/utils/_misc.py:475, 484-488`.) -/
structure Env (σ O A F : Type _) where
  reset : σ × O
  step : σ → A → σ × O × Bool × Bool
  render : σ → F

/-- The attribute `env.spec` (`coax/utils/_misc.py:468-469`): missing, `None`, or a specification whose `max_episode_steps` is a number or `None`. -/
inductive Spec where
  | missing
  | none
  | spec (maxEpisodeSteps : Option Nat)

/-- `max_episode_steps or getattr(getattr(env, 'spec'), 'max_episode_steps', 10000)`, `coax/utils/_misc.py:468-469`: the default applies only if the specification does
not have the attribute. -/
def maxSteps (arg : Option Nat) (spec : Spec) : Except Err (Option Nat) :=
  match arg with
  | some (n + 1) => .ok (some (n + 1))
  | _ => match spec with
    | .missing => .error .attributeError
    | .none => .ok (some 10000)
    | .spec m => .ok m

/-- The argument `resize_to`, `coax/utils/_misc.py:491-495`: `None`, a pair, or something else. -/
inductive Resize where
  | none
  | pair (w h : Nat)
  | other

/-- A frame of the gif: the picture, and the size if it was resized.  (`coax/utils/_misc.py:488-495`.) -/
abbrev Frame (F : Type _) := F × Option (Nat × Nat)

/-- One frame, `coax/utils/_misc.py:487-497`. -/
def takeFrame {F : Type _} (resize : Resize) (f : F) : Except Err (Frame F) :=
  match resize with
  | .none => .ok (f, Option.none)
  | .pair w h => .ok (f, some (w, h))
  | .other => .error .typeError

/-- The loop that collects frames, `coax/utils/_misc.py:482-502`: at most `n` more steps from the state and observation given; returns the frames in order and the
last state. -/
def collect {σ O A F : Type _} (env : Env σ O A F) (policy : O → A) (resize : Resize) : Nat → σ → O → Except Err (List (Frame F) × σ)
  | 0, s, _ => .ok ([], s)
  | n + 1, s, o =>
    match env.step s (policy o) with
    | (s', o', done, truncated) =>
      match takeFrame resize (env.render s') with
      | .error e => .error e
      | .ok f =>
        if done || truncated then .ok ([f], s')
        else match collect env policy resize n s' o' with
          | .error e => .error e
          | .ok (fs, s'') => .ok (f :: fs, s'')

/-- `generate_gif`, `coax/utils/_misc.py:431-518`: the frames that are saved.  `isRgb` is the test of the render mode (line 478).  A `None` as the number of steps is not
a number (`range(None)`, line 483). -/
def generateGif {σ O A F : Type _} (env : Env σ O A F) (policy : O → A) (resize : Resize) (arg : Option Nat) (spec : Spec) (isRgb : Bool) :
    Except Err (List (Frame F)) :=
  match maxSteps arg spec with
  | .error e => .error e
  | .ok m =>
    if isRgb then
      match m with
      | none => .error .typeError
      | some n =>
        match collect env policy resize n env.reset.1 env.reset.2 with
        | .error e => .error e
        | .ok (fs, s) =>
          match takeFrame resize (env.render s) with
          | .error e => .error e
          | .ok f => .ok (fs ++ [f])
    else .error .runtimeError

/-- What `render_episode` has done so far: the pictures shown, and whether it has finished or raised an exception.  (`coax/utils/_misc.py:345-358`.) -/
structure Shown (F : Type _) where
  pictures : List F
  error : Option Err

/-- `a, b, ... = values`, with `n` names and `k` values.  (`coax/utils/_misc.py:350`.) -/
def unpack (n k : Nat) : Option Err := if n = k then none else some .valueError

/-- The loop of `render_episode`, `coax/utils/_misc.py:348-358`, with at most `n` steps; `k` is the number of values that `env.step` returns, and `wrap` is what
the names `s` and `s_next` are bound to. -/
def showLoop {σ O A F P : Type _} (env : Env σ O A F) (policy : P → A) (wrap : O → P) (k : Nat) : Nat → σ → P → Shown F
  | 0, _, _ => ⟨[], none⟩
  | n + 1, s, p =>
    match env.step s (policy p) with
    | (s', o', done, _) =>
      match unpack 4 k with
      | some e => ⟨[], some e⟩
      | none =>
        if done then ⟨[env.render s'], none⟩
        else ⟨env.render s' :: (showLoop env policy wrap k n s' (wrap o')).pictures, (showLoop env policy wrap k n s' (wrap o')).error⟩

/-- `render_episode`, `coax/utils/_misc.py:341-360`.  `first` is what `env.reset()` returns, which is bound to `s` as a whole (line 345); `limit` is `10^9`. -/
def renderEpisode {σ O A F P : Type _} (env : Env σ O A F) (policy : P → A) (wrap : O → P) (first : P) (k limit : Nat) : Shown F :=
  ⟨env.render env.reset.1 :: (showLoop env policy wrap k limit env.reset.1 first).pictures, (showLoop env policy wrap k limit env.reset.1 first).error⟩

end Coax.Render
