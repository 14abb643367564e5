import Verif.Utils.Render
import Mathlib.Tactic.NormNum

/-!
# C108: recording an episode

What `generate_gif` and `render_episode` show of the episode that they play.
-/

namespace Coax.Render

variable {σ O A F : Type _}

/-! ### Specification -/

/-- `Episode env policy n s o t`: starting in state `s` with observation `o`, following the policy for at most `n` steps leads through the states `t`, and the episode
goes on until a step ends it or until `n` steps have been made. -/
inductive Episode (env : Env σ O A F) (policy : O → A) : Nat → σ → O → List σ → Prop
  | limit (s : σ) (o : O) : Episode env policy 0 s o []
  | last (n : Nat) (s : σ) (o : O) (s' : σ) (o' : O) (done trunc : Bool) :
      env.step s (policy o) = (s', o', done, trunc) → (done = true ∨ trunc = true) → Episode env policy (n + 1) s o [s']
  | step (n : Nat) (s : σ) (o : O) (s' : σ) (o' : O) (t : List σ) :
      env.step s (policy o) = (s', o', false, false) → Episode env policy n s' o' t → Episode env policy (n + 1) s o (s' :: t)

/-- The size of the frames that an argument `resize_to` asks for; `none` if it is not a size. -/
def sizeOf : Resize → Option (Option (Nat × Nat))
  | .none => some Option.none
  | .pair w h => some (some (w, h))
  | .other => Option.none

/-! ### Lemmas -/

/-- There is exactly one episode. -/
theorem episode_unique {env : Env σ O A F} {policy : O → A} {n : Nat} {s : σ} {o : O} {t t' : List σ} (h : Episode env policy n s o t)
    (h' : Episode env policy n s o t') : t = t' := by
  induction h generalizing t' with
  | limit => cases h'; rfl
  | last n s o s' o' done trunc hs hd =>
    cases h' with
    | last _ _ _ _ _ _ _ hs' _ => rw [hs] at hs'; simp_all
    | step _ _ _ _ _ _ hs' _ => rw [hs] at hs'; simp_all
  | step n s o s' o' t hs _ ih =>
    cases h' with
    | last _ _ _ _ _ _ _ hs' hd => rw [hs] at hs'; simp_all
    | step _ _ _ _ _ _ hs' he =>
      rw [hs] at hs'
      simp only [Prod.mk.injEq, and_true] at hs'
      obtain ⟨rfl, rfl⟩ := hs'
      rw [ih he]

theorem collect_spec (env : Env σ O A F) (policy : O → A) (resize : Resize) {size : Option (Nat × Nat)} (hr : sizeOf resize = some size) :
    ∀ (n : Nat) (s : σ) (o : O), ∃ t, Episode env policy n s o t ∧
      collect env policy resize n s o = .ok (t.map (fun s' => (env.render s', size)), t.getLastD s) := by
  have htake : ∀ f : F, takeFrame resize f = .ok (f, size) := by
    intro f
    cases resize <;> simp_all [sizeOf, takeFrame]
  intro n
  induction n with
  | zero => intro s o; exact ⟨[], .limit s o, rfl⟩
  | succ n ih =>
    intro s o
    obtain ⟨s', o', done, trunc, hs⟩ : ∃ s' o' d tr, env.step s (policy o) = (s', o', d, tr) := ⟨_, _, _, _, rfl⟩
    by_cases hd : (done || trunc) = true
    · refine ⟨[s'], .last n s o s' o' done trunc hs (by simpa using hd), ?_⟩
      simp only [collect, hs, htake, hd, if_true, List.map]
      rfl
    · have hd' : done = false ∧ trunc = false := by simpa using hd
      obtain ⟨t, ht, hc⟩ := ih s' o'
      refine ⟨s' :: t, .step n s o s' o' t (by rw [hs, hd'.1, hd'.2]) ht, ?_⟩
      simp only [collect, hs, htake, hd, hc, List.map_cons, Bool.false_eq_true, if_false]
      cases t <;> rfl

theorem collect_other (env : Env σ O A F) (policy : O → A) (n : Nat) (s : σ) (o : O) :
    collect env policy .other (n + 1) s o = .error .typeError := by
  simp [collect, takeFrame]

/-! ### C108 -/

/-- C108: the gif shows the states that are reached by steps, in order and each with the size asked for, and the last of them (the initial state, if no step was made)
once more.  So it has one frame more than the episode has steps. -/
theorem C108_frames (env : Env σ O A F) (policy : O → A) (resize : Resize) (size : Option (Nat × Nat)) (hr : sizeOf resize = some size)
    (arg : Option Nat) (spec : Spec) (n : Nat) (hn : maxSteps arg spec = .ok (some n)) :
    ∃ t, Episode env policy n env.reset.1 env.reset.2 t ∧
      generateGif env policy resize arg spec true = .ok ((t ++ [t.getLastD env.reset.1]).map (fun s => (env.render s, size))) := by
  obtain ⟨t, ht, hc⟩ := collect_spec env policy resize hr n env.reset.1 env.reset.2
  refine ⟨t, ht, ?_⟩
  have htake : ∀ f : F, takeFrame resize f = .ok (f, size) := by
    intro f
    cases resize <;> simp_all [sizeOf, takeFrame]
  simp only [generateGif, hn, if_true, hc, htake, List.map_append, List.map]

/-- C108: the number of steps is the argument, if that is a positive number; otherwise it is taken from the specification of the environment. -/
theorem C108_steps (arg : Option Nat) (spec : Spec) :
    (∀ n, 0 < n → arg = some n → maxSteps arg spec = .ok (some n)) ∧
    (arg = none ∨ arg = some 0 →
      (spec = .missing → maxSteps arg spec = .error .attributeError) ∧
      (spec = .none → maxSteps arg spec = .ok (some 10000)) ∧
      (∀ m, spec = .spec m → maxSteps arg spec = .ok m)) := by
  constructor
  · rintro (_ | n) hn rfl
    · exact absurd hn (by simp)
    · rfl
  · rintro (rfl | rfl) <;> refine ⟨fun h => ?_, fun h => ?_, fun m h => ?_⟩ <;> subst h <;> rfl

/-- C108: all the ways to fail: no specification, wrong render mode, no limit on the number of steps, a size that is not a pair. -/
theorem C108_errors (env : Env σ O A F) (policy : O → A) (resize : Resize) (arg : Option Nat) (spec : Spec) (isRgb : Bool) :
    (maxSteps arg spec = .error .attributeError → generateGif env policy resize arg spec isRgb = .error .attributeError) ∧
    (∀ m, maxSteps arg spec = .ok m → isRgb = false → generateGif env policy resize arg spec isRgb = .error .runtimeError) ∧
    (maxSteps arg spec = .ok none → generateGif env policy resize arg spec true = .error .typeError) ∧
    (∀ n, maxSteps arg spec = .ok (some n) → sizeOf resize = none → generateGif env policy resize arg spec true = .error .typeError) := by
  refine ⟨?_, ?_, ?_, ?_⟩
  · intro h; simp [generateGif, h]
  · rintro m h rfl; simp [generateGif, h]
  · intro h; simp [generateGif, h]
  · intro n h hr
    have hres : resize = .other := by cases resize <;> simp_all [sizeOf]
    subst hres
    cases n with
    | zero => simp [generateGif, h, collect, takeFrame]
    | succ n => simp [generateGif, h, collect_other]

/-- An environment that counts its steps and ends an episode after two of them. -/
def counter : Env Nat Nat Unit Nat := ⟨(0, 0), fun s _ => (s + 1, s + 1, decide (2 ≤ s + 1), false), id⟩

/-- C108 fails in the sense that every state of the episode is shown once: of the states 0, 1, 2 the initial one is not shown and the last one is shown twice. -/
theorem C108_initial_counterexample : generateGif counter (fun _ => ()) .none (some 10) .none true = .ok [(1, none), (2, none), (2, none)] := by
  simp [generateGif, maxSteps, collect, counter, takeFrame]

/-- C108 fails for environments whose specification has no limit: the limit 10000 that the documentation promises is not used. -/
theorem C108_no_limit_counterexample (env : Env σ O A F) (policy : O → A) (resize : Resize) :
    generateGif env policy resize none (.spec none) true = .error .typeError :=
  (C108_errors env policy resize none (.spec none) true).2.2.1 rfl

/-- C108: `render_episode` raises `ValueError` after the first step for every environment that returns five values, that is, for every gymnasium environment.  Only the
initial state has been shown. -/
theorem C108_render_five {P : Type _} (env : Env σ O A F) (policy : P → A) (wrap : O → P) (first : P) (limit : Nat) (hl : 0 < limit) :
    renderEpisode env policy wrap first 5 limit = ⟨[env.render env.reset.1], some .valueError⟩ := by
  obtain ⟨n, rfl⟩ : ∃ n, limit = n + 1 := ⟨limit - 1, by omega⟩
  simp [renderEpisode, showLoop, unpack]

theorem showLoop_four (env : Env σ O A F) (policy : O → A) (htrunc : ∀ s a, (env.step s a).2.2.2 = false) :
    ∀ (n : Nat) (s : σ) (o : O), ∃ t, Episode env policy n s o t ∧ showLoop env policy id 4 n s o = ⟨t.map env.render, none⟩ := by
  intro n
  induction n with
  | zero => intro s o; exact ⟨[], .limit s o, rfl⟩
  | succ n ih =>
    intro s o
    obtain ⟨s', o', done, trunc, hs⟩ : ∃ s' o' d tr, env.step s (policy o) = (s', o', d, tr) := ⟨_, _, _, _, rfl⟩
    have htr : trunc = false := by have := htrunc s (policy o); rw [hs] at this; exact this
    subst htr
    cases done with
    | true =>
      refine ⟨[s'], .last n s o s' o' true false hs (Or.inl rfl), ?_⟩
      simp [showLoop, hs, unpack]
    | false =>
      obtain ⟨t, ht, hc⟩ := ih s' o'
      refine ⟨s' :: t, .step n s o s' o' t hs ht, ?_⟩
      simp [showLoop, hs, unpack, hc]

/-- C108, as far as it holds for `render_episode`: with an environment of the old interface (four values, `reset` returns the observation only) every state is shown once,
in order, the initial one included.  Missing: the environments that coax is made for (`C108_render_five`). -/
theorem C108_render_four_partial (env : Env σ O A F) (policy : O → A) (htrunc : ∀ s a, (env.step s a).2.2.2 = false) (limit : Nat) :
    ∃ t, Episode env policy limit env.reset.1 env.reset.2 t ∧
      renderEpisode env policy id env.reset.2 4 limit = ⟨(env.reset.1 :: t).map env.render, none⟩ := by
  obtain ⟨t, ht, h⟩ := showLoop_four env policy htrunc limit env.reset.1 env.reset.2
  exact ⟨t, ht, by simp [renderEpisode, h]⟩

/-- A case: the counting environment with the old interface. -/
example : renderEpisode counter (fun _ => ()) id 0 4 100 = ⟨[0, 1, 2], none⟩ := by
  simp [renderEpisode, showLoop, counter, unpack]

/-- A case of `C108_frames` in which the limit ends the episode, with resized frames. -/
example : generateGif counter (fun _ => ()) (.pair 3 4) (some 1) .missing true = .ok [(1, some (3, 4)), (1, some (3, 4))] := by
  simp [generateGif, maxSteps, collect, counter, takeFrame]

end Coax.Render
