import Verif.Utils.DmcEnv

/-! Property C154: seeds of DeepMind Control environments. -/

namespace Coax.Utils

variable {E A I : Type _}

/-- The environment is one of the given domain and task, with the given size of pictures. -/
def Keeps (x : DmcArgs) (w : DmcEnv E) : Prop := w.domain = x.domain ∧ w.task = x.task ∧ w.height = x.height ∧ w.width = x.width ∧ w.cameraId = x.cameraId

theorem keeps_init {L : DmSuite E A I} {x : DmcArgs} {w : DmcEnv E} (h : DmcEnv.init L x = .ok w) : Keeps x w := by
  unfold DmcEnv.init at h
  cases hm : makeEnv L x.domain x.task x.seed with
  | error e => rw [hm] at h; cases h
  | ok p =>
    rw [hm] at h
    cases h
    exact ⟨rfl, rfl, rfl, rfl, rfl⟩

/-- What `_make_env` does to an environment, and its seed. -/
theorem remake_spec (L : DmSuite E A I) (w : DmcEnv E) : (∀ x, Keeps x w → Keeps x (w.remake L).1) ∧ (w.remake L).1.seed = w.seed ∧
    (∀ e a o, makeEnv L w.domain w.task w.seed = .ok (e, a, o) → w.remake L = ({ w with dmcEnv := e, actionSpace := a, observationSpace := o }, .ok ())) ∧
    (∀ err, makeEnv L w.domain w.task w.seed = .error err → (w.remake L).2 = .error err) := by
  unfold DmcEnv.remake makeEnv
  cases L.load w.domain w.task w.seed with
  | error err => exact ⟨fun x h => h, rfl, fun e a o h => by simp [Except.bind] at h, fun err h => by simpa [Except.bind] using h⟩
  | ok e =>
    simp only [Except.bind]
    cases specToBox [L.actionSpec e] with
    | error err => exact ⟨fun x h => h, rfl, fun e a o h => by simp at h, fun err h => by simpa using h⟩
    | ok a =>
      simp only
      cases specToBox (L.observationSpec e) with
      | error err => exact ⟨fun x h => h, rfl, fun e a o h => by simp at h, fun err h => by simpa using h⟩
      | ok o =>
        refine ⟨fun x h => h, rfl, fun e' a' o' h => ?_, fun err h => by simp at h⟩
        simp only [Except.ok.injEq, Prod.mk.injEq] at h
        obtain ⟨rfl, rfl, rfl⟩ := h
        rfl

theorem reset_state (L : DmSuite E A I) (w : DmcEnv E) (s : Int) : (∀ x, Keeps x w → Keeps x (w.call L (.reset (some s))).1) ∧ (w.call L (.reset (some s))).1.seed = s := by
  obtain ⟨h1, h2, -, -⟩ := remake_spec L { w with seed := s }
  simp only [DmcEnv.call]
  generalize ({ w with seed := s } : DmcEnv E).remake L = z at h1 h2
  obtain ⟨w', r⟩ := z
  cases r with
  | error e => exact ⟨fun x h => h1 x h, h2⟩
  | ok u => exact ⟨fun x h => h1 x h, h2⟩

theorem keeps_call (L : DmSuite E A I) {x : DmcArgs} {w : DmcEnv E} (h : Keeps x w) (c : DmCall A) : Keeps x (w.call L c).1 := by
  cases c with
  | step a => exact h
  | render => exact h
  | reset s =>
    cases s with
    | none => exact h
    | some s => exact (reset_state L w s).1 x h

theorem keeps_calls (L : DmSuite E A I) {x : DmcArgs} {w : DmcEnv E} (h : Keeps x w) (cs : List (DmCall A)) : Keeps x (w.calls L cs).1 := by
  induction cs generalizing w with
  | nil => exact h
  | cons c cs ih => exact ih (keeps_call L h c)

theorem reset_eq (L : DmSuite E A I) {x : DmcArgs} {w w' : DmcEnv E} (h : Keeps x w) {s : Int} (hn : DmcEnv.init L { x with seed := s } = .ok w') : w.call L (.reset (some s)) = w'.call L (.reset none) := by
  obtain ⟨h1, h2, h3, h4, h5⟩ := h
  unfold DmcEnv.init at hn
  simp only at hn
  cases hm : makeEnv L x.domain x.task s with
  | error e => rw [hm] at hn; cases hn
  | ok p =>
    rw [hm] at hn
    cases hn
    obtain ⟨d, t, sd, hh, wd, c, e, a, o⟩ := w
    obtain ⟨e', a', o'⟩ := p
    simp only at h1 h2 h3 h4 h5
    subst h1 h2 h3 h4 h5
    simp only [DmcEnv.call, (remake_spec L ⟨x.domain, x.task, s, x.height, x.width, x.cameraId, e, a, o⟩).2.2.1 e' a' o' hm]

/-- Claim C154: whatever calls were made before, an environment that is reset with a seed behaves, from then on and whatever calls follow, as a new environment that is made with that seed and reset without one. -/
theorem C154_seed (L : DmSuite E A I) {x : DmcArgs} {w : DmcEnv E} (h : DmcEnv.init L x = .ok w) (before : List (DmCall A)) {s : Int} {w' : DmcEnv E} (hn : DmcEnv.init L { x with seed := s } = .ok w') (after : List (DmCall A)) :
    (w.calls L before).1.calls L (.reset (some s) :: after) = w'.calls L (.reset none :: after) := by
  have hk := keeps_calls L (keeps_init h) before
  simp only [DmcEnv.calls]
  rw [reset_eq L hk hn]

/-- Claim C154: two environments of the same domain, task and size of pictures that are reset with the same seed behave in the same way, whatever their seeds were and whatever calls were made. -/
theorem C154_reproducible (L : DmSuite E A I) {x y : DmcArgs} (hxy : y.domain = x.domain ∧ y.task = x.task ∧ y.height = x.height ∧ y.width = x.width ∧ y.cameraId = x.cameraId) {w v : DmcEnv E} (hw : DmcEnv.init L x = .ok w)
    (hv : DmcEnv.init L y = .ok v) (before before' : List (DmCall A)) {s : Int} (hl : ∃ p, makeEnv L x.domain x.task s = .ok p) (after : List (DmCall A)) :
    (w.calls L before).1.calls L (.reset (some s) :: after) = (v.calls L before').1.calls L (.reset (some s) :: after) := by
  obtain ⟨p, hp⟩ := hl
  have hn : DmcEnv.init L { x with seed := s } = .ok ⟨x.domain, x.task, s, x.height, x.width, x.cameraId, p.1, p.2.1, p.2.2⟩ := by
    simp [DmcEnv.init, hp, Except.bind]
  have hk : Keeps x (v.calls L before').1 := by
    obtain ⟨a, b, c, d, e⟩ := keeps_calls L (keeps_init hv) before'
    obtain ⟨a', b', c', d', e'⟩ := hxy
    exact ⟨a.trans a', b.trans b', c.trans c', d.trans d', e.trans e'⟩
  rw [C154_seed L hw before hn after]
  simp only [DmcEnv.calls]
  rw [reset_eq L hk hn]

/-- Claim C154: the seed of an environment is the one of the last reset that gave one, or the one it was made with; resets without a seed, steps and pictures do not change it. -/
theorem C154_last_seed (L : DmSuite E A I) {x : DmcArgs} {w : DmcEnv E} (h : DmcEnv.init L x = .ok w) (cs : List (DmCall A)) :
    (w.calls L cs).1.seed = (cs.filterMap fun c => match c with | .reset s => s | _ => none).getLast?.getD x.seed := by
  have hs : w.seed = x.seed := by
    unfold DmcEnv.init at h
    cases hm : makeEnv L x.domain x.task x.seed with
    | error e => rw [hm] at h; cases h
    | ok p => rw [hm] at h; cases h; rfl
  rw [← hs]
  clear h hs
  induction cs generalizing w with
  | nil => rfl
  | cons c cs ih =>
    have hc : (w.call L c).1.seed = (match c with | .reset s => s | _ => none : Option Int).getD w.seed := by
      cases c with
      | step a => rfl
      | render => rfl
      | reset s =>
        cases s with
        | none => rfl
        | some s => exact (reset_state L w s).2
    show ((w.call L c).1.calls L cs).1.seed = _
    rw [ih, hc]
    cases c with
    | step a => rfl
    | render => rfl
    | reset s =>
      cases s with
      | none => rfl
      | some s =>
        simp only [List.filterMap_cons, Option.getD_some]
        rw [List.getLast?_cons]
        simp

/-- Claim C154: if a new environment cannot be made with the seed, then the reset raises the same error; if it cannot even be loaded, the dm_control environment and the spaces stay as they were. -/
theorem C154_rejects (L : DmSuite E A I) {x : DmcArgs} {w : DmcEnv E} (h : DmcEnv.init L x = .ok w) (before : List (DmCall A)) {s : Int} {e : Err} (hn : DmcEnv.init L { x with seed := s } = .error e) :
    ((w.calls L before).1.call L (.reset (some s))).2 = .error e ∧
    (L.load x.domain x.task s = .error e → ((w.calls L before).1.call L (.reset (some s))).1 = { (w.calls L before).1 with seed := s }) := by
  obtain ⟨h1, h2, -⟩ := keeps_calls L (keeps_init h) before
  generalize (w.calls L before).1 = v at h1 h2
  have hl : makeEnv L x.domain x.task s = .error e := by
    unfold DmcEnv.init at hn
    simp only at hn
    cases hm : makeEnv L x.domain x.task s with
    | error e' => rw [hm] at hn; simpa [Except.bind] using hn
    | ok p => rw [hm] at hn; simp [Except.bind] at hn
  rw [← h1, ← h2] at hl ⊢
  refine ⟨?_, fun hload => ?_⟩
  · have h3 := (remake_spec L { v with seed := s }).2.2.2 e hl
    simp only [DmcEnv.call]
    generalize ({ v with seed := s } : DmcEnv E).remake L = z at h3
    obtain ⟨w', r⟩ := z
    simp only at h3
    subst h3
    rfl
  · simp only [DmcEnv.call, DmcEnv.remake, hload]

/-- Claim C154, steps and resets return what the dm_control environment returns, and change nothing else. -/
theorem C154_calls (L : DmSuite E A I) (w : DmcEnv E) (a : A) :
    (w.call L (.step a)).1 = { w with dmcEnv := (L.step w.dmcEnv a).1 } ∧ (w.call L (.reset none)).1 = { w with dmcEnv := (L.reset w.dmcEnv).1 } ∧ (w.call L .render).1 = w ∧
    (∀ s, flattenObs (L.step w.dmcEnv a).2.obs = .ok s → (w.call L (.step a)).2 = .ok (.stepped s (L.step w.dmcEnv a).2.reward (L.step w.dmcEnv a).2.last false)) ∧
    (∀ s, flattenObs (L.reset w.dmcEnv).2 = .ok s → (w.call L (.reset none)).2 = .ok (.started s)) ∧
    (w.call L .render).2 = .ok (.picture (L.render w.dmcEnv w.height w.width w.cameraId)) := by
  refine ⟨rfl, rfl, rfl, fun s hs => ?_, fun s hs => ?_, rfl⟩
  · simp [DmcEnv.call, dmcStep, hs, Except.map]
  · simp [DmcEnv.call, hs, Except.map]

/-! ### Cases -/

/-- A suite in which the observation counts from the seed on. -/
noncomputable def exSuite : DmSuite Int Unit Nat where
  load _ _ s := if 0 ≤ s then .ok s else .error .valueError
  actionSpec _ := .bounded 1 true (.scalar (-1)) (.scalar 1)
  observationSpec _ := [.array 1 true]
  reset e := (e + 10, [.scalar e])
  step e _ := (e + 1, ⟨[.scalar e], 0, false, 1⟩)
  render e _ _ _ := e.toNat

theorem exSuite_init (s : Int) (hs : 0 ≤ s) : ∃ w, DmcEnv.init exSuite ⟨"walker", "walk", s, 1000, 84, 84, 0⟩ = .ok w := by
  simp [DmcEnv.init, makeEnv, exSuite, hs, specToBox, extractMinMax, Bound.plusZeros, Except.bind, pure, Except.pure, bind]

/-- After some steps, a reset with seed 7 is the start of a new environment with seed 7; a negative seed raises. -/
example : ∃ w w', DmcEnv.init exSuite ⟨"walker", "walk", 3, 1000, 84, 84, 0⟩ = .ok w ∧ DmcEnv.init exSuite ⟨"walker", "walk", 7, 1000, 84, 84, 0⟩ = .ok w' ∧
    (w.calls exSuite [.reset none, .step (), .step ()]).1.calls exSuite [.reset (some 7), .step ()] = w'.calls exSuite [.reset none, .step ()] ∧
    ∃ e, DmcEnv.init exSuite ⟨"walker", "walk", -1, 1000, 84, 84, 0⟩ = .error e := by
  obtain ⟨w, hw⟩ := exSuite_init 3 (by norm_num)
  obtain ⟨w', hw'⟩ := exSuite_init 7 (by norm_num)
  exact ⟨w, w', hw, hw', C154_seed exSuite hw _ hw' _, .valueError, by simp [DmcEnv.init, makeEnv, exSuite, Except.bind]⟩

end Coax.Utils
