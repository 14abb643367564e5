import Verif.Core.Worker
import Mathlib.Tactic.Linarith
import Mathlib.Tactic.NormNum
import Mathlib.Tactic.Ring
import Mathlib.Order.Monotone.Basic
import Mathlib.Data.List.Forall2
import Mathlib.Tactic.Positivity
import Mathlib.Algebra.Order.Field.Power

/-! Properties C58 (rollout), C59 (waiting for the warm-up) and C66 (attributes of the parameter store). -/

namespace Coax.Core

variable {O A R L V : Type _}

/-- A transition of the environment under the policy. -/
structure Tr (O A R L : Type _) where
  s : O
  a : A
  logp : L
  sNext : O
  r : R
  done : Bool
  truncated : Bool

/-- The episode ends with it. -/
def Tr.ended (t : Tr O A R L) : Bool := t.done || t.truncated

/-- The calls of one transition: choose an action, step, trace. -/
def Tr.events (t : Tr O A R L) : List (Event O A R L) :=
  [.act t.s t.a t.logp, .step t.a t.sNext t.r t.done t.truncated, .trace t.s t.a t.r t.ended t.logp]

/-- Consecutive transitions, from `s` to `s'`. -/
inductive Chained : O → List (Tr O A R L) → O → Prop
  | nil (s) : Chained s [] s
  | cons {s' ts} (t : Tr O A R L) : Chained t.sNext ts s' → Chained t.s (t :: ts) s'

/-- The event is what environment, policy or `trace` answered after the history. -/
def Answer (p : Parts O A R L) (h : List (Event O A R L)) : Event O A R L → Prop
  | .reset s => p.reset h = .ok s
  | .act s a logp => ∃ pi, p.pi = some pi ∧ pi h s = .ok (a, logp)
  | .step a sNext r done truncated => p.step h a = .ok (sNext, r, done, truncated)
  | .trace s a r done logp => p.trace h s a r done logp = .ok ()

/-- All events are answers. -/
inductive Genuine (p : Parts O A R L) : List (Event O A R L) → List (Event O A R L) → Prop
  | nil (h) : Genuine p h []
  | cons {h es} (e : Event O A R L) : Answer p h e → Genuine p (h ++ [e]) es → Genuine p h (e :: es)

/-- What is left of a transition that raised: nothing, an action, or an action and a step. -/
inductive Unfinished (s : O) : List (Event O A R L) → Prop
  | nil : Unfinished s []
  | act (a logp) : Unfinished s [.act s a logp]
  | step (a logp sNext r done truncated) : Unfinished s [.act s a logp, .step a sNext r done truncated]

theorem loop_spec (p : Parts O A R L) (pi) (hpi : p.pi = some pi) (k : Nat) (h h' : List (Event O A R L)) (s : O) (res : Except Err Unit)
    (e : rolloutLoop p pi k h s = (h', res)) :
    ∃ ts s' rest, h' = h ++ (ts.flatMap Tr.events ++ rest) ∧ Chained s ts s' ∧ Genuine p h (ts.flatMap Tr.events ++ rest) ∧ ts.length ≤ k ∧
      (∀ (i : Nat) (t : Tr O A R L), ts[i]? = some t → i + 1 < ts.length → t.ended = false) ∧ Unfinished s' rest ∧
      (res = .ok () → rest = [] ∧ (ts.length = k ∨ ∃ t, ts.getLast? = some t ∧ t.ended = true)) ∧
      (∀ err, res = .error err → ∀ t, ts.getLast? = some t → t.ended = false) := by
  induction k generalizing h s with
  | zero =>
    simp only [rolloutLoop, Prod.mk.injEq] at e
    obtain ⟨rfl, rfl⟩ := e
    exact ⟨[], s, [], by simp, .nil _, .nil _, by simp, by simp, .nil, by simp, by simp⟩
  | succ k ih =>
    simp only [rolloutLoop] at e
    cases hp : pi h s with
    | error er =>
      rw [hp] at e; cases e
      exact ⟨[], s, [], by simp, .nil _, .nil _, by simp, by simp, .nil, by simp, by simp⟩
    | ok x =>
      obtain ⟨a, logp⟩ := x
      rw [hp] at e
      simp only at e
      have ha : Answer p h (.act s a logp) := ⟨pi, hpi, hp⟩
      cases hs : p.step (h ++ [.act s a logp]) a with
      | error er =>
        rw [hs] at e; cases e
        exact ⟨[], s, [.act s a logp], by simp, .nil _, .cons _ ha (.nil _), by simp, by simp, .act _ _, by simp, by simp⟩
      | ok x =>
        obtain ⟨sNext, r, done, truncated⟩ := x
        rw [hs] at e
        simp only at e
        have hb : Answer p (h ++ [.act s a logp]) (.step a sNext r done truncated) := hs
        cases ht : p.trace (h ++ [.act s a logp] ++ [.step a sNext r done truncated]) s a r (done || truncated) logp with
        | error er =>
          rw [ht] at e; cases e
          exact ⟨[], s, [.act s a logp, .step a sNext r done truncated], by simp, .nil _, .cons _ ha (.cons _ hb (.nil _)), by simp, by simp, .step _ _ _ _ _ _, by simp, by simp⟩
        | ok x =>
          rw [ht] at e
          simp only at e
          have hc : Answer p (h ++ [.act s a logp] ++ [.step a sNext r done truncated]) (.trace s a r (done || truncated) logp) := ht
          let t : Tr O A R L := ⟨s, a, logp, sNext, r, done, truncated⟩
          by_cases hd : (done || truncated) = true
          · rw [if_pos hd] at e; cases e
            refine ⟨[t], sNext, [], by simp [Tr.events, t, Tr.ended], .cons t (.nil _), .cons _ ha (.cons _ hb (.cons _ hc (.nil _))), by simp, ?_, .nil, ?_, by simp⟩
            · intro i t' _ hi; simp at hi
            · exact fun _ => ⟨rfl, .inr ⟨t, rfl, hd⟩⟩
          · rw [if_neg hd] at e
            obtain ⟨ts, s', rest, e1, e2, e3, e4, e5, e6, e7, e8⟩ := ih _ _ e
            refine ⟨t :: ts, s', rest, by rw [e1]; simp [Tr.events, t, Tr.ended], .cons t e2, .cons _ ha (.cons _ hb (.cons _ hc e3)), by simp; omega, ?_, e6, ?_, ?_⟩
            · intro i t' hi hlt
              cases i with
              | zero => simp at hi; subst hi; simpa [Tr.ended, t] using hd
              | succ i => exact e5 i t' (by simpa using hi) (by simpa using hlt)
            · intro hr
              obtain ⟨h1, h2⟩ := e7 hr
              refine ⟨h1, ?_⟩
              rcases h2 with h2 | ⟨t', h2, h3⟩
              · left; simp [h2]
              · right; exact ⟨t', by rw [List.getLast?_cons, h2]; rfl, h3⟩
            · intro err hr t' ht'
              rw [List.getLast?_cons] at ht'
              cases hts : ts.getLast? with
              | none => rw [hts] at ht'; simp at ht'; subst ht'; simpa [Tr.ended, t] using hd
              | some t'' => rw [hts] at ht'; simp at ht'; subst ht'; exact e8 err hr t'' hts

/-- C58.  A rollout that returns has reset the environment and made a chain of consecutive transitions, each of them stepped once and then traced once with the observed
state, action, reward and propensity; the traced flag is set at most on the last one, when the environment was done or truncated; there are at most
`max_episode_steps`, and fewer only if the episode ended. -/
theorem C58_rollout {p : Parts O A R L} {h h' : List (Event O A R L)} (e : rollout p h = (h', .ok ())) :
    ∃ s₀ s' ts, h' = h ++ .reset s₀ :: ts.flatMap Tr.events ∧ Chained s₀ ts s' ∧ Genuine p h (.reset s₀ :: ts.flatMap Tr.events) ∧
      (ts.length : Int) ≤ max 0 p.maxEpisodeSteps ∧
      (∀ (i : Nat) (t : Tr O A R L), ts[i]? = some t → i + 1 < ts.length → t.ended = false) ∧
      ((ts.length : Int) = max 0 p.maxEpisodeSteps ∨ ∃ t, ts.getLast? = some t ∧ t.ended = true) := by
  unfold rollout at e
  cases hpi : p.pi with
  | none => rw [hpi] at e; cases e
  | some pi =>
    rw [hpi] at e
    simp only at e
    cases hr : p.reset h with
    | error er => rw [hr] at e; cases e
    | ok s₀ =>
      rw [hr] at e
      obtain ⟨ts, s', rest, e1, e2, e3, e4, e5, -, e7, -⟩ := loop_spec p pi hpi _ _ _ _ _ e
      obtain ⟨rfl, e8⟩ := e7 rfl
      simp only [List.append_nil] at e1 e3
      refine ⟨s₀, s', ts, by rw [e1]; simp, e2, .cons _ hr e3, by omega, e5, ?_⟩
      rcases e8 with e8 | e8
      · left; omega
      · exact .inr e8

/-- C58.  If a call raises, the exception is passed on and what was done before is a chain of complete transitions, none of which ended the episode, followed by at most
an action and a step that were not traced. -/
theorem C58_raises {p : Parts O A R L} {h h' : List (Event O A R L)} {err : Err} (e : rollout p h = (h', .error err)) :
    h' = h ∨ ∃ s₀ s' ts rest, h' = h ++ .reset s₀ :: (ts.flatMap Tr.events ++ rest) ∧ Chained s₀ ts s' ∧ Genuine p h (.reset s₀ :: (ts.flatMap Tr.events ++ rest)) ∧
      Unfinished s' rest ∧ ∀ t ∈ ts, t.ended = false := by
  unfold rollout at e
  cases hpi : p.pi with
  | none => rw [hpi] at e; cases e; exact .inl rfl
  | some pi =>
    rw [hpi] at e
    simp only at e
    cases hr : p.reset h with
    | error er => rw [hr] at e; cases e; exact .inl rfl
    | ok s₀ =>
      rw [hr] at e
      obtain ⟨ts, s', rest, e1, e2, e3, -, e5, e6, -, e8⟩ := loop_spec p pi hpi _ _ _ _ _ e
      refine .inr ⟨s₀, s', ts, rest, by rw [e1]; simp, e2, .cons _ hr e3, e6, ?_⟩
      intro t ht
      obtain ⟨i, hi, rfl⟩ := List.getElem_of_mem ht
      by_cases hlt : i + 1 < ts.length
      · exact e5 i _ (List.getElem?_eq_getElem hi) hlt
      · refine e8 err rfl _ ?_
        rw [List.getLast?_eq_getElem?, List.getElem?_eq_some_iff]
        exact ⟨by omega, by congr 1; omega⟩

/-- The calls of `trace`. -/
def traces (h : List (Event O A R L)) : List (O × A × R × Bool × L) :=
  h.filterMap fun | .trace s a r d l => some (s, a, r, d, l) | _ => none

/-- The calls of `env.step`, with their results. -/
def steps (h : List (Event O A R L)) : List (A × O × R × Bool) :=
  h.filterMap fun | .step a s r d t => some (a, s, r, d || t) | _ => none

theorem traces_events (ts : List (Tr O A R L)) : traces (ts.flatMap Tr.events) = ts.map (fun t => (t.s, t.a, t.r, t.ended, t.logp)) := by
  induction ts with
  | nil => rfl
  | cons t ts ih =>
    rw [List.flatMap_cons, List.map_cons, ← ih]
    rfl

theorem steps_events (ts : List (Tr O A R L)) : steps (ts.flatMap Tr.events) = ts.map (fun t => (t.a, t.sNext, t.r, t.ended)) := by
  induction ts with
  | nil => rfl
  | cons t ts ih =>
    rw [List.flatMap_cons, List.map_cons, ← ih]
    rfl

/-- C58.  Step calls and trace calls of a rollout correspond one to one, in order: same action, same reward, and the flag is that of the step; each traced state is the
one the environment returned before. -/
theorem C58_once {p : Parts O A R L} {h' : List (Event O A R L)} (e : rollout p [] = (h', .ok ())) :
    List.Forall₂ (fun st tr => tr.2.1 = st.1 ∧ tr.2.2.1 = st.2.2.1 ∧ tr.2.2.2.1 = st.2.2.2) (steps h') (traces h') ∧
    ∃ s₀, p.reset [] = .ok s₀ ∧ (traces h').map (·.1) = (s₀ :: (steps h').map (fun st => st.2.1)).take (traces h').length := by
  obtain ⟨s₀, s', ts, e1, e2, e3, -⟩ := C58_rollout e
  have ht : traces h' = ts.map (fun t => (t.s, t.a, t.r, t.ended, t.logp)) := by
    rw [e1, ← traces_events]; rfl
  have hs : steps h' = ts.map (fun t => (t.a, t.sNext, t.r, t.ended)) := by
    rw [e1, ← steps_events]; rfl
  rw [ht, hs]
  refine ⟨?_, s₀, ?_, ?_⟩
  · rw [List.forall₂_map_left_iff, List.forall₂_map_right_iff]
    exact List.forall₂_same.2 (fun t _ => ⟨rfl, rfl, rfl⟩)
  · cases e3 with
    | cons _ h1 _ => exact h1
  · clear e e1 e3 ht hs
    induction e2 with
    | nil s => simp
    | cons t _ ih => simp only [List.map_cons, List.map_map, List.length_cons, List.length_map, List.take_succ_cons, Function.comp_def] at ih ⊢; rw [ih]

/-- C58.  No rollout without policy. -/
theorem C58_no_policy (p : Parts O A R L) (h : List (Event O A R L)) (hp : p.pi = none) : rollout p h = (h, .error .assertionError) := by
  unfold rollout; rw [hp]

/-- An environment that counts its steps and is truncated after three: the hypotheses are met, and three transitions are traced. -/
def exParts : Parts Nat Unit Nat Nat where
  reset _ := .ok 0
  pi := some fun _ _ => .ok ((), 0)
  step h _ := .ok ((steps h).length + 1, 7, false, decide ((steps h).length = 2))
  trace _ _ _ _ _ _ := .ok ()
  maxEpisodeSteps := 10

example : (traces (rollout exParts []).1) = [(0, (), 7, false, 0), (1, (), 7, false, 0), (2, (), 7, true, 0)] ∧ (rollout exParts []).2 = .ok () := by
  decide +kernel

/-- If the environment does not end the episode by itself within `max_episode_steps`, the last traced flag is `False`: the tracer is not told that the episode is over. -/
example : (traces (rollout { exParts with maxEpisodeSteps := 2 } []).1) = [(0, (), 7, false, 0), (1, (), 7, false, 0)] := by
  decide +kernel

/-! ### Waiting -/

/-- The waiting times that should be slept: doubling from 1/1024 of a second, at most 30 seconds. -/
def waits (k : Nat) : List Rat := (List.range k).map fun m => min 30 (2 ^ m / 1024)

theorem wait_step (m : Nat) : min 30 (min 30 (2 ^ m / 1024) * 2) = (min 30 (2 ^ (m + 1) / 1024) : Rat) := by
  have e : (2 : Rat) ^ (m + 1) / 1024 = 2 ^ m / 1024 * 2 := by rw [pow_succ]; ring
  rw [e]
  rcases le_total (30 : Rat) (2 ^ m / 1024) with h | h
  · rw [min_eq_left h, min_eq_left (by norm_num), min_eq_left (by linarith)]
  · rw [min_eq_right h]

theorem waitLoop_spec (len : Nat → Nat) (warmup : Int) (i j : Nat) (sl : List Rat) (m : Nat) :
    (∃ fuel, waitLoop len warmup fuel i (min 30 (2 ^ m / 1024)) = some (j, sl)) ↔
      i ≤ j ∧ warmup ≤ len j ∧ (∀ t, i ≤ t → t < j → (len t : Int) < warmup) ∧ sl = (List.range (j - i)).map fun x => min 30 (2 ^ (m + x) / 1024) := by
  constructor
  · rintro ⟨fuel, e⟩
    induction fuel generalizing i m sl with
    | zero => simp [waitLoop] at e
    | succ fuel ih =>
      unfold waitLoop at e
      split at e
      · next hlt =>
        rw [wait_step] at e
        cases hw : waitLoop len warmup fuel (i + 1) (min 30 (2 ^ (m + 1) / 1024)) with
        | none => rw [hw] at e; cases e
        | some x =>
          rw [hw] at e
          obtain ⟨j', sl'⟩ := x
          simp only [Option.map_some, Option.some.injEq, Prod.mk.injEq] at e
          obtain ⟨rfl, rfl⟩ := e
          obtain ⟨h1, h2, h3, h4⟩ := ih _ _ _ hw
          refine ⟨by omega, h2, ?_, ?_⟩
          · intro t ht1 ht2
            by_cases hti : t = i
            · subst hti; exact hlt
            · exact h3 t (by omega) ht2
          · rw [h4, show j' - i = (j' - (i + 1)) + 1 by omega, List.range_succ_eq_map, List.map_cons, List.map_map]
            congr 1
            refine List.map_congr_left fun x _ => ?_
            simp only [Function.comp]; rw [show m + 1 + x = m + (x + 1) by omega]
      · next hlt =>
        cases e
        exact ⟨le_rfl, by omega, fun t h1 h2 => by omega, by simp⟩
  · rintro ⟨h1, h2, h3, rfl⟩
    obtain ⟨d, rfl⟩ := Nat.exists_eq_add_of_le h1
    refine ⟨d + 1, ?_⟩
    induction d generalizing i m with
    | zero =>
      unfold waitLoop
      rw [if_neg (by simpa using h2)]; simp
    | succ d ih =>
      unfold waitLoop
      rw [if_pos (h3 i le_rfl (by omega)), wait_step]
      have := ih (i + 1) (m + 1) (by omega) (by rw [show i + 1 + d = i + (d + 1) by omega]; exact h2) (fun t ht1 ht2 => h3 t (by omega) (by omega))
      rw [show i + 1 + d = i + (d + 1) by omega] at this
      rw [this]
      simp only [Option.map_some, Option.some.injEq, Prod.mk.injEq, true_and]
      rw [show i + (d + 1) - i = (i + (d + 1) - (i + 1)) + 1 by omega, List.range_succ_eq_map, List.map_cons, List.map_map]
      congr 1
      refine List.map_congr_left fun x _ => ?_
      simp only [Function.comp]; rw [show m + 1 + x = m + (x + 1) by omega]

/-- The number of transitions a worker waits for. -/
def needed (batchSize : Int) (warmup : Option Int) : Int := max (warmup.getD 0) batchSize

theorem start_wait : (1 / 1024 : Rat) = min 30 (2 ^ 0 / 1024) := by norm_num

/-- C59.  The worker that holds the buffer samples exactly at its first look at which the buffer holds `max(buffer_warmup, batch_size)` transitions, having slept after
every other look, twice as long each time but never more than 30 seconds. -/
theorem C59_first (len : Nat → Nat) (batchSize : Int) (w : Option Int) (i j : Nat) (sl : List Rat) :
    (∃ fuel, bufferSample len batchSize fuel [w] i = some (j, sl)) ↔
      i ≤ j ∧ needed batchSize w ≤ len j ∧ (∀ t, i ≤ t → t < j → (len t : Int) < needed batchSize w) ∧ sl = waits (j - i) := by
  have h := waitLoop_spec len (needed batchSize w) i j sl 0
  rw [← start_wait] at h
  simp only [zero_add] at h
  unfold waits
  rw [← h]
  refine exists_congr fun fuel => ?_
  simp only [bufferSample, needed]
  cases hw : waitLoop len (max (w.getD 0) batchSize) fuel i (1 / 1024) <;> simp

theorem waits_bounds {k : Nat} {x : Rat} (h : x ∈ waits k) : 0 < x ∧ x ≤ 30 := by
  unfold waits at h
  obtain ⟨m, -, rfl⟩ := List.mem_map.1 h
  exact ⟨lt_min (by norm_num) (by positivity), min_le_left _ _⟩

/-- C59.  For a worker with a chain of parameter stores: when the buffer is sampled it has just been seen to hold the batch size and the warm-up of the worker that holds
it, and, unless it has shrunk meanwhile, the warm-up of every worker of the chain; no sleep is longer than 30 seconds. -/
theorem C59_chain (len : Nat → Nat) (batchSize : Int) (fuel : Nat) {ws : List (Option Int)} {i j : Nat} {sl : List Rat}
    (e : bufferSample len batchSize fuel ws i = some (j, sl)) :
    i ≤ j ∧ batchSize ≤ len j ∧ (∀ w ∈ ws.getLast?, needed batchSize w ≤ len j) ∧ (Monotone len → ∀ w ∈ ws, needed batchSize w ≤ len j) ∧
      ∀ x ∈ sl, 0 < x ∧ x ≤ 30 := by
  induction ws generalizing i sl with
  | nil => simp [bufferSample] at e
  | cons w ws ih =>
    unfold bufferSample at e
    cases hw : waitLoop len (max (w.getD 0) batchSize) fuel i (1 / 1024) with
    | none => rw [hw] at e; cases e
    | some x =>
      obtain ⟨j', sl'⟩ := x
      rw [hw] at e
      obtain ⟨h1, h2, -, h4⟩ := (C59_first len batchSize w i j' sl').1 ⟨fuel, by simp only [bufferSample]; rw [hw]⟩
      have hsl : ∀ x ∈ sl', 0 < x ∧ x ≤ 30 := fun x hx => waits_bounds (h4 ▸ hx)
      cases ws with
      | nil =>
        cases e
        refine ⟨h1, ?_, by simpa using h2, by simpa using fun _ => h2, hsl⟩
        unfold needed at h2; omega
      | cons w' ws =>
        simp only at e
        cases hb : bufferSample len batchSize fuel (w' :: ws) (j' + 1) with
        | none => rw [hb] at e; cases e
        | some x =>
          obtain ⟨j'', sl''⟩ := x
          rw [hb] at e
          cases e
          obtain ⟨k1, k2, k3, k4, k5⟩ := ih hb
          refine ⟨by omega, k2, by simpa [List.getLast?_cons_cons] using k3, ?_, ?_⟩
          · intro hm v hv
            rcases List.mem_cons.1 hv with rfl | hv
            · have : len j' ≤ len j'' := hm (by omega)
              show needed batchSize v ≤ (len j'' : Int)
              omega
            · exact k4 hm v hv
          · intro x hx
            rcases List.mem_append.1 hx with hx | hx
            · exact hsl x hx
            · exact k5 x hx

theorem waitLoop_mono {len : Nat → Nat} {warmup : Int} {fuel fuel' i : Nat} {x : Rat} {r : Nat × List Rat} (hf : fuel ≤ fuel')
    (h : waitLoop len warmup fuel i x = some r) : waitLoop len warmup fuel' i x = some r := by
  induction fuel generalizing fuel' i x r with
  | zero => simp [waitLoop] at h
  | succ fuel ih =>
    obtain ⟨f, rfl⟩ : ∃ f, fuel' = f + 1 := ⟨fuel' - 1, by omega⟩
    unfold waitLoop at h ⊢
    split
    · next hlt =>
      rw [if_pos hlt] at h
      cases hw : waitLoop len warmup fuel (i + 1) (min 30 (x * 2)) with
      | none => rw [hw] at h; cases h
      | some y => rw [hw] at h; rw [ih (by omega) hw]; exact h
    · next hlt => rw [if_neg hlt] at h; exact h

theorem bufferSample_mono {len : Nat → Nat} {batchSize : Int} {fuel fuel' : Nat} {ws : List (Option Int)} {i : Nat} {r : Nat × List Rat} (hf : fuel ≤ fuel')
    (h : bufferSample len batchSize fuel ws i = some r) : bufferSample len batchSize fuel' ws i = some r := by
  induction ws generalizing i r with
  | nil => simp [bufferSample] at h
  | cons w ws ih =>
    unfold bufferSample at h ⊢
    cases hw : waitLoop len (max (w.getD 0) batchSize) fuel i (1 / 1024) with
    | none => rw [hw] at h; cases h
    | some x =>
      rw [hw] at h
      rw [waitLoop_mono hf hw]
      cases ws with
      | nil => exact h
      | cons w' ws =>
        simp only at h ⊢
        cases hb : bufferSample len batchSize fuel (w' :: ws) (x.1 + 1) with
        | none => rw [hb] at h; cases h
        | some y => rw [hb] at h; rw [ih hb]; exact h

theorem bufferSample_returns (len : Nat → Nat) (batchSize : Int) (ws : List (Option Int)) (w : Option Int) (i N : Nat)
    (hN : ∀ t, N ≤ t → ∀ v ∈ w :: ws, needed batchSize v ≤ len t) : ∃ fuel r, bufferSample len batchSize fuel (w :: ws) i = some r := by
  induction ws generalizing w i with
  | nil =>
    obtain ⟨j, hj⟩ : ∃ j, i ≤ j ∧ needed batchSize w ≤ len j ∧ ∀ t, i ≤ t → t < j → (len t : Int) < needed batchSize w := by
      have hex : ∃ t, i ≤ t ∧ needed batchSize w ≤ len t := ⟨max i N, le_max_left _ _, hN _ (le_max_right _ _) w (by simp)⟩
      refine ⟨Nat.find hex, (Nat.find_spec hex).1, (Nat.find_spec hex).2, fun t h1 h2 => ?_⟩
      have := Nat.find_min hex h2
      omega
    obtain ⟨fuel, e⟩ := (C59_first len batchSize w i j (waits (j - i))).2 ⟨hj.1, hj.2.1, hj.2.2, rfl⟩
    exact ⟨fuel, _, e⟩
  | cons w' ws ih =>
    obtain ⟨j, hj⟩ : ∃ j, i ≤ j ∧ needed batchSize w ≤ len j ∧ ∀ t, i ≤ t → t < j → (len t : Int) < needed batchSize w := by
      have hex : ∃ t, i ≤ t ∧ needed batchSize w ≤ len t := ⟨max i N, le_max_left _ _, hN _ (le_max_right _ _) w (by simp)⟩
      refine ⟨Nat.find hex, (Nat.find_spec hex).1, (Nat.find_spec hex).2, fun t h1 h2 => ?_⟩
      have := Nat.find_min hex h2
      omega
    obtain ⟨fuel, e⟩ := (C59_first len batchSize w i j (waits (j - i))).2 ⟨hj.1, hj.2.1, hj.2.2, rfl⟩
    obtain ⟨fuel', r, e'⟩ := ih w' (j + 1) (fun t ht v hv => hN t ht v (List.mem_cons_of_mem _ hv))
    refine ⟨max fuel fuel', (r.1, waits (j - i) ++ r.2), ?_⟩
    have e1 := bufferSample_mono (le_max_left fuel fuel') e
    have e2 := bufferSample_mono (le_max_right fuel fuel') e'
    unfold bufferSample at e1 ⊢
    cases hw : waitLoop len (max (w.getD 0) batchSize) (max fuel fuel') i (1 / 1024) with
    | none => rw [hw] at e1; cases e1
    | some x =>
      rw [hw] at e1
      simp only [Option.some.injEq] at e1
      have e1 : x = (j, waits (j - i)) := e1
      subst e1
      simp only
      rw [e2]; rfl

/-- C59.  It returns if the buffer is eventually filled for good, and does not return if it stays below what the calling worker needs. -/
theorem C59_returns (len : Nat → Nat) (batchSize : Int) {ws : List (Option Int)} (hne : ws ≠ []) (i : Nat) :
    ((∃ N, ∀ t, N ≤ t → ∀ w ∈ ws, needed batchSize w ≤ len t) → ∃ fuel r, bufferSample len batchSize fuel ws i = some r) ∧
    ((∃ w ∈ ws.head?, ∀ t, i ≤ t → (len t : Int) < needed batchSize w) → ∀ fuel, bufferSample len batchSize fuel ws i = none) := by
  constructor
  · rintro ⟨N, hN⟩
    cases ws with
    | nil => exact absurd rfl hne
    | cons w ws => exact bufferSample_returns len batchSize ws w i N hN
  · rintro ⟨w, hw, h⟩ fuel
    cases ws with
    | nil => exact absurd rfl hne
    | cons w' ws =>
      simp at hw
      subst hw
      unfold bufferSample
      cases hl : waitLoop len (max (w'.getD 0) batchSize) fuel i (1 / 1024) with
      | none => rfl
      | some x =>
        obtain ⟨j', sl'⟩ := x
        obtain ⟨h1, h2, -⟩ := (C59_first len batchSize w' i j' sl').1 ⟨fuel, by simp only [bufferSample]; rw [hl]⟩
        have := h j' h1
        omega

/-- A buffer that gains one transition between two looks; the worker needs 4 and its store 6. -/
example : bufferSample (fun t => t) 4 20 [none, some 6] 2 = some (6, [1/1024, 1/512, 1/1024]) := by decide +kernel

/-! ### Attributes -/

theorem lookup_setAttr (attrs : List (String × Obj V)) (name k : String) (x : Obj V) :
    (setAttr attrs name x).lookup k = if k = name then some x else attrs.lookup k := by
  induction attrs with
  | nil =>
    unfold setAttr
    by_cases h : k = name
    · simp [List.lookup, h]
    · simp [List.lookup, h, beq_eq_false_iff_ne.2 h]
  | cons a attrs ih =>
    obtain ⟨n, o⟩ := a
    unfold setAttr
    by_cases hn : n = name
    · subst hn
      rw [if_pos rfl]
      by_cases h : k = n
      · simp [List.lookup, h]
      · simp [List.lookup, h, beq_eq_false_iff_ne.2 h]
    · rw [if_neg hn]
      by_cases h : k = n
      · subst h
        rw [if_neg hn]; simp [List.lookup]
      · simp only [List.lookup, beq_eq_false_iff_ne.2 h, ih]

/-- Neither path leads through the other. -/
def Apart (p q : List String) : Prop := ¬ p <+: q ∧ ¬ q <+: p

theorem getattrRec_cons (o : Obj V) (d : Option (Obj V)) (name : String) {path : List String} (h : path ≠ []) :
    getattrRec o d (name :: path) = match o.attr name with
      | .error e => .error e
      | .ok x => getattrRec x d path := by
  cases path with
  | nil => exact absurd rfl h
  | cons a path => rfl

theorem setattrRec_spec {o o' v : Obj V} {path : List String} (e : setattrRec o v path = .ok o') :
    (∀ d, getattrRec o' d path = .ok v) ∧ ∀ q d, Apart path q → getattrRec o' d q = getattrRec o d q := by
  induction path generalizing o o' with
  | nil => simp [setattrRec] at e
  | cons name path ih =>
    cases o with
    | val x => cases path <;> simp [setattrRec] at e
    | obj attrs =>
      cases path with
      | nil =>
        simp only [setattrRec, Except.ok.injEq] at e
        subst e
        refine ⟨fun d => ?_, fun q d hq => ?_⟩
        · have : (Obj.obj (setAttr attrs name v)).attr name = .ok v := by
            unfold Obj.attr; simp only; rw [lookup_setAttr, if_pos rfl]
          unfold getattrRec
          cases d <;> simp [this]
        · cases q with
          | nil => rfl
          | cons a q =>
            have ha : a ≠ name := by
              rintro rfl
              exact hq.1 (by simp)
            have : (Obj.obj (setAttr attrs name v)).attr a = (Obj.obj attrs).attr a := by
              unfold Obj.attr; simp only; rw [lookup_setAttr, if_neg ha]
            cases q with
            | nil => unfold getattrRec; rw [this]
            | cons b q => rw [getattrRec_cons _ _ _ (by simp), getattrRec_cons _ _ _ (by simp), this]
      | cons b path =>
        simp only [setattrRec] at e
        cases hl : attrs.lookup name with
        | none => rw [hl] at e; cases e
        | some x =>
          rw [hl] at e
          simp only at e
          cases hx : setattrRec x v (b :: path) with
          | error er => rw [hx] at e; cases e
          | ok x' =>
            rw [hx] at e
            cases e
            obtain ⟨h1, h2⟩ := ih hx
            have hself : (Obj.obj (setAttr attrs name x')).attr name = .ok x' := by
              unfold Obj.attr; simp only; rw [lookup_setAttr, if_pos rfl]
            have hold : (Obj.obj attrs).attr name = .ok x := by
              unfold Obj.attr; simp only; rw [hl]
            refine ⟨fun d => ?_, fun q d hq => ?_⟩
            · rw [getattrRec_cons _ _ _ (by simp), hself]; exact h1 d
            · cases q with
              | nil => rfl
              | cons a q =>
                by_cases ha : a = name
                · subst ha
                  cases q with
                  | nil => exact absurd (by simp) hq.2
                  | cons c q =>
                    rw [getattrRec_cons _ _ _ (by simp), getattrRec_cons _ _ _ (by simp), hself, hold]
                    exact h2 _ d ⟨fun h => hq.1 (by simpa using h), fun h => hq.2 (by simpa using h)⟩
                · have : (Obj.obj (setAttr attrs name x')).attr a = (Obj.obj attrs).attr a := by
                    unfold Obj.attr; simp only; rw [lookup_setAttr, if_neg ha]
                  cases q with
                  | nil => unfold getattrRec; rw [this]
                  | cons c q => rw [getattrRec_cons _ _ _ (by simp), getattrRec_cons _ _ _ (by simp), this]

/-- The worker that holds the attributes: the end of the chain. -/
def Chain.root (c : Chain V) : Obj V := c.stores.getLast?.getD c.self

theorem pull_root (c : Chain V) (path : List String) (d : Option (Obj V)) : c.pullGetattr path d = getattrRec c.root d path := by
  obtain ⟨o, ss⟩ := c
  induction ss generalizing o with
  | nil => unfold Chain.pullGetattr; rfl
  | cons s ss ih =>
    unfold Chain.pullGetattr
    rw [ih]
    unfold Chain.root
    rw [List.getLast?_cons]; rfl

theorem push_root {c c' : Chain V} {path : List String} {v : Obj V} (e : c.pushSetattr path v = .ok c') :
    setattrRec c.root v path = .ok c'.root ∧ (c.self :: c.stores).dropLast = (c'.self :: c'.stores).dropLast ∧ c.stores.length = c'.stores.length := by
  obtain ⟨o, ss⟩ := c
  induction ss generalizing o c' with
  | nil =>
    unfold Chain.pushSetattr at e
    cases hs : setattrRec o v path with
    | error er => rw [hs] at e; cases e
    | ok o' => rw [hs] at e; cases e; exact ⟨hs, rfl, rfl⟩
  | cons s ss ih =>
    unfold Chain.pushSetattr at e
    cases hp : Chain.pushSetattr ⟨s, ss⟩ path v with
    | error er => rw [hp] at e; cases e
    | ok c'' =>
      rw [hp] at e
      cases e
      obtain ⟨h1, h2, h3⟩ := ih _ hp
      refine ⟨?_, ?_, by simpa using h3⟩
      · unfold Chain.root at h1 ⊢
        simp only [List.getLast?_cons, Option.getD_some] at h1 ⊢
        exact h1
      · simp only [List.dropLast_cons_cons] at h2 ⊢
        rw [h2]

/-- C66.  An attribute that is pushed is what every worker with the same parameter store then pulls, all other attributes stay as they are, and no worker but the
one at the end of the chain is changed. -/
theorem C66_push_pull {c c' : Chain V} {path : List String} {v : Obj V} (e : c.pushSetattr path v = .ok c') :
    (∀ c'' : Chain V, c''.root = c'.root → ∀ d, c''.pullGetattr path d = .ok v) ∧
    (∀ q d, Apart path q → c'.pullGetattr q d = c.pullGetattr q d) ∧
    (c.self :: c.stores).dropLast = (c'.self :: c'.stores).dropLast := by
  obtain ⟨h1, h2, -⟩ := push_root e
  obtain ⟨k1, k2⟩ := setattrRec_spec h1
  refine ⟨fun c'' hc d => by rw [pull_root, hc]; exact k1 d, fun q d hq => by rw [pull_root, pull_root]; exact k2 q d hq, h2⟩

/-- C66.  The push succeeds exactly if the object that is to get the attribute can be reached and has attributes; a missing last attribute is created. -/
theorem C66_accepts (c : Chain V) (pre : List String) (name : String) (v : Obj V) :
    (∃ c', c.pushSetattr (pre ++ [name]) v = .ok c') ↔ ∃ attrs, (if pre = [] then .ok c.root else getattrRec c.root none pre) = .ok (.obj attrs) := by
  have hroot : (∃ c', c.pushSetattr (pre ++ [name]) v = .ok c') ↔ ∃ o', setattrRec c.root v (pre ++ [name]) = .ok o' := by
    constructor
    · rintro ⟨c', e⟩; exact ⟨_, (push_root e).1⟩
    · obtain ⟨o, ss⟩ := c
      induction ss generalizing o with
      | nil => rintro ⟨o', e⟩; exact ⟨⟨o', []⟩, by unfold Chain.pushSetattr; have e : setattrRec o v (pre ++ [name]) = .ok o' := e; rw [e]⟩
      | cons s ss ih =>
        rintro ⟨o', e⟩
        obtain ⟨c', hc⟩ := ih s ⟨o', by unfold Chain.root at e ⊢; simpa [List.getLast?_cons] using e⟩
        exact ⟨⟨o, c'.self :: c'.stores⟩, by unfold Chain.pushSetattr; rw [hc]⟩
  rw [hroot]
  generalize c.root = o
  clear hroot
  induction pre generalizing o with
  | nil =>
    cases o <;> simp [setattrRec]
  | cons a pre ih =>
    simp only [List.cons_append, reduceCtorEq, if_false]
    cases o with
    | val x => cases pre <;> simp [setattrRec, getattrRec, Obj.attr]
    | obj attrs =>
      have hcons : setattrRec (.obj attrs) v (a :: (pre ++ [name])) = match attrs.lookup a with
          | none => .error .attributeError
          | some x => match setattrRec x v (pre ++ [name]) with
            | .error e => .error e
            | .ok x' => .ok (.obj (setAttr attrs a x')) := by
        cases pre <;> rfl
      rw [hcons]
      cases hl : attrs.lookup a with
      | none => cases pre <;> simp [getattrRec, Obj.attr, hl]
      | some x =>
        simp only
        have hget : getattrRec (.obj attrs) none (a :: pre) = if pre = [] then .ok x else getattrRec x none pre := by
          cases pre with
          | nil => simp [getattrRec, Obj.attr, hl]
          | cons b pre => rw [getattrRec_cons _ _ _ (by simp)]; simp [Obj.attr, hl]
        rw [hget]
        refine Iff.trans ?_ (ih x)
        constructor
        · rintro ⟨o', e⟩
          cases hs : setattrRec x v (pre ++ [name]) with
          | error er => rw [hs] at e; cases e
          | ok x' => exact ⟨x', rfl⟩
        · rintro ⟨x', e⟩
          exact ⟨_, by rw [e]⟩

/-- The attribute `env.T` of a parameter store, pushed by one worker and pulled by another. -/
example : (Chain.pushSetattr ⟨.obj [], [.obj [("env", .obj [("T", .val 3), ("t", .val 1)])]]⟩ ["env", "T"] (.val 5)).isOk = true := by
  unfold Chain.pushSetattr Chain.pushSetattr
  rfl

end Coax.Core
