import Verif.Wrappers.FrameStacking
import Mathlib.Data.List.Basic

/-! Property C35: `FrameStacking` returns the last `num_frames` observations of the episode. -/

namespace Coax.FrameStacking

variable {O R : Type _}

/-! ### Specification -/

/-- `frames` are the last `n` of the observations `obs` of an episode, oldest first, padded on the left with the first
observation (the subtraction stops at zero). -/
structure Stacked (n : Nat) (obs frames : List O) : Prop where
  length : frames.length = n
  frame : ∀ j < n, frames[j]? = obs[obs.length + j - n]?

/-- `Run R n obs w`: a wrapper with `num_frames = n` reached the state `w` by some sequence of calls of `reset` and `step`
(including calls in which the inner environment raised); `obs` are the observations since the last successful `reset`
(`none` before the first one). -/
inductive Run (R : Type _) (n : Nat) : Option (List O) → Stack O → Prop
  | new {w} : new (.int n) = .ok w → Run R n none w
  | reset {obs w o} {r : R} {w' fr} : Run R n obs w → w.reset (.ok (o, r)) = (w', fr) → Run R n (some [o]) w'
  | step {obs w o} {r : R} {w' fr} : Run R n obs w → w.step (.ok (o, r)) = (w', fr) → Run R n (obs.map (· ++ [o])) w'
  | resetError {obs w e w'} {fr : Except Err (List O × R)} : Run R n obs w → w.reset (.error e) = (w', fr) → Run R n obs w'
  | stepError {obs w e w'} {fr : Except Err (List O × R)} : Run R n obs w → w.step (.error e) = (w', fr) → Run R n obs w'

/-! ### Helpers -/

theorem append_length {n : Nat} {q : List O} (h : q.length ≤ n) (o : O) : (append n q o).length ≤ n := by
  unfold append
  split <;> simp <;> omega

theorem extend_replicate {n : Nat} (hn : 0 < n) {q : List O} (hq : q.length ≤ n) (o : O) (m : Nat) :
    extend n q (List.replicate m o) = (q ++ List.replicate m o).drop (q.length + m - n) := by
  induction m generalizing q with
  | zero => rw [show q.length + 0 - n = 0 by omega]; simp [extend]
  | succ m ih =>
    have hl := append_length hq o
    rw [extend, List.replicate_succ, List.foldl_cons, ← extend, ih hl]
    unfold append
    split
    · simp; omega
    · rename_i h
      have hq' : q.length = n := by omega
      cases q with
      | nil => simp at hq'; omega
      | cons a q =>
        simp at hq' ⊢
        rw [show q.length + 1 + m - n = m by omega, show q.length + 1 + (m + 1) - n = m + 1 by omega, List.drop_succ_cons]

theorem reset_stacked {n : Nat} (hn : 0 < n) {q : List O} (hq : q.length ≤ n) (o : O) :
    Stacked n [o] (extend n q (List.replicate n o)) := by
  rw [extend_replicate hn hq, show q.length + n - n = q.length by omega, List.drop_left]
  constructor
  · simp
  · intro j hj
    rw [show [o].length + j - n = 0 by simp; omega]
    simp [hj]

theorem step_stacked {n : Nat} {obs q : List O} (hobs : obs ≠ []) (h : Stacked n obs q) (o : O) :
    Stacked n (obs ++ [o]) (append n q o) := by
  have hl := h.length
  have hpos := List.length_pos_iff.2 hobs
  have e : append n q o = (q ++ [o]).tail := by rw [append, if_neg (by omega)]
  rw [e]
  refine ⟨by simp; omega, ?_⟩
  intro j hj
  rw [List.getElem?_tail, List.length_append, List.length_singleton]
  rcases Nat.lt_or_ge (j + 1) n with h1 | h1
  · rw [List.getElem?_append_left (by omega), h.frame _ h1, List.getElem?_append_left (by omega)]
    congr 1; omega
  · rw [List.getElem?_append_right (by omega), List.getElem?_append_right (by omega)]
    congr 1; omega

theorem Run.inv {n : Nat} {obs : Option (List O)} {w : Stack O} (h : Run R n obs w) :
    w.maxlen = n ∧ 0 < n ∧ w.frames.length ≤ n ∧ ∀ os, obs = some os → os ≠ [] ∧ Stacked n os w.frames := by
  induction h with
  | new h =>
    unfold FrameStacking.new at h
    simp only at h
    split at h
    · cases h; simp; omega
    · cases h
  | reset _ h ih =>
    obtain ⟨h1, h2, h3, _⟩ := ih
    simp only [Stack.reset, Prod.mk.injEq] at h
    rw [← h.1]
    have hs := reset_stacked h2 h3 (by assumption)
    simp only [h1]
    refine ⟨trivial, h2, Nat.le_of_eq hs.length, ?_⟩
    rintro os ⟨⟩
    exact ⟨by simp, hs⟩
  | step _ h ih =>
    obtain ⟨h1, h2, h3, h4⟩ := ih
    simp only [Stack.step, Prod.mk.injEq] at h
    rw [← h.1]
    simp only [h1]
    refine ⟨trivial, h2, append_length h3 _, ?_⟩
    intro os hos
    rw [Option.map_eq_some_iff] at hos
    obtain ⟨os', rfl, rfl⟩ := hos
    obtain ⟨h5, h6⟩ := h4 os' rfl
    exact ⟨by simp, step_stacked h5 h6 _⟩
  | resetError _ h ih => simp only [Stack.reset, Prod.mk.injEq] at h; rw [← h.1]; exact ih
  | stepError _ h ih => simp only [Stack.step, Prod.mk.injEq] at h; rw [← h.1]; exact ih

/-! ### Theorems -/

/-- C35.  After any history, `reset` returns `num_frames` copies of the observation of the inner environment, and passes the
rest of its result on. -/
theorem C35_reset {n : Nat} {obs : Option (List O)} {w : Stack O} (h : Run R n obs w) (o : O) (r : R) :
    ∃ w' frames, w.reset (.ok (o, r)) = (w', .ok (frames, r)) ∧ Stacked n [o] frames ∧ frames = List.replicate n o := by
  obtain ⟨h1, h2, h3, _⟩ := h.inv
  have hs := reset_stacked h2 h3 o
  refine ⟨_, _, rfl, by simpa only [h1] using hs, ?_⟩
  simp only [h1]
  rw [extend_replicate h2 h3, show w.frames.length + n - n = w.frames.length by omega, List.drop_left]

/-- C35.  After any history in which the episode so far has the observations `obs`, `step` returns the last `num_frames` of
the observations, the new one included, padded on the left with the first one of the episode. -/
theorem C35_step {n : Nat} {obs : List O} {w : Stack O} (h : Run R n (some obs) w) (o : O) (r : R) :
    ∃ w' frames, w.step (.ok (o, r)) = (w', .ok (frames, r)) ∧ Stacked n (obs ++ [o]) frames := by
  obtain ⟨h1, h2, h3, h4⟩ := h.inv
  obtain ⟨h5, h6⟩ := h4 obs rfl
  exact ⟨_, _, rfl, by simpa only [h1] using step_stacked h5 h6 o⟩

/-- C35.  Once the episode has at least `num_frames` observations there is no padding. -/
theorem C35_no_padding {n : Nat} {obs frames : List O} (h : Stacked n obs frames) (hn : n ≤ obs.length) :
    frames = obs.drop (obs.length - n) := by
  apply List.ext_getElem?
  intro j
  rw [List.getElem?_drop]
  rcases Nat.lt_or_ge j n with hj | hj
  · rw [h.frame j hj]; congr 1; omega
  · rw [List.getElem?_eq_none (by rw [h.length]; exact hj), List.getElem?_eq_none (by omega)]

/-- C35, boundary: a `step` before the first `reset` returns a shorter tuple. -/
theorem C35_before_reset {n : Nat} (hn : 1 < n) {w : Stack O} (h : new (.int n) = .ok w) (o : O) (r : R) :
    ∃ w', w.step (.ok (o, r)) = (w', .ok ([o], r)) := by
  unfold new at h
  simp only at h
  split at h
  · cases h
    refine ⟨⟨[o], n⟩, ?_⟩
    simp only [Stack.step, append]
    rw [if_pos (by simp; omega)]
    rfl
  · cases h

/-- C35.  Anything but a positive int is rejected. -/
theorem C35_rejects : new (O := O) .other = .error .typeError ∧ ∀ n : Int, n ≤ 0 → new (O := O) (.int n) = .error .typeError := by
  refine ⟨rfl, ?_⟩
  intro n hn
  simp only [new]
  rw [if_neg (by omega)]

/-- Three frames, an episode of two observations. -/
theorem exRun : Run Unit 3 (some [10, 20]) ⟨[10, 10, 20], 3⟩ :=
  .step (obs := some [10]) (r := ()) (.reset (r := ()) (.new rfl) rfl) rfl

example : ∃ w' frames, (⟨[10, 10, 20], 3⟩ : Stack Nat).step (.ok (30, ())) = (w', .ok (frames, ())) ∧ frames = [10, 20, 30] :=
  ⟨_, _, rfl, rfl⟩

end Coax.FrameStacking
