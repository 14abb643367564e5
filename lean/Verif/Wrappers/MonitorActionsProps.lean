import Verif.Wrappers.CountersProps
import Verif.Wrappers.StreamingSampleProps

/-! Properties C38 and C39: the actions that a monitor holds, and its tensorboard writer. -/

namespace Coax.TrainMonitor

variable {K A S X : Type _} [Field K] [LinearOrder K]

/-- The actions of an episode: those of the steps after the last reset. -/
def actionsOf (ops : List (Op K A S X)) : List A :=
  ops.foldl (fun acts op => match op with
    | .resetGlobal => []
    | .reset _ => []
    | .step a _ _ _ => acts ++ [a]
    | _ => acts) []

/-- What is held of the actions of an episode. -/
structure HoldsActions (acts : List A) (s : Streaming.Sample A) : Prop where
  maxlen : s.maxlen = 1000
  count : s.count = acts.length
  length : s.deque.length = min 1000 acts.length
  mem : ∀ a ∈ s.deque, a ∈ acts
  all : acts.length ≤ 1000 → s.deque = acts

theorem HoldsActions.append {acts : List A} {s : Streaming.Sample A} (h : HoldsActions acts s) (a : A) (u : K) (i : Nat) : HoldsActions (acts ++ [a]) (s.append a u i) := by
  obtain ⟨h1, h2, h3, h4, h5⟩ := h
  unfold Streaming.Sample.append
  simp only [h1]
  by_cases hl : s.deque.length < 1000
  · rw [if_pos hl]
    have hlt : acts.length < 1000 := by omega
    exact ⟨rfl, by simp [h2], by simp [h3]; omega, fun b hb => by
      simp only [List.mem_append, List.mem_singleton] at hb ⊢
      exact hb.imp (h4 b) id, fun _ => by simp [h5 hlt.le]⟩
  · rw [if_neg hl]
    have hge : 1000 ≤ acts.length := by omega
    split
    · exact ⟨rfl, by simp [h2], by simp [h3]; omega, fun b hb => by
        simp only [List.mem_append, List.mem_singleton]
        exact (List.mem_or_eq_of_mem_set hb).imp (h4 b) id, fun h => by simp at h; omega⟩
    · exact ⟨rfl, by simp [h2], by simp [h3]; omega, fun b hb => by
        simp only [List.mem_append, List.mem_singleton]
        exact .inl (h4 b hb), fun h => by simp at h; omega⟩

theorem holds_nil (s : Streaming.Sample A) (h : s.maxlen = 1000) : HoldsActions [] s.reset := ⟨h, rfl, rfl, by simp [Streaming.Sample.reset], fun _ => rfl⟩

/-- Claim C39 for monitors: after any calls of its methods, whether or not they raised, a monitor has counted the actions of the episode and holds 1000 of them, or all of them in order if there are no more.  It holds no others. -/
theorem C39_monitor (smoothing : K) (ops : List (Op K A S X)) :
    let s := (ops.foldl Mon.apply (new smoothing : Mon K A)).epActions
    s.count = (actionsOf ops).length ∧ s.deque.length = min 1000 (actionsOf ops).length ∧ (∀ a ∈ s.deque, a ∈ actionsOf ops) ∧ ((actionsOf ops).length ≤ 1000 → s.deque = actionsOf ops) := by
  suffices h : HoldsActions (actionsOf ops) (ops.foldl Mon.apply (new smoothing : Mon K A)).epActions from ⟨h.count, h.length, h.mem, h.all⟩
  unfold actionsOf
  suffices h : ∀ (acts : List A) (m : Mon K A), HoldsActions acts m.epActions → HoldsActions (ops.foldl (fun acts op => match op with
    | .resetGlobal => []
    | .reset _ => []
    | .step a _ _ _ => acts ++ [a]
    | _ => acts) acts) (ops.foldl Mon.apply m).epActions from h [] _ ⟨rfl, rfl, rfl, by simp [new, Streaming.new], fun _ => rfl⟩
  induction ops with
  | nil => exact fun _ _ h => h
  | cons op ops ih =>
    intro acts m h
    rw [List.foldl_cons, List.foldl_cons]
    refine ih _ _ ?_
    cases op with
    | resetGlobal => exact ⟨rfl, rfl, rfl, by simp [Mon.apply, Mon.resetGlobal, Streaming.new], fun _ => rfl⟩
    | reset inner => exact holds_nil _ h.maxlen
    | step a u i inner =>
      have e : (m.apply (.step a u i inner)).epActions = m.epActions.append a u i := by
        unfold Mon.apply Mon.step
        cases inner with
        | error e => rfl
        | ok res =>
          simp only
          split_ifs <;> rfl
      simp only
      rw [e]
      exact h.append a u i
    | recordMetrics ms =>
      have e : (m.apply (.recordMetrics ms : Op K A S X)).epActions = m.epActions := by
        unfold Mon.apply Mon.recordMetrics
        cases ms <;> rfl
      simp only
      rw [e]
      exact h
    | period name T ep =>
      have e1 : ∀ (m : Mon K A), (m.periodEpOnly name ep).1.epActions = m.epActions := fun m => by
        unfold Mon.periodEpOnly
        cases ep with
        | none => rfl
        | some k =>
          simp only
          split_ifs <;> (try rfl) <;> split <;> (try rfl) <;> split_ifs <;> rfl
      have e : (m.apply (.period name T ep : Op K A S X)).epActions = m.epActions := by
        unfold Mon.apply Mon.period
        cases T with
        | none => exact e1 m
        | some k =>
          simp only
          split_ifs <;> (try rfl) <;> split <;> (try rfl) <;> split_ifs <;> (try rfl) <;> rw [e1]
      simp only
      rw [e]
      exact h

/-- An episode of two steps after one of one step. -/
example : actionsOf ([.reset (.ok ()), .step 5 0 0 (.ok ⟨(), 1, true, false, none⟩), .reset (.ok ()), .step 7 0 0 (.ok ⟨(), 1, false, false, none⟩), .step 8 0 0 (.error .typeError)] : List (Op ℚ Nat Unit Unit)) = [7, 8] := rfl

/-- Claim C38, the writer: the first use opens a writer for the directory of the monitor, and later ones get the same, as long as the directory does not change; nothing else of the monitor changes. -/
theorem C38_writer (m : HMon K) (d : String) (hd : m.tensorboardDir = some d) (h : m.tensorboard = .absent) : ∃ m', m.openTensorboard = (m', .ok (.writer d)) ∧ m' = { m with tensorboard := .writer d } ∧ m'.openTensorboard = (m', .ok (.writer d)) := by
  refine ⟨{ m with tensorboard := .writer d }, ?_, rfl, rfl⟩
  rw [HMon.openTensorboard, h, hd]

/-- Without a directory nothing is opened. -/
theorem C38_no_writer (m : HMon K) (h : m.tensorboard = .none) : m.openTensorboard = (m, .ok .none) := by
  rw [HMon.openTensorboard, h]

/-- A new directory, which is not the one in use, closes the way to the old writer. -/
theorem C38_new_directory (m : HMon K) (w : World) (d : String) (h : m.tensorboardDir ≠ some (if w.stamped d then d else w.join d)) :
    ∃ m', (m.initTensorboard w (some d)).openTensorboard = (m', .ok (.writer (if w.stamped d then d else w.join d))) := by
  have e : (if ¬ w.stamped d then w.join d else d) = if w.stamped d then d else w.join d := by
    by_cases hs : w.stamped d <;> simp [hs]
  have e2 : m.initTensorboard w (some d) = { m with tensorboardDir := some (if w.stamped d then d else w.join d), tensorboard := .absent } := by
    rw [HMon.initTensorboard]
    simp only [e]
    rw [if_pos h.symm]
  rw [e2]
  exact ⟨_, rfl⟩

/-- A monitor with a directory and no writer yet, and a directory to change to. -/
example : ∃ (m : HMon ℚ) (w : World), m.tensorboardDir = some "a/20260101_000000" ∧ m.tensorboard = .absent ∧ m.tensorboardDir ≠ some (if w.stamped "b" then "b" else w.join "b") :=
  ⟨⟨0, 0, 0, 0, 0, 0, 0, 0, 0, some "a/20260101_000000", .absent, 10⟩, ⟨fun _ => false, fun d => d ++ "/20260101_000000"⟩, rfl, rfl, by simp⟩

end Coax.TrainMonitor
