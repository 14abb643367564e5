import Verif.Wrappers.Counters
import Verif.Wrappers.TrainMonitorProps
import Mathlib.Data.Rat.Defs
import Mathlib.Algebra.Order.Ring.Rat
import Mathlib.Algebra.Field.Rat

/-! Properties C38 (saving and restoring the counters) and C60 (what a snapshot taken by `get_counters` is worth). -/

namespace Coax.TrainMonitor

set_option linter.unusedSectionVars false

variable {K A S X : Type _} [Field K] [LinearOrder K] [IsStrictOrderedRing K]

/-- The addresses in use are below `next`. -/
def HMon.Alive (m : HMon K) (h : Heap K A) : Prop := m.epMetrics < h.next ∧ m.epActions < h.next ∧ m.period < h.next

/-- The tensorboard directory is `None` (and there is no writer), or ends in a timestamp. -/
def HMon.DirOk (m : HMon K) (w : World) : Prop :=
  (m.tensorboardDir = none ∧ m.tensorboard = .none) ∨ ∃ d, m.tensorboardDir = some d ∧ w.stamped d = true

theorem smoothing_apply (v : Mon K A) (op : Op K A S X) : (v.apply op).smoothing = v.smoothing := by
  cases op with
  | resetGlobal => rfl
  | reset inner => rfl
  | step a u i inner =>
    cases inner with
    | error e => rfl
    | ok res =>
      simp only [Mon.apply, Mon.step]
      split
      · split <;> split <;> rfl
      · rfl
  | recordMetrics ms => cases ms <;> rfl
  | period name kT kep => exact (period_same v name kT kep).smoothing

/-- The monitor on the heap does what the model without a heap does: `Mon.apply` is a faithful abstraction. -/
theorem heap_refines (m : HMon K) (h : Heap K A) (op : Op K A S X) :
    (m.apply h op).1.view (m.apply h op).2 = (m.view h).apply op := by
  have hs' := smoothing_apply (m.view h) op
  cases op <;>
    simp only [HMon.apply, HMon.view, HMon.scalars, put, if_true] at hs' ⊢ <;>
    · rw [Mon.mk.injEq]
      exact ⟨rfl, rfl, rfl, rfl, rfl, rfl, rfl, rfl, rfl, rfl, hs'.symm⟩

/-- C38.  Through any sequence of calls of a monitor, what its references hold (the actions of the episode, the periods of `period`) and its counters are those of the calls
made on plain values: no call leaves a stale reference behind. -/
theorem C38_heap (m : HMon K) (h : Heap K A) (ops : List (Op K A S X)) :
    (fun s : HMon K × Heap K A => s.1.view s.2) (ops.foldl (fun s op => s.1.apply s.2 op) (m, h)) = ops.foldl Mon.apply (m.view h) := by
  induction ops generalizing m h with
  | nil => rfl
  | cons op ops ih =>
    rw [List.foldl_cons, List.foldl_cons, ← heap_refines m h op]
    exact ih _ _

/-- C38.  `set_counters(get_counters())` changes nothing at all. -/
theorem C38_round_trip (m : HMon K) (w : World) (hd : m.DirOk w) : m.setCounters w (some m.getCounters) = (m, .ok ()) := by
  unfold HMon.setCounters HMon.getCounters
  simp only [Prod.mk.injEq, and_true]
  rcases hd with ⟨h1, h2⟩ | ⟨d, h1, h2⟩
  · rw [h1]; unfold HMon.initTensorboard
    cases m; simp_all
  · rw [h1]; unfold HMon.initTensorboard
    cases m; simp_all

/-- C38.  On any monitor (the same one or another one), `set_counters(m.get_counters())` makes all counters those of `m`,
and leaves `smoothing` as it was. -/
theorem C38_transfer (m m2 : HMon K) (h : Heap K A) (w : World) (hd : m.DirOk w) :
    ∃ m', m2.setCounters w (some m.getCounters) = (m', .ok ()) ∧ m'.getCounters = m.getCounters ∧
      m'.view h = { m.view h with smoothing := m2.smoothing } := by
  unfold HMon.setCounters HMon.getCounters
  refine ⟨_, rfl, ?_⟩
  rcases hd with ⟨h1, h2⟩ | ⟨d, h1, h2⟩
  · rw [h1]; exact ⟨rfl, rfl⟩
  · rw [h1]; unfold HMon.initTensorboard
    simp only [h2, not_true, if_false, ne_eq]
    exact ⟨by trivial, rfl⟩

/-- C38.  An argument that is not a dict with exactly the counter names as keys raises `TypeError` and changes nothing. -/
theorem C38_rejects (m : HMon K) (w : World) (c : Option (Counters K))
    (hc : c = none ∨ ∃ d, c = some d ∧ (d.otherKeys ≠ [] ∨ d.T = none ∨ d.ep = none ∨ d.t = none ∨ d.G = none ∨ d.avgG = none ∨ d.nAvgG = none ∨
      d.epMetrics = none ∨ d.epActions = none ∨ d.period = none ∨ d.tensorboardDir = none)) :
    m.setCounters w c = (m, .error .typeError) := by
  unfold HMon.setCounters
  split
  · exfalso
    rcases hc with hc | ⟨d, hd, hc⟩
    · cases hc
    · cases hd; simp at hc
  · rfl

/-- C38.  Conversely every dict with the right keys is accepted. -/
theorem C38_accepts (m : HMon K) (w : World) (d : Counters K) (h0 : d.otherKeys = []) (h1 : d.T ≠ none) (h2 : d.ep ≠ none) (h3 : d.t ≠ none)
    (h4 : d.G ≠ none) (h5 : d.avgG ≠ none) (h6 : d.nAvgG ≠ none) (h7 : d.epMetrics ≠ none) (h8 : d.epActions ≠ none) (h9 : d.period ≠ none)
    (h10 : d.tensorboardDir ≠ none) : (m.setCounters w (some d)).2 = .ok () := by
  obtain ⟨a1, a2, a3, a4, a5, a6, a7, a8, a9, a10, l⟩ := d
  simp only [ne_eq, Option.ne_none_iff_exists'] at *
  obtain ⟨_, rfl⟩ := h1
  obtain ⟨_, rfl⟩ := h2
  obtain ⟨_, rfl⟩ := h3
  obtain ⟨_, rfl⟩ := h4
  obtain ⟨_, rfl⟩ := h5
  obtain ⟨_, rfl⟩ := h6
  obtain ⟨_, rfl⟩ := h7
  obtain ⟨_, rfl⟩ := h8
  obtain ⟨_, rfl⟩ := h9
  obtain ⟨_, rfl⟩ := h10
  subst h0
  rfl

/-- The states a monitor and the heap can reach by method calls. -/
inductive Reach (S X : Type _) : HMon K × Heap K A → HMon K × Heap K A → Prop
  | refl {s} : Reach S X s s
  | call {s s'} (op : Op K A S X) : Reach S X s s' → Reach S X s (s'.1.apply s'.2 op)

/-- C38.  What `save_counters` wrote is what `load_counters` restores, on any monitor and whatever happened in between to the
saved monitor or to the one it is loaded into. -/
theorem C38_save_load (m m2 : HMon K) (h h2 : Heap K A) (w : World) (hd : m.DirOk w) :
    (m2.loadCounters h2 w (m.saveCounters h)).1.view (m2.loadCounters h2 w (m.saveCounters h)).2 = { m.view h with smoothing := m2.smoothing } ∧
    (m2.loadCounters h2 w (m.saveCounters h)).1.tensorboardDir = m.tensorboardDir := by
  unfold HMon.loadCounters HMon.saveCounters HMon.setCounters
  simp only
  rcases hd with ⟨h1, h2⟩ | ⟨d, h1, h2⟩
  · rw [h1]; unfold HMon.initTensorboard HMon.view put
    simp
  · rw [h1]; unfold HMon.initTensorboard
    simp only [h2, not_true, if_false, ne_eq]
    unfold HMon.view put
    simp

/-! ### C60 -/

/-- C60 does not hold for a snapshot kept in memory: after a snapshot, one call of `period` and `set_counters(snapshot)`, the
phase of `period` is not the one of the snapshot. -/
theorem C60_counterexample : ∃ (m : HMon ℚ) (h : Heap ℚ Unit) (w : World) (s : HMon ℚ × Heap ℚ Unit),
    m.Alive h ∧ m.DirOk w ∧ Reach Unit Unit (m, h) s ∧
    ((s.1.setCounters w (some m.getCounters)).1.view s.2).periodT ≠ (m.view h).periodT := by
  refine ⟨⟨5, 1, 4, 0, 0, 0, 0, 0, 0, none, .none, 10⟩, ⟨fun _ => [], fun _ => Streaming.new 1000, fun _ => ([], []), 1⟩,
    ⟨fun _ => true, id⟩, _, ⟨Nat.one_pos, Nat.one_pos, Nat.one_pos⟩, .inl ⟨rfl, rfl⟩, .call (.period "save" (some 5) none) .refl, ?_⟩
  decide

/-- The in-place changes of `m.apply` do not reach objects other than those of the monitor. -/
theorem apply_frame (m : HMon K) (h : Heap K A) (op : Op K A S X) (hal : m.Alive h) :
    (m.apply h op).1.Alive (m.apply h op).2 ∧ h.next ≤ (m.apply h op).2.next := by
  obtain ⟨h1, h2, h3⟩ := hal
  cases op <;> simp only [HMon.apply, HMon.scalars, HMon.Alive] <;> omega

/-- The call is not `reset_global`. -/
inductive ReachNG (S X : Type _) : HMon K × Heap K A → HMon K × Heap K A → Prop
  | refl {s} : ReachNG S X s s
  | call {s s'} (op : Op K A S X) : ReachNG S X s s' → op ≠ .resetGlobal → ReachNG S X s (s'.1.apply s'.2 op)

theorem ReachNG.refs {s s' : HMon K × Heap K A} (h : ReachNG S X s s') : s'.1.epActions = s.1.epActions ∧ s'.1.period = s.1.period := by
  induction h with
  | refl => exact ⟨rfl, rfl⟩
  | call op _ hop ih =>
    cases op with
    | resetGlobal => exact absurd rfl hop
    | reset inner => exact ih
    | step a u i inner => exact ih
    | recordMetrics ms => exact ih
    | period n kT kep => exact ih

/-- C60, what does hold.  After a snapshot, any calls, and `set_counters(snapshot)`, the plain numbers are those of the
snapshot.  The sampled actions and the phases of `period`, though, are those from *after* the calls (unless `reset_global`
was among them): the snapshot shares these objects with the monitor. -/
theorem C60_snapshot_partial (m : HMon K) (h : Heap K A) (w : World) (hd : m.DirOk w) (s : HMon K × Heap K A) (hr : ReachNG S X (m, h) s) :
    let v := (s.1.setCounters w (some m.getCounters)).1.view s.2
    v.T = m.T ∧ v.ep = m.ep ∧ v.t = m.t ∧ v.G = m.G ∧ v.avgG = m.avgG ∧ v.nAvgG = m.nAvgG ∧
    v.epActions = (s.1.view s.2).epActions ∧ v.periodT = (s.1.view s.2).periodT ∧ v.periodEp = (s.1.view s.2).periodEp := by
  obtain ⟨e1, e2⟩ := hr.refs
  unfold HMon.setCounters HMon.getCounters
  simp only at e1 e2 ⊢
  rcases hd with ⟨h1, h2⟩ | ⟨d, h1, h2⟩
  · rw [h1]; unfold HMon.initTensorboard HMon.view
    simp only [e1, e2]
    exact ⟨by trivial, by trivial, by trivial, by trivial, by trivial, by trivial, by trivial, by trivial, by trivial⟩
  · rw [h1]; unfold HMon.initTensorboard
    simp only [h2, not_true, if_false, ne_eq]
    unfold HMon.view
    simp only [e1, e2]
    exact ⟨by trivial, by trivial, by trivial, by trivial, by trivial, by trivial, by trivial, by trivial, by trivial⟩

/-- C60.  The metrics of the episode of the snapshot, in contrast, are those at the next `reset`: afterwards they are recorded
in a new object and the snapshot keeps the old one. -/
theorem C60_metrics (m : HMon K) (h : Heap K A) (w : World) (hd : m.DirOk w) (hal : m.Alive h) (inner : Except Err X)
    (s : HMon K × Heap K A) (hr : Reach S X (m.apply h (.reset inner : Op K A S X)) s) :
    ((s.1.setCounters w (some m.getCounters)).1.view s.2).epMetrics = (m.view h).epMetrics := by
  have key : s.2.metrics m.epMetrics = h.metrics m.epMetrics ∧ m.epMetrics < s.1.epMetrics ∧ m.epMetrics < s.2.next := by
    induction hr with
    | refl =>
      obtain ⟨h1, _, _⟩ := hal
      simp only [HMon.apply, put]
      rw [if_neg (by omega)]
      exact ⟨rfl, h1, by omega⟩
    | call op _ ih =>
      obtain ⟨i1, i2, i3⟩ := ih
      cases op <;> simp only [HMon.apply, HMon.scalars, put] <;> (rw [if_neg (by omega)]; exact ⟨i1, by omega, by omega⟩)
  have e : ((s.1.setCounters w (some m.getCounters)).1).epMetrics = m.epMetrics := by
    unfold HMon.setCounters HMon.getCounters
    simp only
    rcases hd with ⟨h1, h2⟩ | ⟨d, h1, h2⟩
    · rw [h1]; rfl
    · rw [h1]; unfold HMon.initTensorboard
      simp only [h2, not_true, if_false, ne_eq]
  simp only [HMon.view, e, key.1]

/-! ### A finding: the writer of another directory survives `set_counters` -/

/-- After `set_counters` with a directory ending in a timestamp, the monitor keeps writing to its old directory if it had
already opened a writer there. -/
theorem C38_stale_writer (m m2 : HMon K) (w : World) (d d2 : String) (hd : m.tensorboardDir = some d) (hs : w.stamped d = true)
    (hw : m2.tensorboard = .writer d2) :
    ∃ m', m2.setCounters w (some m.getCounters) = (m', .ok ()) ∧ m'.tensorboardDir = some d ∧
      m'.openTensorboard.2 = .ok (.writer d2) := by
  unfold HMon.setCounters HMon.getCounters
  refine ⟨_, rfl, ?_⟩
  rw [hd]; unfold HMon.initTensorboard
  simp only [hs, not_true, if_false, ne_eq]
  refine ⟨by trivial, ?_⟩
  unfold HMon.openTensorboard
  simp only [hw]

/-- A monitor satisfying the hypotheses above, with a tensorboard directory. -/
example : ∃ (m : HMon ℚ) (h : Heap ℚ Unit) (w : World), m.Alive h ∧ m.DirOk w ∧ m.tensorboardDir = some "a/20260101_000000" :=
  ⟨⟨5, 1, 4, 0, 0, 0, 0, 0, 0, some "a/20260101_000000", .absent, 10⟩, ⟨fun _ => [], fun _ => Streaming.new 1000, fun _ => ([], []), 1⟩,
    ⟨fun s => s == "a/20260101_000000", fun _ => "a/20260101_000000"⟩, ⟨Nat.one_pos, Nat.one_pos, Nat.one_pos⟩, .inr ⟨_, rfl, by decide⟩, rfl⟩

end Coax.TrainMonitor
