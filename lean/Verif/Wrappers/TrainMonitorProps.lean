import Verif.Wrappers.TrainMonitor
import Verif.Utils.DictsProps
import Verif.Utils.RollingProps

/-! Properties C36 (counters), C37 (`period`) and the metrics part of C38 of `TrainMonitor`. -/

namespace Coax.TrainMonitor

open Coax.Dicts Coax.Rolling

set_option linter.unusedSectionVars false

variable {K A S X : Type _} [Field K] [LinearOrder K] [IsStrictOrderedRing K]

/-! ### Specification of the counters -/

/-- What a user would write down while using the monitor, since the last `reset_global`: the number of steps, the number of
episodes started, the rewards since the last `reset`, and the return at each step that ended or truncated an episode. -/
structure Diary (K : Type _) where
  steps : Nat
  episodes : Nat
  rewards : List K
  finished : List K

/-- `Trace S X n d m`: a monitor with `smoothing = n` reached the state `m` by some sequence of calls, and `d` is the diary
of that sequence.  Calls in which the inner environment raised are included. -/
inductive Trace (S X : Type _) (n : Nat) : Diary K → Mon K A → Prop
  | new : Trace S X n ⟨0, 0, [], []⟩ (new (n : K))
  | resetGlobal {d m} : Trace S X n d m → Trace S X n ⟨0, 0, [], []⟩ m.resetGlobal
  | reset {d m} {inner : Except Err X} {m' res} : Trace S X n d m → m.reset inner = (m', res) →
      Trace S X n ⟨d.steps, d.episodes + 1, [], d.finished⟩ m'
  | step {d m a u i} {inner : Result K S X} {m' res} : Trace S X n d m → m.step a u i (.ok inner) = (m', res) →
      Trace S X n ⟨d.steps + 1, d.episodes, d.rewards ++ [inner.r],
        if inner.done || inner.truncated then d.finished ++ [(d.rewards ++ [inner.r]).sum] else d.finished⟩ m'
  | stepError {d m a u i e m'} {res : Except Err (Result K S X)} : Trace S X n d m → m.step a u i (.error e) = (m', res) →
      Trace S X n d m'
  | recordMetrics {d m ms m' res} : Trace S X n d m → m.recordMetrics ms = (m', res) → Trace S X n d m'
  | period {d m name kT kep m' res} : Trace S X n d m → m.period name kT kep = (m', res) → Trace S X n d m'

/-! ### Helpers -/

theorem expRun_congr {n : Int} {x y : Nat → K} {m : Nat} {a : Exp K} (h : ExpRun n x m a) (hxy : ∀ i < m, x i = y i) :
    ExpRun n y m a := by
  induction h with
  | new => exact .new
  | update _ h1 h2 ih =>
    rename_i m _ _ _ _
    exact .update (ih (fun i hi => hxy i (by omega))) (by rw [← hxy m (by omega)]; exact h1) h2

/-- `period` changes nothing but the phase counts. -/
structure SameCounters (m m' : Mon K A) : Prop where
  T : m'.T = m.T
  ep : m'.ep = m.ep
  t : m'.t = m.t
  G : m'.G = m.G
  avgG : m'.avgG = m.avgG
  nAvgG : m'.nAvgG = m.nAvgG
  smoothing : m'.smoothing = m.smoothing

theorem SameCounters.refl (m : Mon K A) : SameCounters m m := ⟨rfl, rfl, rfl, rfl, rfl, rfl, rfl⟩

theorem SameCounters.trans {m m' m'' : Mon K A} (h : SameCounters m m') (h' : SameCounters m' m'') : SameCounters m m'' :=
  ⟨h'.T.trans h.T, h'.ep.trans h.ep, h'.t.trans h.t, h'.G.trans h.G, h'.avgG.trans h.avgG, h'.nAvgG.trans h.nAvgG,
    h'.smoothing.trans h.smoothing⟩

theorem periodEpOnly_same (m : Mon K A) (name : String) (k : Option Int) : SameCounters m (m.periodEpOnly name k).1 := by
  unfold Mon.periodEpOnly
  cases k with
  | none => exact .refl m
  | some k =>
    simp only
    split
    · exact .refl m
    · generalize hm1 : (if (m.periodEp.lookup name).isNone then { m with periodEp := setItem m.periodEp name 1 } else m) = m1
      have h1 : SameCounters m m1 := by
        rw [← hm1]; split
        · exact ⟨rfl, rfl, rfl, rfl, rfl, rfl, rfl⟩
        · exact .refl m
      refine h1.trans ?_
      split
      · exact .refl m1
      · split
        · exact ⟨rfl, rfl, rfl, rfl, rfl, rfl, rfl⟩
        · exact .refl m1

theorem period_same (m : Mon K A) (name : String) (kT kep : Option Int) : SameCounters m (m.period name kT kep).1 := by
  unfold Mon.period
  cases kT with
  | none => exact periodEpOnly_same m name kep
  | some k =>
    simp only
    split
    · exact .refl m
    · generalize hm1 : (if (m.periodT.lookup name).isNone then { m with periodT := setItem m.periodT name 1 } else m) = m1
      have h1 : SameCounters m m1 := by
        rw [← hm1]; split
        · exact ⟨rfl, rfl, rfl, rfl, rfl, rfl, rfl⟩
        · exact .refl m
      refine h1.trans ?_
      split
      · exact .refl m1
      · split
        · exact ⟨rfl, rfl, rfl, rfl, rfl, rfl, rfl⟩
        · exact periodEpOnly_same m1 name kep

/-- The invariant behind C36. -/
structure Counted (n : Nat) (d : Diary K) (m : Mon K A) : Prop where
  T : m.T = d.steps + d.episodes
  ep : m.ep = d.episodes
  t : m.t = d.rewards.length
  G : m.G = d.rewards.sum
  nAvgG : m.nAvgG = ((min n d.finished.length : Nat) : K)
  smoothing : m.smoothing = (n : K)
  avg : ∃ a : Exp K, ExpRun n (fun i => d.finished.getD i 0) d.finished.length a ∧ m.avgG = a.value

theorem Counted.of_same {n : Nat} {d : Diary K} {m m' : Mon K A} (h : Counted n d m) (hs : SameCounters m m') : Counted n d m' :=
  ⟨hs.T.trans h.T, hs.ep.trans h.ep, hs.t.trans h.t, hs.G.trans h.G, hs.nAvgG.trans h.nAvgG, hs.smoothing.trans h.smoothing,
    by obtain ⟨a, h1, h2⟩ := h.avg; exact ⟨a, h1, hs.avgG.trans h2⟩⟩

theorem counted_new {n : Nat} {m : Mon K A} (hT : m.T = 0) (hep : m.ep = 0) (ht : m.t = 0) (hG : m.G = 0) (ha : m.avgG = 0)
    (hn : m.nAvgG = 0) (hs : m.smoothing = (n : K)) : Counted n ⟨0, 0, [], []⟩ m :=
  ⟨hT, hep, ht, by simpa using hG, by simpa using hn, hs, ⟨_, .new, ha⟩⟩

theorem counted_step {n : Nat} (hn : 0 < n) {d : Diary K} {m : Mon K A} (h : Counted n d m) (a : A) (u : K) (i : Nat) (inner : Result K S X) :
    ∃ m' info, m.step a u i (.ok inner) = (m', .ok { inner with info := some info }) ∧
      Counted n ⟨d.steps + 1, d.episodes, d.rewards ++ [inner.r],
        if inner.done || inner.truncated then d.finished ++ [(d.rewards ++ [inner.r]).sum] else d.finished⟩ m' := by
  obtain ⟨ea, he1, he2⟩ := h.avg
  have hT := h.T
  have ht := h.t
  have hG : m.G + inner.r = (d.rewards ++ [inner.r]).sum := by rw [h.G]; simp
  unfold Mon.step
  simp only
  by_cases hfin : (inner.done || inner.truncated) = true
  · rw [if_pos hfin, if_pos hfin]
    have hlen : (if ({ m with epActions := m.epActions.append a u i, t := m.t + 1, T := m.T + 1, G := m.G + inner.r } : Mon K A).nAvgG < m.smoothing then
        ({ m with epActions := m.epActions.append a u i, t := m.t + 1, T := m.T + 1, G := m.G + inner.r, nAvgG := m.nAvgG + 1 } : Mon K A)
        else { m with epActions := m.epActions.append a u i, t := m.t + 1, T := m.T + 1, G := m.G + inner.r }) =
        { m with epActions := m.epActions.append a u i, t := m.t + 1, T := m.T + 1, G := m.G + inner.r,
                 nAvgG := ((min n (d.finished.length + 1) : Nat) : K) } := by
      simp only [h.nAvgG, h.smoothing]
      split
      · rename_i hlt
        have hlt' : min n d.finished.length < n := by exact_mod_cast hlt
        congr 1
        rw [show min n (d.finished.length + 1) = min n d.finished.length + 1 by omega]
        push_cast; rfl
      · rename_i hlt
        have hlt' : ¬ min n d.finished.length < n := by exact_mod_cast hlt
        rw [show min n (d.finished.length + 1) = min n d.finished.length by omega, ← h.nAvgG]
    rw [hlen]
    have hpos : ((min n (d.finished.length + 1) : Nat) : K) ≠ 0 := by
      have : min n (d.finished.length + 1) ≠ 0 := by omega
      exact_mod_cast this
    simp only
    rw [if_neg hpos]
    refine ⟨_, _, rfl, ?_⟩
    obtain ⟨ea', h1, h2, h3, h4⟩ := exists_expRun hn (fun i => d.finished.getD i 0) d.finished.length
    have e := he1.unique h1
    subst e
    refine ⟨?_, h.ep, ?_, ?_, ?_, h.smoothing, ?_⟩
    · simp only [hT]; omega
    · simp [ht]
    · simp only; exact hG
    · simp
    · let v := ea.value + ((d.rewards ++ [inner.r]).sum - ea.value) / ((min n (d.finished.length + 1) : Nat) : K)
      refine ⟨{ value := v, len := ((min n (d.finished.length + 1) : Nat) : Int), maxlen := n }, ?_, ?_⟩
      · simp only [List.length_append, List.length_singleton]
        refine .update (a := ea) (v := v) (expRun_congr he1 ?_) ?_ rfl
        · intro i hi
          simp only [List.getD_eq_getElem?_getD, List.getElem?_append_left hi]
        · have hx : (d.finished ++ [(d.rewards ++ [inner.r]).sum]).getD d.finished.length 0 = (d.rewards ++ [inner.r]).sum := by
            simp [List.getD_eq_getElem?_getD]
          rw [hx]
          unfold Exp.update
          have hl2 : (if ea.len < ea.maxlen then ea.len + 1 else ea.len) = ((min n (d.finished.length + 1) : Nat) : Int) := by
            rw [h2, h3]; split <;> omega
          simp only [hl2]
          rw [if_neg (by omega)]
          simp only [Int.cast_natCast, h2, v]
      · simp only [v, he2, hG]
  · rw [if_neg hfin, if_neg hfin]
    refine ⟨_, _, rfl, ?_⟩
    refine ⟨?_, h.ep, ?_, ?_, h.nAvgG, h.smoothing, ⟨ea, he1, he2⟩⟩
    · simp only [hT]; omega
    · simp [ht]
    · simp only; exact hG

theorem Trace.counted {n : Nat} (hn : 0 < n) {d : Diary K} {m : Mon K A} (h : Trace S X n d m) : Counted n d m := by
  induction h with
  | new => exact counted_new rfl rfl rfl rfl rfl rfl rfl
  | resetGlobal _ ih => exact counted_new rfl rfl rfl rfl rfl rfl ih.smoothing
  | reset _ h ih =>
    simp only [Mon.reset, Prod.mk.injEq] at h
    rw [← h.1]
    exact ⟨by simp only [ih.T]; omega, by simp only [ih.ep], rfl, by simp, ih.nAvgG, ih.smoothing, ih.avg⟩
  | step _ h ih =>
    rename_i a u i inner m' res _
    obtain ⟨m2, info, h1, h2⟩ := counted_step (S := S) (X := X) hn ih a u i inner
    rw [h1] at h
    cases h
    exact h2
  | stepError _ h ih =>
    simp only [Mon.step, Prod.mk.injEq] at h
    rw [← h.1]
    exact ih.of_same ⟨rfl, rfl, rfl, rfl, rfl, rfl, rfl⟩
  | recordMetrics _ h ih =>
    rename_i d m ms m' res _
    cases ms with
    | none => simp only [Mon.recordMetrics, Prod.mk.injEq] at h; rw [← h.1]; exact ih
    | some ms =>
      simp only [Mon.recordMetrics, Prod.mk.injEq] at h
      rw [← h.1]
      exact ih.of_same ⟨rfl, rfl, rfl, rfl, rfl, rfl, rfl⟩
  | period _ h ih =>
    rename_i m name kT kep m' res _
    have := period_same m name kT kep
    rw [h] at this
    exact ih.of_same this

/-! ### C36 -/

/-- C36.  After any history: `t` is the number of steps and `G` the sum of the rewards of the current episode, `ep` is the
number of episodes started, `avg_r = G / t` (`nan` at the start of an episode), and `T` is the number of steps *plus the
number of episodes started*. -/
theorem C36_counters_partial {n : Nat} (hn : 0 < n) {d : Diary K} {m : Mon K A} (h : Trace S X n d m) :
    m.t = d.rewards.length ∧ m.G = d.rewards.sum ∧ m.ep = d.episodes ∧ m.T = d.steps + d.episodes ∧
      m.avgR = if d.rewards = [] then none else some (d.rewards.sum / (d.rewards.length : K)) := by
  have hc := h.counted hn
  refine ⟨hc.t, hc.G, hc.ep, hc.T, ?_⟩
  unfold Mon.avgR
  rw [hc.t, hc.G]
  cases hr : d.rewards with
  | nil => simp
  | cons x xs => rw [if_neg (by simp), if_neg (by simp)]

/-- C36 is false as stated for `T`: after one `reset` and one `step`, `T = 2` although one step was taken. -/
theorem C36_counterexample : ∃ (d : Diary ℚ) (m : Mon ℚ Unit), Trace Unit Unit 10 d m ∧ d.steps = 1 ∧ m.T = 2 := by
  refine ⟨_, _, Trace.step (u := 0) (i := 0) (a := ()) (inner := ⟨(), 5, false, false, none⟩)
    (Trace.reset (inner := .ok ()) .new (Prod.mk.eta).symm) (Prod.mk.eta).symm, rfl, rfl⟩

/-- C36.  `avg_G` is the exponential average (with window `smoothing`) of the returns of the finished episodes. -/
theorem C36_avg_G {n : Nat} (hn : 0 < n) {d : Diary K} {m : Mon K A} (h : Trace S X n d m) :
    ∃ a : Exp K, ExpRun n (fun i => d.finished.getD i 0) d.finished.length a ∧ m.avgG = a.value := (h.counted hn).avg

/-- C36.  As long as at most `smoothing` episodes have finished, `avg_G` is their mean return; later it stays between the
smallest and the largest return. -/
theorem C36_avg_G_mean {n : Nat} (hn : 0 < n) {d : Diary K} {m : Mon K A} (h : Trace S X n d m) (hf : d.finished ≠ []) :
    (d.finished.length ≤ n → m.avgG = d.finished.sum / (d.finished.length : K)) ∧
    ∀ lo hi, (∀ G ∈ d.finished, lo ≤ G ∧ G ≤ hi) → lo ≤ m.avgG ∧ m.avgG ≤ hi := by
  obtain ⟨a, h1, h2⟩ := C36_avg_G hn h
  have hpos := List.length_pos_iff.2 hf
  rw [h2]
  constructor
  · intro hle
    rw [C31_exponential_mean hpos hle h1]
    congr 1
    generalize d.finished = l
    have key : ∀ l : List K, ∑ i ∈ Finset.range l.length, l.getD i 0 = l.sum := by
      intro l
      induction l with
      | nil => simp
      | cons x xs ih =>
        rw [List.length_cons, Finset.sum_range_succ', List.sum_cons, ← ih]
        simp [add_comm]
    exact key l
  · intro lo hi hb
    refine C31_exponential_bounds hn hpos h1 ?_
    intro i hi'
    have : d.finished.getD i 0 = d.finished[i] := by simp [List.getD_eq_getElem?_getD, hi']
    simp only [this]
    exact hb _ (List.getElem_mem hi')

/-- C36.  A step returns what the inner environment returned, with the entry `monitor` of `info` set to the counters from
before the step and all other entries kept. -/
theorem C36_step_result {n : Nat} (hn : 0 < n) {d : Diary K} {m : Mon K A} (h : Trace S X n d m) (a : A) (u : K) (i : Nat)
    (inner : Result K S X) : ∃ m' info, m.step a u i (.ok inner) = (m', .ok { inner with info := some info }) ∧
      info.lookup "monitor" = some (.monitor (d.steps + d.episodes) d.episodes) ∧
      ∀ k, k ≠ "monitor" → info.lookup k = (inner.info.getD []).lookup k := by
  have hc := h.counted hn
  obtain ⟨m', info, h1, _⟩ := counted_step (S := S) (X := X) hn hc a u i inner
  refine ⟨m', info, h1, ?_⟩
  have e : info = setItem (inner.info.getD []) "monitor" (.monitor m.T m.ep) := by
    unfold Mon.step at h1
    simp only at h1
    split at h1
    · generalize hm1 : (if ({ m with epActions := m.epActions.append a u i, t := m.t + 1, T := m.T + 1, G := m.G + inner.r } : Mon K A).nAvgG < m.smoothing then _ else _) = m1 at h1
      split at h1
      · simp at h1
      · simp only [Prod.mk.injEq, Except.ok.injEq, Result.mk.injEq, Option.some.injEq, true_and] at h1
        rw [← h1.2]; cases inner.info <;> rfl
    · simp only [Prod.mk.injEq, Except.ok.injEq, Result.mk.injEq, Option.some.injEq, true_and] at h1
      rw [← h1.2]; cases inner.info <;> rfl
  rw [e]
  refine ⟨?_, ?_⟩
  · rw [lookup_setItem, if_pos rfl, hc.T, hc.ep]
  · intro k hk; rw [lookup_setItem, if_neg hk]

/-- Two episodes of returns 3 and 7, both finished. -/
theorem exTrace : ∃ (d : Diary ℚ) (m : Mon ℚ Unit), Trace Unit Unit 10 d m ∧ d.finished = [3, 7] ∧ d.rewards = [7] ∧ m.avgG = 5 ∧ m.T = 5 := by
  refine ⟨_, _, Trace.step (u := 0) (i := 0) (a := ()) (inner := ⟨(), 7, false, true, none⟩) (Trace.reset (inner := .ok ())
    (Trace.step (u := 0) (i := 0) (a := ()) (inner := ⟨(), 2, true, false, none⟩)
      (Trace.step (u := 0) (i := 0) (a := ()) (inner := ⟨(), 1, false, false, none⟩)
        (Trace.reset (inner := .ok ()) .new (Prod.mk.eta).symm) (Prod.mk.eta).symm) (Prod.mk.eta).symm) (Prod.mk.eta).symm)
    (Prod.mk.eta).symm, ?_, ?_, ?_, ?_⟩
  all_goals decide +kernel

end Coax.TrainMonitor
