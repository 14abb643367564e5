import Verif.RewardTracing.NStepLemmas
import Mathlib.Data.Rat.Defs
import Mathlib.Algebra.Field.Rat
import Mathlib.Algebra.Order.Ring.Rat

/-! Properties C15–C18: n-step reward tracing. -/

namespace Coax.RewardTracing

variable {σ α K : Type _} [Field K] [LinearOrder K] [IsStrictOrderedRing K]
variable {n : Nat} {gamma : K} {record : Bool} {t : NStep σ α K} {eps : List (Episode σ α K)} {outs : List (Out σ α K)}

/-- The segments of a history, with everything known about them. -/
theorem NHistory.segments (hn : 0 < n) (hg : 0 ≤ gamma ∧ gamma ≤ 1) (h : NHistory n gamma record t eps outs) :
    ∃ segs : List (List (Out σ α K)), outs = segs.flatten ∧
      List.Forall₂ (Segment n gamma record) eps segs ∧
      (∀ i ep seg, i + 1 < eps.length → eps[i]? = some ep → segs[i]? = some seg →
        ep.done = true ∧ seg.length = ep.steps.length) := by
  obtain ⟨pre, last, segs, seg, hI⟩ := h.inv hn hg
  rcases hI.shape with ⟨hs, _⟩ | ⟨hs, hp, hl⟩
  · refine ⟨segs ++ [seg], by rw [hI.outs_eq]; simp, ?_, ?_⟩
    · rw [hs]
      exact List.rel_append (hI.full.imp (fun _ _ hc => hc.2.2.2)) (.cons hI.cur .nil)
    · intro i ep sg hi he hsg
      rw [hs] at hi he
      simp at hi
      have hl := hI.full.length_eq
      rw [List.getElem?_append_left hi] at he
      rw [List.getElem?_append_left (by omega)] at hsg
      have hc : Complete n gamma record ep sg := by
        have := List.forall₂_iff_get.1 hI.full
        have h2 := this.2 i hi (by omega)
        rw [List.getElem?_eq_getElem hi] at he
        rw [List.getElem?_eq_getElem (by omega)] at hsg
        cases he; cases hsg
        exact h2
      exact ⟨hc.1, hc.2.2.1⟩
  · have hseg : seg = [] := by
      have := hI.cur.1
      rw [hl] at this
      simpa using this
    have hsegs : segs = [] := by
      have := hI.full
      rw [hp] at this
      cases this; rfl
    refine ⟨[], by rw [hI.outs_eq, hseg, hsegs]; rfl, by rw [hs]; exact .nil, ?_⟩
    intro i ep sg hi; rw [hs] at hi; simp at hi

/-- C15.  The transitions returned so far split into one group per episode, in order.  The `k`-th transition of a group is
the n-step transition of step `k` of that episode (`IsNStep`), and all groups but the last are complete. -/
theorem C15_nstep_transitions (hn : 0 < n) (hg : 0 ≤ gamma ∧ gamma ≤ 1) (h : NHistory n gamma record t eps outs) :
    ∃ segs : List (List (Out σ α K)), outs = segs.flatten ∧
      List.Forall₂ (fun ep seg => seg.length ≤ ep.steps.length ∧
        ∀ k o, seg[k]? = some o → IsNStep n gamma ep.steps k o) eps segs ∧
      (∀ i ep seg, i + 1 < eps.length → eps[i]? = some ep → segs[i]? = some seg → seg.length = ep.steps.length) := by
  obtain ⟨segs, h1, h2, h3⟩ := h.segments hn hg
  exact ⟨segs, h1, h2.imp (fun _ _ hs => ⟨hs.1, fun k o hk => (hs.2 k o hk).nstep⟩), fun i ep seg a b c => (h3 i ep seg a b c).2⟩

/-- C15, no premature transition: a transition of an episode that is not finished is returned only once step `k + n` is
known, so what is returned does not depend on what is added later. -/
theorem C15_not_premature (hn : 0 < n) (hg : 0 ≤ gamma ∧ gamma ≤ 1) {steps : List (Step σ α K)}
    (h : NHistory n gamma record t (eps ++ [⟨steps, false⟩]) outs) :
    ∃ (before : List (Out σ α K)) (seg : List (Out σ α K)), outs = before ++ seg ∧
      ∀ k o, seg[k]? = some o → k + n < steps.length ∧ ∀ more, IsNStep n gamma (steps ++ more) k o := by
  obtain ⟨pre, last, segs, seg, hI⟩ := h.inv hn hg
  rcases hI.shape with ⟨hs, _⟩ | ⟨hs, _, _⟩
  · obtain ⟨_, hs2⟩ := List.append_inj' hs rfl
    injection hs2 with hs2 _
    subst hs2
    refine ⟨segs.flatten, seg, hI.outs_eq, ?_⟩
    intro k o hk
    have hc := hI.cur.2 k o hk
    refine ⟨hc.early rfl, ?_⟩
    intro more
    have : Correct n gamma record ⟨steps ++ more, false⟩ k o := by
      induction more using List.reverseRecOn with
      | nil => simpa using hc
      | append_singleton more x ih => rw [← List.append_assoc]; exact ih.extend x false
    exact this.nstep
  · simp at hs

theorem segment_starts {ep : Episode σ α K} {seg : List (Out σ α K)} (h : Segment n gamma record ep seg) :
    seg.map Out.start = (ep.steps.take seg.length).map Step.start := by
  apply List.ext_getElem?
  intro k
  simp only [List.getElem?_map, List.getElem?_take]
  cases hk : seg[k]? with
  | none =>
    rw [List.getElem?_eq_none_iff] at hk
    rw [if_neg (by omega)]; rfl
  | some o =>
    have hlt := (List.getElem?_eq_some_iff.1 hk).1
    obtain ⟨x, e, e1, e2, e3, e4⟩ := (h.2 k o hk).nstep.start
    rw [if_pos hlt, e]
    simp [Out.start, Step.start, e1, e2, e3, e4]

theorem complete_starts {pre : List (Episode σ α K)} {segs : List (List (Out σ α K))}
    (h : List.Forall₂ (Complete n gamma record) pre segs) :
    segs.flatten.map Out.start = (allSteps pre).map Step.start ∧ segs.flatten.length = (allSteps pre).length := by
  induction h with
  | nil => exact ⟨rfl, rfl⟩
  | cons hc _ ih =>
    have h1 := segment_starts hc.2.2.2
    rw [hc.2.2.1, List.take_length] at h1
    have h2 := hc.2.2.1
    simp only [allSteps, List.flatten_cons, List.map_append, List.map_cons, List.length_append] at ih ⊢
    exact ⟨by rw [h1, ih.1], by rw [h2, ih.2]⟩

theorem NHistory.counts (hn : 0 < n) (hg : 0 ≤ gamma ∧ gamma ≤ 1) (h : NHistory n gamma record t eps outs) :
    outs.length + t.len = (allSteps eps).length ∧
    outs.map Out.start = ((allSteps eps).take outs.length).map Step.start ∧
    (∀ ep ∈ eps.getLast?, t.done = ep.done) ∧ (eps = [] → t.len = 0) := by
  obtain ⟨pre, last, segs, seg, hI⟩ := h.inv hn hg
  have hlen : t.len = last.steps.length - seg.length := by simp [NStep.len, hI.hold.s_eq]
  have hle := hI.cur.1
  obtain ⟨c1, c2⟩ := complete_starts hI.full
  rcases hI.shape with ⟨hs, hne⟩ | ⟨hs, hp, hl⟩
  · have hall : allSteps eps = allSteps pre ++ last.steps := by simp [hs, allSteps]
    refine ⟨?_, ?_, ?_, ?_⟩
    · rw [hI.outs_eq, hall, List.length_append, List.length_append, c2, hlen]; omega
    · rw [hI.outs_eq, hall, List.map_append, c1, segment_starts hI.cur, List.length_append, c2,
        List.take_length_add_append, List.map_append]
    · intro ep he
      rw [hs] at he
      simp at he
      rw [← he]; exact hI.hold.done_eq
    · intro h0; rw [h0] at hs; simp at hs
  · rw [hl] at hle hlen
    have hseg : seg = [] := by simpa using hle
    have hsegs : segs = [] := by
      have := hI.full
      rw [hp] at this
      cases this; rfl
    have ho : outs = [] := by rw [hI.outs_eq, hseg, hsegs]; rfl
    refine ⟨?_, ?_, ?_, fun _ => by rw [hlen]; simp⟩
    · rw [ho, hs, hlen]; simp [allSteps]
    · rw [ho, hs]; rfl
    · intro ep he; rw [hs] at he; simp at he

/-- C16.  Nothing is lost or duplicated: the transitions returned so far start at the steps added so far, each once and in
the order in which they were added, and the steps not yet returned are exactly those counted by `len`. -/
theorem C16_no_loss_no_duplication (hn : 0 < n) (hg : 0 ≤ gamma ∧ gamma ≤ 1) (h : NHistory n gamma record t eps outs) :
    outs.map Out.start = ((allSteps eps).take outs.length).map Step.start ∧
    outs.length + t.len = (allSteps eps).length :=
  ⟨(h.counts hn hg).2.1, (h.counts hn hg).1⟩

/-- C16, when everything has been popped. -/
theorem C16_all_popped (hn : 0 < n) (hg : 0 ≤ gamma ∧ gamma ≤ 1) (h : NHistory n gamma record t eps outs)
    (h0 : t.len = 0) : outs.map Out.start = (allSteps eps).map Step.start := by
  obtain ⟨h1, h2, _⟩ := h.counts hn hg
  rw [h2, List.take_of_length_le (by omega)]

/-- C17, `add`: it raises exactly when the last episode is finished and not yet popped completely; the error is
`EpisodeDoneError` and the tracer is unchanged. -/
theorem C17_add (hn : 0 < n) (hg : 0 ≤ gamma ∧ gamma ≤ 1) (h : NHistory n gamma record t eps outs) (x : Step σ α K)
    (done : Bool) :
    ((∃ ep, eps.getLast? = some ep ∧ ep.done = true) ∧ outs.length < (allSteps eps).length →
      t.add x done = (t, some .episodeDone)) ∧
    (¬ ((∃ ep, eps.getLast? = some ep ∧ ep.done = true) ∧ outs.length < (allSteps eps).length) →
      (t.add x done).2 = none ∧ (t.add x done).1.len = t.len + 1) := by
  obtain ⟨h1, _, h3, h4⟩ := h.counts hn hg
  unfold NStep.add
  constructor
  · rintro ⟨⟨ep, he, hd⟩, hlt⟩
    rw [if_pos]
    simp [h3 ep he, hd]; omega
  · intro hno
    rw [if_neg]
    · exact ⟨rfl, by simp [NStep.len]⟩
    · intro hc
      simp at hc
      apply hno
      cases hl : eps.getLast? with
      | none =>
        rw [List.getLast?_eq_none_iff] at hl
        exact absurd (h4 hl) hc.2
      | some ep =>
        exact ⟨⟨ep, rfl, by rw [← h3 ep hl]; exact hc.1⟩, by omega⟩

/-- C17, `bool(tracer)` is true exactly when some step is pending and the episode is finished or more than `n` steps are
pending. -/
theorem C17_bool (hn : 0 < n) (hg : 0 ≤ gamma ∧ gamma ≤ 1) (h : NHistory n gamma record t eps outs) :
    t.bool = true ↔ outs.length < (allSteps eps).length ∧
      ((∃ ep, eps.getLast? = some ep ∧ ep.done = true) ∨ outs.length + n < (allSteps eps).length) := by
  obtain ⟨h1, _, h3, h4⟩ := h.counts hn hg
  obtain ⟨_, _, _, _, hI⟩ := h.inv hn hg
  have hneq := hI.hold.n_eq
  simp only [NStep.bool, Bool.and_eq_true, Bool.or_eq_true, decide_eq_true_eq, hneq]
  cases hl : eps.getLast? with
  | none =>
    rw [List.getLast?_eq_none_iff] at hl
    have := h4 hl
    simp; omega
  | some ep =>
    rw [h3 ep hl]
    simp
    have e1 : ¬ t.len = 0 ↔ outs.length < (allSteps eps).length := by omega
    have e2 : n < t.len ↔ outs.length + n < (allSteps eps).length := by omega
    rw [e1, e2]

/-- C17, `pop`: it raises exactly when `bool(tracer)` is `False`; the error is `InsufficientCacheError` and the tracer is
unchanged.  Otherwise it returns a transition and `len` drops by one. -/
theorem C17_pop (hn : 0 < n) (hg : 0 ≤ gamma ∧ gamma ≤ 1) (h : NHistory n gamma record t eps outs) :
    (t.bool = false → t.pop = (t, .error .insufficientCache)) ∧
    (t.bool = true → ∃ t' o, t.pop = (t', .ok o) ∧ t'.len + 1 = t.len) := by
  refine ⟨pop_of_not_bool, fun hb => ?_⟩
  obtain ⟨_, _, _, _, hI⟩ := h.inv hn hg
  obtain ⟨t', o, e, hl, _⟩ := hI.pop hn hg hb
  exact ⟨t', o, e, hl⟩

theorem flushLoop_pops (fuel : Nat) : ∀ {t t' : NStep σ α K} {acc os : List (Out σ α K)},
    NStep.flushLoop fuel t acc = (t', .ok os) → ∃ os', os = acc ++ os' ∧ Pops t os' t' ∧ t'.bool = false := by
  induction fuel with
  | zero => intro t t' acc os h; simp [NStep.flushLoop] at h
  | succ fuel ih =>
    intro t t' acc os h
    rw [NStep.flushLoop] at h
    split at h
    · rename_i hb
      injection h with h1 h2
      injection h2 with h2
      subst h1 h2
      exact ⟨[], by simp, .nil _, hb⟩
    · split at h
      · injection h with _ h2; cases h2
      · rename_i t₁ o e
        obtain ⟨os', e1, e2, e3⟩ := ih h
        exact ⟨o :: os', by rw [e1]; simp, .cons e e2, e3⟩

/-- C17, `flush`: it raises exactly when `bool(tracer)` is `False` (with `InsufficientCacheError`, leaving the tracer
unchanged); otherwise it returns what repeated pops return, and leaves `bool(tracer)` `False`. -/
theorem C17_flush (hn : 0 < n) (hg : 0 ≤ gamma ∧ gamma ≤ 1) (h : NHistory n gamma record t eps outs) :
    (t.bool = false → t.flush = (t, .error .insufficientCache)) ∧
    (t.bool = true → ∃ t' os, t.flush = (t', .ok os) ∧ Pops t os t' ∧ os ≠ [] ∧ t'.bool = false) := by
  refine ⟨flush_of_not_bool, fun hb => ?_⟩
  obtain ⟨_, _, _, _, hI⟩ := h.inv hn hg
  obtain ⟨t', os, _, e, _, _⟩ := hI.flush hn hg hb
  refine ⟨t', os, e, ?_⟩
  unfold NStep.flush at e
  rw [if_neg (by simp [hb])] at e
  obtain ⟨os', e1, e2, e3⟩ := flushLoop_pops _ e
  rw [List.nil_append] at e1
  subst e1
  refine ⟨e2, ?_, e3⟩
  rintro rfl
  cases e2
  rw [hb] at e3; cases e3

/-- C18.  With `record_extra_info` every returned transition carries the `n + 1` steps from its own step on (`IsExtra`);
without it the field is `None`. -/
theorem C18_extra_info (hn : 0 < n) (hg : 0 ≤ gamma ∧ gamma ≤ 1) (h : NHistory n gamma record t eps outs) :
    ∃ segs : List (List (Out σ α K)), outs = segs.flatten ∧
      List.Forall₂ (fun ep seg => ∀ k o, seg[k]? = some o →
        if record then ∃ xs, o.extraInfo = some xs ∧ IsExtra n ep k xs else o.extraInfo = none) eps segs := by
  obtain ⟨segs, h1, h2, _⟩ := h.segments hn hg
  exact ⟨segs, h1, h2.imp (fun _ _ hs k o hk => (hs.2 k o hk).extra)⟩

/-- Outside these histories: a step that `from_single` rejects (here `w = 0`) is removed from the cache by the `pop` that
raises `TypeError`; it is lost. -/
theorem C17_invalid_step_lost : ∃ t : NStep Unit Unit ℚ, t.len = 1 ∧
    (t.pop).2 = .error .typeError ∧ (t.pop).1.len = 0 := by
  refine ⟨((NStep.init 1 1 false).add ⟨(), (), 1, 0, 0⟩ true).1, ?_⟩
  decide +kernel

/-! A concrete history with two episodes, eager pops and a flush: it meets the hypotheses of C15–C18. -/

/-- step number `k` -/
def exStep (k : Nat) : Step Nat Nat ℚ := ⟨k, 10 + k, k, -1, 1⟩

theorem exStep_valid (k : Nat) : (exStep k).Valid := by
  constructor <;> simp [exStep]

def exT0 : NStep Nat Nat ℚ := NStep.init 2 (1/2) true
def exT1 := (exT0.add (exStep 0) false).1
def exT2 := (exT1.add (exStep 1) false).1
def exT3 := (exT2.add (exStep 2) false).1
def exT4 := exT3.pop.1
def exT5 := (exT4.add (exStep 3) true).1
def exT6 := exT5.flush.1
def exT7 := (exT6.add (exStep 4) true).1

theorem result_of {τ β : Type _} (q : τ × Except Err β) (p : β → Bool)
    (h : (match q.2 with | .ok o => p o | .error _ => false) = true) : ∃ o, q = (q.1, .ok o) ∧ p o = true := by
  obtain ⟨t, r⟩ := q
  cases r with
  | error e => simp at h
  | ok o => exact ⟨o, rfl, h⟩

theorem exHistory : ∃ o os, exT3.pop = (exT4, .ok o) ∧ exT5.flush = (exT6, .ok os) ∧ os.length = 3 ∧
    o.Rn = 1/2 ∧ o.In = 1/4 ∧ o.S_next = some 2 ∧
    NHistory 2 (1/2) true exT7
      [⟨[exStep 0, exStep 1, exStep 2, exStep 3], true⟩, ⟨[exStep 4], true⟩] ([o] ++ os) := by
  have hp : ∃ o, exT3.pop = (exT4, .ok o) ∧ o.Rn = 1/2 ∧ o.In = 1/4 ∧ o.S_next = some 2 := by
    obtain ⟨o, e, h⟩ := result_of exT3.pop (fun o => decide (o.Rn = 1/2 ∧ o.In = 1/4 ∧ o.S_next = some 2)) (by decide +kernel)
    exact ⟨o, e, of_decide_eq_true h⟩
  have hf : ∃ os, exT5.flush = (exT6, .ok os) ∧ os.length = 3 := by
    obtain ⟨os, e, h⟩ := result_of exT5.flush (fun os => decide (os.length = 3)) (by decide +kernel)
    exact ⟨os, e, of_decide_eq_true h⟩
  obtain ⟨o, e1, e2, e3, e4⟩ := hp
  obtain ⟨os, e5, e6⟩ := hf
  refine ⟨o, os, e1, e5, e6, e2, e3, e4, ?_⟩
  have h1 : NHistory 2 (1/2) true exT1 ([] ++ [⟨[exStep 0], false⟩]) [] :=
    .addFirst _ _ .init (by simp) (exStep_valid 0) rfl
  have h2 : NHistory 2 (1/2) true exT2 ([] ++ [⟨[exStep 0] ++ [exStep 1], false⟩]) [] :=
    .addNext _ _ h1 (exStep_valid 1) rfl
  have h3 : NHistory 2 (1/2) true exT3 ([] ++ [⟨([exStep 0] ++ [exStep 1]) ++ [exStep 2], false⟩]) [] :=
    .addNext _ _ h2 (exStep_valid 2) rfl
  have h5 := NHistory.addNext (exStep 3) true (h3.pop e1) (exStep_valid 3) (t' := exT5) rfl
  have h6 := h5.flush e5
  exact .addFirst (exStep 4) true h6 (by simp) (exStep_valid 4) (t' := exT7) (Prod.ext rfl (by decide +kernel))

example : (0 : ℚ) ≤ 1/2 ∧ (1/2 : ℚ) ≤ 1 := by decide +kernel

end Coax.RewardTracing
