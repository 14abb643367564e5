import Verif.RewardTracing.MonteCarloLemmas
import Verif.RewardTracing.NStepProps

/-! Properties C19–C21: Monte-Carlo reward tracing, its agreement with n-step tracing, and `from_single`. -/

namespace Coax.RewardTracing

variable {σ α K : Type _} [Field K] [LinearOrder K] [IsStrictOrderedRing K]
variable {n : Nat} {gamma : K} {record : Bool} {t : MonteCarlo σ α K} {eps : List (Episode σ α K)} {outs : List (Out σ α K)}

/-- C19.  The transitions returned so far split into one group per episode, in order.  Within a group they come last step
first: the `k`-th one is the Monte-Carlo transition (`IsMC`) of the step `k` places before the end.  All groups but the
last are complete, and nothing is returned of an unfinished episode. -/
theorem C19_returns (hg : 0 ≤ gamma ∧ gamma ≤ 1) (h : MHistory gamma t eps outs) :
    ∃ segs : List (List (Out σ α K)), outs = segs.flatten ∧
      List.Forall₂ (fun ep seg => seg.length ≤ ep.steps.length ∧ (ep.done = false → seg = []) ∧
        ∀ k o, seg[k]? = some o → IsMC gamma ep.steps (ep.steps.length - 1 - k) o) eps segs ∧
      (∀ i ep seg, i + 1 < eps.length → eps[i]? = some ep → segs[i]? = some seg →
        ep.done = true ∧ seg.length = ep.steps.length) := by
  obtain ⟨pre, last, segs, seg, hI⟩ := h.inv hg
  rcases hI.shape with ⟨hs, _⟩ | ⟨hs, hp, hl⟩
  · refine ⟨segs ++ [seg], by rw [hI.outs_eq]; simp, ?_, ?_⟩
    · rw [hs]
      exact List.rel_append (hI.full.imp (fun _ _ hc => hc.2.2.2)) (.cons hI.cur .nil)
    · intro i ep sg hi he hsg
      rw [hs] at hi he
      simp at hi
      have hl := hI.full.length_eq
      rw [List.getElem?_append_left hi] at he
      rw [List.getElem?_append_left (by omega)] at hsg
      have hc : MComplete gamma ep sg := by
        have := List.forall₂_iff_get.1 hI.full
        have h2 := this.2 i hi (by omega)
        rw [List.getElem?_eq_getElem hi] at he
        rw [List.getElem?_eq_getElem (by omega)] at hsg
        cases he; cases hsg
        exact h2
      exact ⟨hc.1, hc.2.2.1⟩
  · have hseg : seg = [] := by
      have := hI.cur.1
      rw [hl] at this
      simpa using this
    have hsegs : segs = [] := by
      have := hI.full
      rw [hp] at this
      cases this; rfl
    refine ⟨[], by rw [hI.outs_eq, hseg, hsegs]; rfl, by rw [hs]; exact .nil, ?_⟩
    intro i ep sg hi; rw [hs] at hi; simp at hi

theorem mcomplete_length {pre : List (Episode σ α K)} {segs : List (List (Out σ α K))}
    (h : List.Forall₂ (MComplete gamma) pre segs) : segs.flatten.length = (allSteps pre).length := by
  induction h with
  | nil => rfl
  | cons hc _ ih =>
    simp only [allSteps, List.flatten_cons, List.map_cons, List.length_append] at ih ⊢
    rw [hc.2.2.1, ih]

theorem MHistory.counts (hg : 0 ≤ gamma ∧ gamma ≤ 1) (h : MHistory gamma t eps outs) :
    outs.length + t.len = (allSteps eps).length ∧
    (∀ ep ∈ eps.getLast?, t.done = ep.done) ∧ (eps = [] → t.len = 0 ∧ t.done = false) := by
  obtain ⟨pre, last, segs, seg, hI⟩ := h.inv hg
  have hlen := hI.hold.len
  have hle := hI.cur.1
  have c2 := mcomplete_length hI.full
  rcases hI.shape with ⟨hs, hne⟩ | ⟨hs, hp, hl⟩
  · have hall : allSteps eps = allSteps pre ++ last.steps := by simp [hs, allSteps]
    refine ⟨?_, ?_, ?_⟩
    · rw [hI.outs_eq, hall, List.length_append, List.length_append, c2, hlen]; omega
    · intro ep he
      rw [hs] at he
      simp at he
      rw [← he]; exact hI.hold.done_eq
    · intro h0; rw [h0] at hs; simp at hs
  · have hd := hI.hold.done_eq
    rw [hl] at hle hlen hd
    have hseg : seg = [] := by simpa using hle
    have hsegs : segs = [] := by
      have := hI.full
      rw [hp] at this
      cases this; rfl
    have ho : outs = [] := by rw [hI.outs_eq, hseg, hsegs]; rfl
    refine ⟨?_, ?_, fun _ => ⟨by rw [hlen]; simp, hd⟩⟩
    · rw [ho, hs, hlen]; simp [allSteps]
    · intro ep he; rw [hs] at he; simp at he

/-- C19, nothing lost or duplicated: the steps not yet returned are exactly those counted by `len`. -/
theorem C19_no_loss (hg : 0 ≤ gamma ∧ gamma ≤ 1) (h : MHistory gamma t eps outs) :
    outs.length + t.len = (allSteps eps).length := (h.counts hg).1

/-- C19, `bool(tracer)` is true exactly when some step is pending and the last episode is finished. -/
theorem C19_bool (hg : 0 ≤ gamma ∧ gamma ≤ 1) (h : MHistory gamma t eps outs) :
    t.bool = true ↔ outs.length < (allSteps eps).length ∧ ∃ ep, eps.getLast? = some ep ∧ ep.done = true := by
  obtain ⟨h1, h3, h4⟩ := h.counts hg
  simp only [MonteCarlo.bool, Bool.and_eq_true, decide_eq_true_eq]
  cases hl : eps.getLast? with
  | none =>
    rw [List.getLast?_eq_none_iff] at hl
    have := h4 hl
    simp [this]
  | some ep =>
    rw [h3 ep hl]
    have e1 : t.len ≠ 0 ↔ outs.length < (allSteps eps).length := by omega
    rw [e1]
    simp

/-- C19, `add`: it raises exactly when the last episode is finished and not yet popped completely. -/
theorem C19_add (hg : 0 ≤ gamma ∧ gamma ≤ 1) (h : MHistory gamma t eps outs) (x : Step σ α K) (done : Bool) :
    ((∃ ep, eps.getLast? = some ep ∧ ep.done = true) ∧ outs.length < (allSteps eps).length →
      t.add x done = (t, some .episodeDone)) ∧
    (¬ ((∃ ep, eps.getLast? = some ep ∧ ep.done = true) ∧ outs.length < (allSteps eps).length) →
      (t.add x done).2 = none ∧ (t.add x done).1.len = t.len + 1) := by
  have hb := C19_bool hg h
  have he : t.bool = (t.done && decide (t.len ≠ 0)) := by simp [MonteCarlo.bool, Bool.and_comm]
  unfold MonteCarlo.add
  rw [← he]
  constructor
  · rintro ⟨h1, h2⟩
    rw [if_pos (hb.2 ⟨h2, h1⟩)]
  · intro hno
    rw [if_neg (fun hc => hno (hb.1 hc).symm)]
    exact ⟨rfl, by simp [MonteCarlo.len]⟩

/-- C19, `pop`: it raises exactly when `bool(tracer)` is `False`; the error is `InsufficientCacheError` and the tracer is
unchanged.  Otherwise it returns a transition and `len` drops by one. -/
theorem C19_pop (hg : 0 ≤ gamma ∧ gamma ≤ 1) (h : MHistory gamma t eps outs) :
    (t.bool = false → t.pop = (t, .error .insufficientCache)) ∧
    (t.bool = true → ∃ t' o, t.pop = (t', .ok o) ∧ t'.len + 1 = t.len) := by
  refine ⟨mpop_of_not_bool, fun hb => ?_⟩
  obtain ⟨_, _, _, _, hI⟩ := h.inv hg
  obtain ⟨t', o, e, hl, _⟩ := hI.pop hg hb
  exact ⟨t', o, e, hl⟩

theorem mflushLoop_pops (fuel : Nat) : ∀ {t t' : MonteCarlo σ α K} {acc os : List (Out σ α K)},
    MonteCarlo.flushLoop fuel t acc = (t', .ok os) → ∃ os', os = acc ++ os' ∧ MPops t os' t' ∧ t'.bool = false := by
  induction fuel with
  | zero => intro t t' acc os h; simp [MonteCarlo.flushLoop] at h
  | succ fuel ih =>
    intro t t' acc os h
    rw [MonteCarlo.flushLoop] at h
    split at h
    · rename_i hb
      injection h with h1 h2
      injection h2 with h2
      subst h1 h2
      exact ⟨[], by simp, .nil _, hb⟩
    · split at h
      · injection h with _ h2; cases h2
      · rename_i t₁ o e
        obtain ⟨os', e1, e2, e3⟩ := ih h
        exact ⟨o :: os', by rw [e1]; simp, .cons e e2, e3⟩

/-- C19, `flush`: it raises exactly when `bool(tracer)` is `False` (leaving the tracer unchanged); otherwise it returns what
repeated pops return and leaves the tracer empty. -/
theorem C19_flush (hg : 0 ≤ gamma ∧ gamma ≤ 1) (h : MHistory gamma t eps outs) :
    (t.bool = false → t.flush = (t, .error .insufficientCache)) ∧
    (t.bool = true → ∃ t' os, t.flush = (t', .ok os) ∧ MPops t os t' ∧ os.length = t.len ∧ t'.len = 0) := by
  refine ⟨mflush_of_not_bool, fun hb => ?_⟩
  obtain ⟨_, _, _, _, hI⟩ := h.inv hg
  obtain ⟨t', os, _, e, _, _⟩ := hI.flush hg hb
  have h' := h.flush e
  have c := h.counts hg
  have c' := h'.counts hg
  have hb' := C19_bool hg h
  have hb2 := C19_bool hg h'
  refine ⟨t', os, e, ?_⟩
  unfold MonteCarlo.flush at e
  rw [if_neg (by simp [hb])] at e
  obtain ⟨os', e1, e2, e3⟩ := mflushLoop_pops _ e
  rw [List.nil_append] at e1
  subst e1
  have h0 : t'.len = 0 := by
    by_contra hne
    have : t'.bool = true := hb2.2 ⟨by omega, (hb'.1 hb).2⟩
    rw [e3] at this; cases this
  refine ⟨e2, ?_, h0⟩
  have := c'.1
  have := c.1
  simp at *
  omega

/-- What `MonteCarlo` and `NStep` are expected to agree on. -/
def Out.value (o : Out σ α K) : σ × α × K × K × K × K := (o.S, o.A, o.logP, o.Rn, o.In, o.W)

theorem isNStep_value {ep : List (Step σ α K)} {k : Nat} {o o' : Out σ α K} (hlen : ep.length ≤ n)
    (h : IsNStep n gamma ep k o) (h' : IsMC gamma ep k o') : o.value = o'.value := by
  obtain ⟨x, e, e1, e2, e3, e4⟩ := h.start
  obtain ⟨y, f, f1, f2, f3, f4⟩ := h'.start
  rw [e] at f
  cases f
  have hR : o.Rn = o'.Rn := by
    rw [h.ret, h'.ret, returnFrom]
    symm
    apply Finset.sum_subset
    · intro i hi; simp at hi ⊢; omega
    · intro i _ hi
      simp at hi
      have : ep[k + i]? = none := by rw [List.getElem?_eq_none_iff]; omega
      simp [rewardAt, this]
  have hI : o.In = o'.In := by
    rw [h'.noBoot, (h.stop (by rw [List.getElem?_eq_none_iff]; omega)).1]
  simp [Out.value, e1, e2, e3, e4, f1, f2, f3, f4, hR, hI]

/-- C20.  When `n` is at least the length of every episode, n-step tracing and Monte-Carlo tracing of the same finished
episodes give the same transitions (state, action, log-probability, return, bootstrap factor, weight), episode by episode,
except that within an episode Monte-Carlo returns them last step first.  How the two tracers interleave their pops and
flushes does not matter. -/
theorem C20_nstep_montecarlo (hn : 0 < n) (hg : 0 ≤ gamma ∧ gamma ≤ 1) {tN : NStep σ α K} {outsN outsM : List (Out σ α K)}
    {tM : MonteCarlo σ α K} (hN : NHistory n gamma record tN eps outsN) (hM : MHistory gamma tM eps outsM)
    (hlen : ∀ ep ∈ eps, ep.steps.length ≤ n) (h0 : tN.len = 0) (h0' : tM.len = 0) :
    ∃ segsN segsM : List (List (Out σ α K)), outsN = segsN.flatten ∧ outsM = segsM.flatten ∧
      segsN.length = eps.length ∧ segsM.length = eps.length ∧
      List.Forall₂ (fun segN segM => segN.map Out.value = segM.reverse.map Out.value) segsN segsM := by
  obtain ⟨segsN, eN, fN, cN⟩ := hN.segments hn hg
  obtain ⟨segsM, eM, fM, cM⟩ := C19_returns hg hM
  have lN := fN.length_eq
  have lM := fM.length_eq
  have aN := (hN.counts hn hg).1
  have aM := (hM.counts hg).1
  rw [h0, eN, Nat.add_zero] at aN
  rw [h0', eM, Nat.add_zero] at aM
  have full : ∀ {eps : List (Episode σ α K)} {segs : List (List (Out σ α K))},
      List.Forall₂ (fun ep seg => seg.length ≤ ep.steps.length) eps segs →
      segs.flatten.length = (allSteps eps).length → List.Forall₂ (fun ep seg => seg.length = ep.steps.length) eps segs := by
    intro eps segs hf
    have hle : segs.flatten.length ≤ (allSteps eps).length := by
      clear fN fM cN cM lN lM aN aM hN hM hlen
      induction hf with
      | nil => simp
      | cons h1 _ ih => simp only [allSteps, List.flatten_cons, List.map_cons, List.length_append] at ih ⊢; omega
    clear fN fM cN cM lN lM aN aM hN hM hlen
    induction hf with
    | nil => intro _; exact .nil
    | @cons ep seg eps' segs' h1 h2 ih =>
      intro heq
      have h3 : segs'.flatten.length ≤ (allSteps eps').length := by
        clear ih heq hle
        induction h2 with
        | nil => simp
        | cons h1 _ ih => simp only [allSteps, List.flatten_cons, List.map_cons, List.length_append] at ih ⊢; omega
      simp only [allSteps, List.flatten_cons, List.map_cons, List.length_append] at heq h3
      refine .cons (by omega) (ih ?_ ?_)
      · simpa only [allSteps] using h3
      · simp only [allSteps]; omega
  have gN := full (fN.imp (fun _ _ h => h.1)) aN
  have gM := full (fM.imp (fun _ _ h => h.1)) aM
  refine ⟨segsN, segsM, eN, eM, lN.symm, lM.symm, ?_⟩
  rw [List.forall₂_iff_get] at fN fM gN gM ⊢
  refine ⟨by omega, ?_⟩
  intro i hi hi'
  have h1 := fN.2 i (by omega) hi
  have h2 := gN.2 i (by omega) hi
  have h3 := fM.2 i (by omega) hi'
  have h4 := gM.2 i (by omega) hi'
  have h5 := hlen (eps.get ⟨i, by omega⟩) (List.get_mem _ _)
  generalize eps.get ⟨i, _⟩ = ep at *
  generalize segsN.get ⟨i, _⟩ = a at *
  generalize segsM.get ⟨i, _⟩ = b at *
  apply List.ext_getElem
  · simp [h2, h4]
  intro k hk hk'
  simp at hk hk'
  simp only [List.getElem_map, List.getElem_reverse]
  have q1 := (h1.2 k _ (List.getElem?_eq_getElem hk)).nstep
  have q2 := h3.2.2 (b.length - 1 - k) _ (List.getElem?_eq_getElem (by omega))
  rw [show ep.steps.length - 1 - (b.length - 1 - k) = k by omega] at q2
  exact isNStep_value h5 q1 q2

/-! ## C21 -/

/-- C21.  `from_single` accepts exactly the arguments with `logp ≤ 0`, `0 ≤ gamma ≤ 1`, `w > 0` and (if given)
`logp_next ≤ 0`; otherwise it raises `TypeError`. -/
theorem C21_from_single_rejects (s : σ) (a : α) (logp r : K) (done : Bool) (gamma : K) (sNext : Option σ)
    (aNext : Option α) (logpNext : Option K) (w : K) (idx : Option Nat) (extra : Option (List (Step σ α K × Bool))) :
    (logp ≤ 0 ∧ 0 ≤ gamma ∧ gamma ≤ 1 ∧ (∀ l, logpNext = some l → l ≤ 0) ∧ 0 < w →
      ∃ o, fromSingle s a logp r done gamma sNext aNext logpNext w idx extra = .ok o) ∧
    (¬ (logp ≤ 0 ∧ 0 ≤ gamma ∧ gamma ≤ 1 ∧ (∀ l, logpNext = some l → l ≤ 0) ∧ 0 < w) →
      fromSingle s a logp r done gamma sNext aNext logpNext w idx extra = .error .typeError) := by
  unfold fromSingle
  constructor
  · rintro ⟨h1, h2, h3, h4, h5⟩
    rw [if_neg (by simpa using h1), if_neg (by simpa using ⟨h2, h3⟩), if_neg ?_, if_neg (by simpa using h5)]
    · exact ⟨_, rfl⟩
    · cases logpNext with
      | none => simp
      | some l => simpa using h4 l rfl
  · intro h
    split; · rfl
    split; · rfl
    split; · rfl
    split; · rfl
    exfalso
    rename_i h1 h2 h3 h4
    apply h
    simp only [Decidable.not_not] at h1 h2 h4
    refine ⟨by simpa using h1, by simpa using h2.1, by simpa using h2.2, ?_, by simpa using h4⟩
    rintro l rfl
    simpa using h3

/-- C21.  The transition that `from_single` builds: everything is passed on, the reward is the partial return, and the
bootstrap factor is `gamma`, or zero if the step is terminal. -/
theorem C21_from_single_value {s : σ} {a : α} {logp r : K} {done : Bool} {gamma : K} {sNext : Option σ}
    {aNext : Option α} {logpNext : Option K} {w : K} {idx : Option Nat} {extra : Option (List (Step σ α K × Bool))}
    {o : Out σ α K} (h : fromSingle s a logp r done gamma sNext aNext logpNext w idx extra = .ok o) :
    o.S = s ∧ o.A = a ∧ o.logP = logp ∧ o.Rn = r ∧ o.In = (if done then 0 else gamma) ∧ o.S_next = sNext ∧
    o.A_next = aNext ∧ o.logP_next = logpNext ∧ o.W = w ∧ o.idx = idx.getD 0 ∧ o.extraInfo = extra := by
  unfold fromSingle at h
  split at h; · cases h
  split at h; · cases h
  split at h; · cases h
  split at h; · cases h
  injection h with h
  subst h
  cases idx <;> cases done <;> simp

example : (fromSingle 0 1 (-1) 5 false (1/2) (some 2) (some 3) (some (-2)) 1 none none : Except Err (Out Nat Nat ℚ)).isOk = true := by
  decide +kernel
example : (fromSingle 0 1 1 5 false (1/2) (some 2) (some 3) (some (-2)) 1 none none : Except Err (Out Nat Nat ℚ)).isOk = false := by
  decide +kernel

/-! A concrete pair of histories meeting the hypotheses of C19 and C20: one episode of two steps, `n = 2`. -/

def exM2 : MonteCarlo Nat Nat ℚ := (((MonteCarlo.init (1/2)).add (exStep 1) false).1.add (exStep 2) true).1
def exN2 : NStep Nat Nat ℚ := (((NStep.init 2 (1/2) true).add (exStep 1) false).1.add (exStep 2) true).1

theorem exMHistory : ∃ os, MHistory (1/2) exM2.flush.1 [⟨[exStep 1, exStep 2], true⟩] os ∧ os.map (·.Rn) = [2, 2] := by
  obtain ⟨os, e, h⟩ := result_of exM2.flush (fun os => decide (os.map (·.Rn) = [2, 2])) (by decide +kernel)
  refine ⟨os, ?_, of_decide_eq_true h⟩
  have h1 : MHistory (1/2) ((MonteCarlo.init (1/2)).add (exStep 1) false).1 ([] ++ [⟨[exStep 1], false⟩]) [] :=
    .addFirst _ _ .init (by simp) (exStep_valid 1) rfl
  have h2 := MHistory.addNext (exStep 2) true h1 (exStep_valid 2) (t' := exM2) rfl
  exact h2.flush e

theorem exNHistory2 : ∃ os, NHistory 2 (1/2) true exN2.flush.1 [⟨[exStep 1, exStep 2], true⟩] os := by
  obtain ⟨os, e, h⟩ := result_of exN2.flush (fun os => decide (os.length = 2)) (by decide +kernel)
  refine ⟨os, ?_⟩
  have h1 : NHistory 2 (1/2) true ((NStep.init 2 (1/2) true).add (exStep 1) false).1 ([] ++ [⟨[exStep 1], false⟩]) [] :=
    .addFirst _ _ .init (by simp) (exStep_valid 1) rfl
  have h2 := NHistory.addNext (exStep 2) true h1 (exStep_valid 2) (t' := exN2) rfl
  exact h2.flush e

example : exM2.flush.1.len = 0 ∧ exN2.flush.1.len = 0 := by decide +kernel

end Coax.RewardTracing
