import Verif.RewardTracing.MonteCarloSpec
import Verif.RewardTracing.NStepLemmas
import Mathlib.Algebra.BigOperators.Ring.Finset

namespace Coax.RewardTracing

variable {σ α K : Type _} [Field K] [LinearOrder K] [IsStrictOrderedRing K]

theorem returnFrom_step {gamma : K} {ep : List (Step σ α K)} {t : Nat} {x : Step σ α K} (h : ep[t]? = some x) :
    returnFrom gamma ep t = x.r + gamma * returnFrom gamma ep (t + 1) := by
  have hlt := (List.getElem?_eq_some_iff.1 h).1
  unfold returnFrom
  rw [show ep.length - t = (ep.length - (t + 1)) + 1 by omega, Finset.sum_range_succ', Finset.mul_sum, add_comm]
  congr 1
  · simp [rewardAt, h]
  · apply Finset.sum_congr rfl
    intro k _
    rw [pow_succ, show t + (k + 1) = t + 1 + k by omega]; ring

theorem returnFrom_end {gamma : K} {ep : List (Step σ α K)} {t : Nat} (h : ep.length ≤ t) : returnFrom gamma ep t = 0 := by
  unfold returnFrom
  rw [show ep.length - t = 0 by omega]; rfl

/-- Popped transitions of an episode, last step first. -/
def MSegment (gamma : K) (ep : Episode σ α K) (seg : List (Out σ α K)) : Prop :=
  seg.length ≤ ep.steps.length ∧ (ep.done = false → seg = []) ∧
    ∀ k o, seg[k]? = some o → IsMC gamma ep.steps (ep.steps.length - 1 - k) o

def MComplete (gamma : K) (ep : Episode σ α K) (seg : List (Out σ α K)) : Prop :=
  ep.done = true ∧ ep.steps ≠ [] ∧ seg.length = ep.steps.length ∧ MSegment gamma ep seg

structure MHolding (gamma : K) (t : MonteCarlo σ α K) (ep : Episode σ α K) (p : Nat) : Prop where
  gamma_eq : t.gamma = gamma
  list_eq : t.list = ep.steps.take (ep.steps.length - p)
  done_eq : t.done = ep.done
  g_eq : ep.done = true → t.g = returnFrom gamma ep.steps (ep.steps.length - p)

structure MInv (gamma : K) (t : MonteCarlo σ α K) (eps : List (Episode σ α K))
    (outs : List (Out σ α K)) (pre : List (Episode σ α K)) (last : Episode σ α K) (segs : List (List (Out σ α K)))
    (seg : List (Out σ α K)) : Prop where
  shape : (eps = pre ++ [last] ∧ last.steps ≠ []) ∨ (eps = [] ∧ pre = [] ∧ last = ⟨[], false⟩)
  outs_eq : outs = segs.flatten ++ seg
  full : List.Forall₂ (MComplete gamma) pre segs
  cur : MSegment gamma last seg
  hold : MHolding gamma t last seg.length
  valid : ∀ x ∈ last.steps, x.Valid

section
variable {gamma : K} {t t' : MonteCarlo σ α K} {eps pre : List (Episode σ α K)} {last ep : Episode σ α K}
  {outs seg : List (Out σ α K)} {segs : List (List (Out σ α K))} {p : Nat}

theorem MHolding.len (h : MHolding gamma t ep p) : t.len = ep.steps.length - p := by
  simp [MonteCarlo.len, h.list_eq]

theorem MHolding.pop (h : MHolding gamma t ep p) (hg : 0 ≤ gamma ∧ gamma ≤ 1) (hv : ∀ x ∈ ep.steps, x.Valid)
    (hb : t.bool = true) :
    ∃ t' o, t.pop = (t', .ok o) ∧ p < ep.steps.length ∧ ep.done = true ∧ MHolding gamma t' ep (p + 1) ∧
      IsMC gamma ep.steps (ep.steps.length - 1 - p) o := by
  have hlen := h.len
  have hp : p < ep.steps.length ∧ ep.done = true := by
    simp [MonteCarlo.bool, hlen, h.done_eq] at hb
    exact ⟨by omega, hb.2⟩
  have hi : ep.steps.length - 1 - p < ep.steps.length := by omega
  have hget : ep.steps[ep.steps.length - 1 - p]? = some ep.steps[ep.steps.length - 1 - p] := List.getElem?_eq_getElem hi
  have hxv := hv _ (List.getElem_mem hi)
  have hret := returnFrom_step (gamma := gamma) hget
  rw [show ep.steps.length - 1 - p + 1 = ep.steps.length - p by omega, ← h.g_eq hp.2] at hret
  have hlast : t.list.getLast? = some ep.steps[ep.steps.length - 1 - p] := by
    rw [h.list_eq, List.getLast?_eq_getElem?, List.length_take, List.getElem?_take, if_pos (by omega), ← hget]
    congr 1
    omega
  have hdl : t.list.dropLast = ep.steps.take (ep.steps.length - (p + 1)) := by
    rw [h.list_eq, List.dropLast_eq_take, List.take_take, List.length_take]
    congr 1
    omega
  generalize ep.steps[ep.steps.length - 1 - p] = x at *
  have hpop : t.pop = ({ t with list := t.list.dropLast, g := x.r + t.gamma * t.g }, .ok
      ⟨x.s, x.a, x.logp, x.r + t.gamma * t.g, t.gamma * (1 - if true then 1 else 0), some x.s, some x.a, some x.logp, x.w,
        0, none⟩) := by
    unfold MonteCarlo.pop
    rw [if_neg (by simp [hb]), hlast]
    dsimp only
    rw [fromSingle_ok hxv.1 (by rw [h.gamma_eq]; exact hg) hxv.1 hxv.2]
  refine ⟨_, _, hpop, hp.1, hp.2, ⟨h.gamma_eq, hdl, h.done_eq, ?_⟩, ⟨x, hget, rfl, rfl, rfl, rfl⟩, ?_, by simp⟩
  · intro _
    rw [show ep.steps.length - (p + 1) = ep.steps.length - 1 - p by omega, hret, h.gamma_eq]
  · rw [hret, h.gamma_eq]

theorem MInv.pop (h : MInv gamma t eps outs pre last segs seg) (hg : 0 ≤ gamma ∧ gamma ≤ 1)
    (hb : t.bool = true) : ∃ t' o, t.pop = (t', .ok o) ∧ t'.len + 1 = t.len ∧
      MInv gamma t' eps (outs ++ [o]) pre last segs (seg ++ [o]) := by
  obtain ⟨t', o, e, hlt, hd, hH, hC⟩ := h.hold.pop hg h.valid hb
  refine ⟨t', o, e, ?_, h.shape, by rw [h.outs_eq, List.append_assoc], h.full, ⟨by simp; omega, by simp [hd], ?_⟩,
    by simpa using hH, h.valid⟩
  · rw [hH.len, h.hold.len]; omega
  · intro k o' hk
    by_cases hks : k < seg.length
    · rw [List.getElem?_append_left hks] at hk
      exact h.cur.2.2 k o' hk
    · have hk2 : k < (seg ++ [o]).length := (List.getElem?_eq_some_iff.1 hk).1
      simp at hk2
      have : k = seg.length := by omega
      subst this
      simp at hk
      exact hk ▸ hC

theorem MInv.flushLoop (hg : 0 ≤ gamma ∧ gamma ≤ 1) (fuel : Nat) :
    ∀ {t : MonteCarlo σ α K} {acc seg : List (Out σ α K)}, MInv gamma t eps (outs ++ acc) pre last segs seg →
      t.len < fuel → ∃ t' os seg', MonteCarlo.flushLoop fuel t acc = (t', .ok os) ∧ t'.bool = false ∧
        MInv gamma t' eps (outs ++ os) pre last segs seg' := by
  induction fuel with
  | zero => intro t acc seg _ h; omega
  | succ fuel ih =>
    intro t acc seg h hlt
    rw [MonteCarlo.flushLoop]
    by_cases hb : t.bool = false
    · rw [if_pos hb]
      exact ⟨t, acc, seg, rfl, hb, h⟩
    · rw [if_neg hb]
      obtain ⟨t', o, e, hl, hI⟩ := h.pop hg (by simpa using hb)
      rw [e]
      dsimp only
      rw [List.append_assoc] at hI
      exact ih hI (by omega)

theorem MInv.flush (h : MInv gamma t eps outs pre last segs seg) (hg : 0 ≤ gamma ∧ gamma ≤ 1)
    (hb : t.bool = true) : ∃ t' os seg', t.flush = (t', .ok os) ∧ t'.bool = false ∧
        MInv gamma t' eps (outs ++ os) pre last segs seg' := by
  unfold MonteCarlo.flush
  rw [if_neg (by simp [hb])]
  exact MInv.flushLoop hg _ (acc := []) (by simpa using h) (by omega)

theorem mpop_of_not_bool (hb : t.bool = false) : t.pop = (t, .error .insufficientCache) := by
  unfold MonteCarlo.pop; rw [if_pos hb]

theorem mflush_of_not_bool (hb : t.bool = false) : t.flush = (t, .error .insufficientCache) := by
  unfold MonteCarlo.flush; rw [if_pos hb]

theorem MHistory.inv (hg : 0 ≤ gamma ∧ gamma ≤ 1) (h : MHistory gamma t eps outs) :
    ∃ pre last segs seg, MInv gamma t eps outs pre last segs seg := by
  induction h with
  | init =>
    exact ⟨[], ⟨[], false⟩, [], [], .inr ⟨rfl, rfl, rfl⟩, rfl, .nil, ⟨by simp, by simp, by simp⟩,
      ⟨rfl, rfl, rfl, by simp⟩, by simp⟩
  | reset _ ih =>
    obtain ⟨pre, last, segs, seg, hI⟩ := ih
    exact ⟨[], ⟨[], false⟩, [], [], .inr ⟨rfl, rfl, rfl⟩, rfl, .nil, ⟨by simp, by simp, by simp⟩,
      ⟨hI.hold.gamma_eq, rfl, rfl, by simp⟩, by simp⟩
  | @addFirst t t' eps outs x done _ hlast hv hadd ih =>
    obtain ⟨pre, last, segs, seg, hI⟩ := ih
    have hh := hI.hold
    have hlen := hh.len
    unfold MonteCarlo.add at hadd
    split at hadd
    · cases hadd
    · rename_i hc
      injection hadd with hadd _
      have hempty : t.list = [] ∧ (eps = pre ++ [last] → MComplete gamma last seg) := by
        rcases hI.shape with ⟨hs, hne⟩ | ⟨_, _, hs⟩
        · have hd : last.done = true := hlast last (by rw [hs]; simp)
          simp [hh.done_eq, hd, hlen] at hc
          have := hI.cur.1
          exact ⟨by rw [hh.list_eq, show last.steps.length - seg.length = 0 by omega]; rfl,
            fun _ => ⟨hd, hne, by omega, hI.cur⟩⟩
        · refine ⟨by simp [hh.list_eq, hs], ?_⟩
          intro he
          have h0 : eps = [] := by assumption
          rw [h0] at he; simp at he
      have hH : MHolding gamma t' ⟨[x], done⟩ 0 := by
        subst hadd
        refine ⟨hh.gamma_eq, by simp [hempty.1], rfl, ?_⟩
        intro hd
        dsimp only at hd
        subst hd
        rw [returnFrom_end (by simp)]; rfl
      rcases hI.shape with ⟨hs, hne⟩ | ⟨hs, hpre, hl⟩
      · refine ⟨pre ++ [last], ⟨[x], done⟩, segs ++ [seg], [], .inl ⟨by rw [hs], by simp⟩, ?_, ?_,
          ⟨by simp, by simp, by simp⟩, hH, by simpa using hv⟩
        · rw [hI.outs_eq]; simp
        · exact List.rel_append hI.full (.cons (hempty.2 hs) .nil)
      · have hseg : seg = [] := by
          have := hI.cur.1
          rw [hl] at this
          simpa using this
        refine ⟨pre, ⟨[x], done⟩, segs, [], .inl ⟨by rw [hs, hpre], by simp⟩, ?_, hI.full, ⟨by simp, by simp, by simp⟩, hH,
          by simpa using hv⟩
        rw [hI.outs_eq, hseg]
  | @addNext t t' eps steps outs x done _ hv hadd ih =>
    obtain ⟨pre, last, segs, seg, hI⟩ := ih
    have hh := hI.hold
    rcases hI.shape with ⟨hs, hne⟩ | ⟨hs, _, _⟩
    · obtain ⟨hs1, hs2⟩ := List.append_inj' hs rfl
      injection hs2 with hs2 _
      subst hs1 hs2
      have hseg : seg = [] := hI.cur.2.1 rfl
      unfold MonteCarlo.add at hadd
      rw [if_neg (by simp [hh.done_eq])] at hadd
      injection hadd with hadd _
      subst hadd
      refine ⟨eps, ⟨steps ++ [x], done⟩, segs, seg, .inl ⟨rfl, by simp⟩, hI.outs_eq, hI.full, ⟨?_, ?_, ?_⟩, ?_, ?_⟩
      · simp [hseg]
      · simp [hseg]
      · simp [hseg]
      · refine ⟨hh.gamma_eq, ?_, rfl, ?_⟩
        · have := hh.list_eq
          rw [hseg] at this ⊢
          simp at this ⊢
          rw [this]
          exact (List.take_of_length_le (by simp)).symm
        · intro hd
          dsimp only at hd
          subst hd
          rw [returnFrom_end (by simp [hseg])]; rfl
      · intro y hy
        rcases List.mem_append.1 hy with hy | hy
        · exact hI.valid y hy
        · rw [List.mem_singleton.1 hy]; exact hv
    · simp at hs
  | @addFails t t' eps outs x done e _ hadd ih =>
    unfold MonteCarlo.add at hadd
    split at hadd
    · injection hadd with hadd _
      rw [← hadd]; exact ih
    · injection hadd with _ h; cases h
  | @pop t t' eps outs o _ hpop ih =>
    obtain ⟨pre, last, segs, seg, hI⟩ := ih
    cases hb : t.bool with
    | false => rw [mpop_of_not_bool hb] at hpop; injection hpop with _ h; cases h
    | true =>
      obtain ⟨t'', o', e, _, hI'⟩ := hI.pop hg hb
      rw [e] at hpop
      injection hpop with h1 h2
      injection h2 with h2
      subst h1 h2
      exact ⟨_, _, _, _, hI'⟩
  | @popFails t t' eps outs e _ hpop ih =>
    obtain ⟨pre, last, segs, seg, hI⟩ := ih
    cases hb : t.bool with
    | false =>
      rw [mpop_of_not_bool hb] at hpop
      injection hpop with h _
      subst h
      exact ⟨_, _, _, _, hI⟩
    | true =>
      obtain ⟨t'', o', e, _, hI'⟩ := hI.pop hg hb
      rw [e] at hpop
      injection hpop with h1 h2
      cases h2
  | @flush t t' eps outs os _ hpop ih =>
    obtain ⟨pre, last, segs, seg, hI⟩ := ih
    cases hb : t.bool with
    | false => rw [mflush_of_not_bool hb] at hpop; injection hpop with _ h; cases h
    | true =>
      obtain ⟨t'', o', seg', e, _, hI'⟩ := hI.flush hg hb
      rw [e] at hpop
      injection hpop with h1 h2
      injection h2 with h2
      subst h1 h2
      exact ⟨_, _, _, _, hI'⟩
  | @flushFails t t' eps outs e _ hpop ih =>
    obtain ⟨pre, last, segs, seg, hI⟩ := ih
    cases hb : t.bool with
    | false =>
      rw [mflush_of_not_bool hb] at hpop
      injection hpop with h _
      subst h
      exact ⟨_, _, _, _, hI⟩
    | true =>
      obtain ⟨t'', o', seg', e, _, hI'⟩ := hI.flush hg hb
      rw [e] at hpop
      injection hpop with h1 h2
      cases h2

end

end Coax.RewardTracing
