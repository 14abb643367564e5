import Verif.RewardTracing.NStepSpec
import Mathlib.Algebra.BigOperators.Intervals
import Mathlib.Data.List.Forall2
import Mathlib.Tactic.Ring
import Mathlib.Tactic.Linarith

namespace Coax.RewardTracing

variable {σ α K : Type _} [Field K] [LinearOrder K] [IsStrictOrderedRing K]

theorem zip_sum (f : Nat → K) (l : List K) (n : Nat) :
    ((((List.range n).map f).zip l).map (fun p => p.1 * p.2)).sum = ∑ k ∈ Finset.range n, f k * (l[k]?.getD 0) := by
  induction l generalizing f n with
  | nil => simp
  | cons x xs ih =>
    cases n with
    | zero => simp
    | succ n =>
      rw [List.range_succ_eq_map, Finset.sum_range_succ']
      simp only [List.map_cons, List.map_map, List.zip_cons_cons, List.sum_cons]
      have := ih (f ∘ Nat.succ) n
      rw [this]
      simp [add_comm]

/-- Everything about a popped transition. -/
structure Correct (n : Nat) (gamma : K) (record : Bool) (ep : Episode σ α K) (t : Nat) (o : Out σ α K) : Prop where
  nstep : IsNStep n gamma ep.steps t o
  extra : if record then ∃ xs, o.extraInfo = some xs ∧ IsExtra n ep t xs else o.extraInfo = none
  early : ep.done = false → t + n < ep.steps.length

theorem rewardAt_append {ep : List (Step σ α K)} {t : Nat} (h : t < ep.length) (l : List (Step σ α K)) :
    rewardAt (ep ++ l) t = rewardAt ep t := by
  unfold rewardAt; rw [List.getElem?_append_left h]

theorem Correct.extend {n : Nat} {gamma : K} {record : Bool} {steps : List (Step σ α K)} {t : Nat} {o : Out σ α K}
    (h : Correct n gamma record ⟨steps, false⟩ t o) (x : Step σ α K) (done : Bool) :
    Correct n gamma record ⟨steps ++ [x], done⟩ t o := by
  have hlt : t + n < steps.length := h.early rfl
  refine ⟨⟨?_, ?_, ?_, ?_⟩, ?_, ?_⟩
  · obtain ⟨y, e, r⟩ := h.nstep.start
    exact ⟨y, by rw [List.getElem?_append_left (by omega)]; exact e, r⟩
  · rw [h.nstep.ret]
    apply Finset.sum_congr rfl
    intro k hk
    rw [rewardAt_append]
    simp at hk ⊢; omega
  · intro y hy
    rw [List.getElem?_append_left (by omega)] at hy
    exact h.nstep.boot y hy
  · intro hy
    rw [List.getElem?_append_left (by omega)] at hy
    exact h.nstep.stop hy
  · have he := h.extra
    cases record with
    | false => simpa using he
    | true =>
      simp only [if_true] at he ⊢
      obtain ⟨xs, e, hl, hx⟩ := he
      refine ⟨xs, e, hl, ?_⟩
      intro k hk
      obtain ⟨y, e1, e2⟩ := hx k hk
      dsimp only at e1 e2 ⊢
      refine ⟨y, ?_, ?_⟩
      · rw [← e1, List.getElem?_append_left (by simp; omega)]
        congr 1
        simp; omega
      · rw [e2]
        simp
        intro _; omega
  · intro _; simp; omega

theorem fromSingle_ok {s : σ} {a : α} {logp r : K} {done : Bool} {gamma : K} {sn : Option σ} {an : Option α} {ln : K}
    {w : K} {ex : Option (List (Step σ α K × Bool))} (h1 : logp ≤ 0) (h2 : 0 ≤ gamma ∧ gamma ≤ 1) (h3 : ln ≤ 0)
    (h4 : 0 < w) :
    fromSingle s a logp r done gamma sn an (some ln) w none ex =
      .ok ⟨s, a, logp, r, gamma * (1 - if done then 1 else 0), sn, an, some ln, w, 0, ex⟩ := by
  unfold fromSingle
  rw [if_neg (by simpa using h1), if_neg (by simpa using h2), if_neg (by simpa using h3), if_neg (by simpa using h4)]
  rfl

/-- The cache holds the steps of an episode from `p` on. -/
structure Holding (n : Nat) (gamma : K) (record : Bool) (t : NStep σ α K) (ep : Episode σ α K) (p : Nat) : Prop where
  n_eq : t.n = n
  record_eq : t.recordExtraInfo = record
  gamma_eq : t.gamma = gamma
  gammas_eq : t.gammas = (List.range n).map (fun k => gamma ^ k)
  gamman_eq : t.gamman = gamma ^ n
  s_eq : t.dequeS = (ep.steps.drop p).map Step.start
  r_eq : t.dequeR = (ep.steps.drop p).map (·.r)
  done_eq : t.done = ep.done

theorem extraLoop_spec (steps : List (Step σ α K)) (p : Nat) (hp : p < steps.length) (tdone : Bool)
    (hd : tdone = true ∨ steps.length > p + 1) (ep : Episode σ α K) (hep : ep = ⟨steps, tdone⟩)
    (rem : Nat) (hcov : tdone = true ∨ p + rem ≤ steps.length)
    (i : Nat) (last : Step σ α K × Bool) (hi : tdone = false → p + i + rem ≤ steps.length)
    (hlast : steps[min (p + i) (steps.length - 1)]? = some last.1 ∧
      last.2 = (tdone && decide (steps.length ≤ p + i + 1))) :
    (extraLoop ((steps.drop (p + 1)).map Step.start) ((steps.drop (p + 1)).map (·.r))
      (decide (((steps.drop (p + 1)).map Step.start).length = 0)) tdone rem i last).length = rem ∧
    ∀ k, k < rem → ∃ x, steps[min (p + (i + k)) (steps.length - 1)]? = some x ∧
      (extraLoop ((steps.drop (p + 1)).map Step.start) ((steps.drop (p + 1)).map (·.r))
        (decide (((steps.drop (p + 1)).map Step.start).length = 0)) tdone rem i last)[k]? =
        some (x, tdone && decide (steps.length ≤ p + (i + k) + 1)) := by
  induction rem generalizing i last with
  | zero => exact ⟨rfl, fun k hk => by omega⟩
  | succ rem ih =>
    rw [extraLoop]
    obtain ⟨hl1, hl2⟩ := hlast
    have hstep : steps[min (p + (i + 1)) (steps.length - 1)]? = some
        (extraNext ((steps.drop (p + 1)).map Step.start) ((steps.drop (p + 1)).map (·.r))
          (decide (((steps.drop (p + 1)).map Step.start).length = 0)) tdone i last).1 ∧
        (rem = 0 ∨ (extraNext ((steps.drop (p + 1)).map Step.start) ((steps.drop (p + 1)).map (·.r))
          (decide (((steps.drop (p + 1)).map Step.start).length = 0)) tdone i last).2 =
            (tdone && decide (steps.length ≤ p + (i + 1) + 1))) := by
      unfold extraNext
      by_cases hlt : p + 1 + i < steps.length
      · have e : steps[p + 1 + i]? = some steps[p + 1 + i] := List.getElem?_eq_getElem hlt
        have hmin : min (p + (i + 1)) (steps.length - 1) = p + 1 + i := by omega
        rw [hmin, e]
        simp only [List.getElem?_map, List.getElem?_drop, e, Option.map_some, Step.start, List.length_map,
          List.length_drop, true_and]
        right
        have h0 : ¬ (steps.length - (p + 1) = 0) := by omega
        simp only [h0, decide_false, Bool.false_or]
        cases tdone with
        | false => simp
        | true =>
          simp only [Bool.and_true, Bool.true_and, decide_eq_decide]
          omega
      · have e : steps[p + 1 + i]? = none := List.getElem?_eq_none (by omega)
        simp only [List.getElem?_map, List.getElem?_drop, e, Option.map_none]
        constructor
        · rw [← hl1]; congr 1; omega
        · cases tdone with
          | false =>
            left
            have := hi rfl
            omega
          | true => right; simp; omega
    cases rem with
    | zero =>
      refine ⟨rfl, fun k hk => ?_⟩
      have : k = 0 := by omega
      subst this
      exact ⟨last.1, hl1, by simp [← hl2]⟩
    | succ rem =>
      obtain ⟨hs1, hs2⟩ := hstep
      have hs2 := hs2.resolve_left (by omega)
      obtain ⟨ih1, ih2⟩ := ih (by rcases hcov with h | h <;> [exact .inl h; exact .inr (by omega)]) (i + 1) _
        (fun h => by have := hi h; omega) ⟨hs1, hs2⟩
      refine ⟨by rw [List.length_cons, ih1], ?_⟩
      intro k hk
      cases k with
      | zero => exact ⟨last.1, hl1, by simp [← hl2]⟩
      | succ k =>
        obtain ⟨x, e1, e2⟩ := ih2 k (by omega)
        refine ⟨x, ?_, ?_⟩
        · rw [← e1, show i + 1 + k = i + (k + 1) by omega]
        · rw [List.getElem?_cons_succ, e2, show i + 1 + k = i + (k + 1) by omega]

/-- A successful pop. -/
theorem Holding.pop {n : Nat} {gamma : K} {record : Bool} {t : NStep σ α K} {ep : Episode σ α K} {p : Nat}
    (h : Holding n gamma record t ep p) (hn : 0 < n) (hg : 0 ≤ gamma ∧ gamma ≤ 1) (hv : ∀ x ∈ ep.steps, x.Valid)
    (hb : t.bool = true) :
    ∃ t' o, t.pop = (t', .ok o) ∧ p < ep.steps.length ∧ Holding n gamma record t' ep (p + 1) ∧
      Correct n gamma record ep p o := by
  have hlen : t.len = ep.steps.length - p := by simp [NStep.len, h.s_eq]
  have hp : p < ep.steps.length := by
    simp [NStep.bool, hlen] at hb; omega
  have hlong : ep.done = true ∨ p + n < ep.steps.length := by
    simp [NStep.bool, hlen, h.done_eq, h.n_eq] at hb
    rcases hb.2 with h | h
    · exact .inl h
    · right; omega
  have hdrop : ep.steps.drop p = ep.steps[p] :: ep.steps.drop (p + 1) := List.drop_eq_getElem_cons hp
  have hgn : 0 ≤ gamma ^ n ∧ gamma ^ n ≤ 1 := ⟨pow_nonneg hg.1 n, pow_le_one₀ hg.1 hg.2⟩
  have hxv := hv _ (List.getElem_mem hp)
  have hget : ep.steps[p]? = some ep.steps[p] := List.getElem?_eq_getElem hp
  generalize ep.steps[p] = x at *
  have es : t.dequeS = (x.s, x.a, x.logp, x.w) :: (ep.steps.drop (p + 1)).map Step.start := by
    rw [h.s_eq, hdrop]; rfl
  have er : t.dequeR = x.r :: (ep.steps.drop (p + 1)).map (·.r) := by
    rw [h.r_eq, hdrop]; rfl
  set t' : NStep σ α K := { t with dequeS := (ep.steps.drop (p + 1)).map Step.start, dequeR := (ep.steps.drop (p + 1)).map (·.r) } with ht'
  have hH : Holding n gamma record t' ep (p + 1) :=
    ⟨h.n_eq, h.record_eq, h.gamma_eq, h.gammas_eq, h.gamman_eq, rfl, rfl, h.done_eq⟩
  have hlen' : t'.len = ep.steps.length - (p + 1) := by simp [NStep.len, ht']
  have hrn : (((t.gammas.zip t.dequeR).take t.n).map (fun p => p.1 * p.2)).sum =
      ∑ k ∈ Finset.range n, gamma ^ k * rewardAt ep.steps (p + k) := by
    rw [List.take_of_length_le (by simp [h.gammas_eq, h.n_eq]), h.gammas_eq, zip_sum, h.r_eq]
    apply Finset.sum_congr rfl
    intro k _
    congr 1
    simp only [List.getElem?_map, List.getElem?_drop, rewardAt]
    cases ep.steps[p + k]? <;> rfl
  have hextra : record = true → IsExtra n ep p (t'.extraInfo ⟨x.s, x.a, x.r, x.logp, x.w⟩ (decide (t'.len = 0))) := by
    intro _
    have hd : ep.done = true ∨ ep.steps.length > p + 1 := by
      rcases hlong with h | h
      · exact .inl h
      · right; omega
    have hcov : ep.done = true ∨ p + (n + 1) ≤ ep.steps.length := by
      rcases hlong with h | h
      · exact .inl h
      · right; omega
    obtain ⟨k1, k2⟩ := extraLoop_spec ep.steps p hp ep.done hd ep rfl (n + 1) hcov 0
      (⟨x.s, x.a, x.r, x.logp, x.w⟩, decide (t'.len = 0))
      (by intro hf; rcases hcov with h | h
          · rw [hf] at h; cases h
          · omega)
      (by
        constructor
        · rw [Nat.add_zero, Nat.min_eq_left (by omega)]; exact hget
        · dsimp only
          rw [hlen']
          rcases hlong with h | h
          · rw [h, Bool.true_and, decide_eq_decide]; omega
          · have h0 : ¬ (ep.steps.length - (p + 1) = 0) := by omega
            have h1 : ¬ (ep.steps.length ≤ p + 0 + 1) := by omega
            simp [h0, h1])
    have hx : t'.extraInfo ⟨x.s, x.a, x.r, x.logp, x.w⟩ (decide (t'.len = 0)) =
        extraLoop ((ep.steps.drop (p + 1)).map Step.start) ((ep.steps.drop (p + 1)).map (·.r))
          (decide (((ep.steps.drop (p + 1)).map Step.start).length = 0)) ep.done (n + 1) 0
          (⟨x.s, x.a, x.r, x.logp, x.w⟩, decide (t'.len = 0)) := by
      rw [← h.done_eq, ← h.n_eq]; rfl
    rw [hx]
    refine ⟨k1, ?_⟩
    intro k hk
    obtain ⟨y, e1, e2⟩ := k2 k (by omega)
    rw [Nat.zero_add] at e1 e2
    exact ⟨y, e1, e2⟩
  have hextra' : if record then ∃ xs, (if t.recordExtraInfo then some (t'.extraInfo ⟨x.s, x.a, x.r, x.logp, x.w⟩
      (decide (t'.len = 0))) else none) = some xs ∧ IsExtra n ep p xs
      else (if t.recordExtraInfo then some (t'.extraInfo ⟨x.s, x.a, x.r, x.logp, x.w⟩ (decide (t'.len = 0))) else none) =
        none := by
    rw [h.record_eq]
    cases record with
    | false => simp
    | true => simp only [if_true]; exact ⟨_, rfl, hextra rfl⟩
  by_cases hboot : p + n < ep.steps.length
  · have hgety : ep.steps[p + n]? = some ep.steps[p + n] := List.getElem?_eq_getElem hboot
    have hyv := hv _ (List.getElem_mem hboot)
    generalize ep.steps[p + n] = y at *
    have hnext : ((ep.steps.drop (p + 1)).map Step.start)[n - 1]? = some (y.s, y.a, y.logp, y.w) := by
      rw [List.getElem?_map, List.getElem?_drop, show p + 1 + (n - 1) = p + n by omega, hgety]; rfl
    have hpop : t.pop = (t', .ok ⟨x.s, x.a, x.logp, ∑ k ∈ Finset.range n, gamma ^ k * rewardAt ep.steps (p + k),
        gamma ^ n * (1 - if false then 1 else 0), some y.s, some y.a, some y.logp, x.w, 0,
        if t.recordExtraInfo then some (t'.extraInfo ⟨x.s, x.a, x.r, x.logp, x.w⟩ (decide (t'.len = 0))) else none⟩) := by
      unfold NStep.pop
      rw [if_neg (by simp [hb])]
      simp only [es, er]
      rw [← er, hrn, ← ht', if_pos (by rw [hlen', h.n_eq]; omega), h.n_eq, if_neg (by omega), hnext]
      dsimp only
      rw [h.gamman_eq, fromSingle_ok hxv.1 hgn hyv.1 hxv.2]
    refine ⟨t', _, hpop, hp, hH, ?_⟩
    refine ⟨⟨⟨x, hget, rfl, rfl, rfl, rfl⟩, rfl, ?_, ?_⟩, hextra', fun _ => hboot⟩
    · intro z hz
      rw [hgety] at hz
      cases hz
      refine ⟨rfl, rfl, rfl, ?_⟩
      simp
    · intro hz; rw [hgety] at hz; cases hz
  · have hnone : ep.steps[p + n]? = none := List.getElem?_eq_none (by omega)
    have hpop : t.pop = (t', .ok ⟨x.s, x.a, x.logp, ∑ k ∈ Finset.range n, gamma ^ k * rewardAt ep.steps (p + k),
        gamma ^ n * (1 - if true then 1 else 0), some x.s, some x.a, some x.logp, x.w, 0,
        if t.recordExtraInfo then some (t'.extraInfo ⟨x.s, x.a, x.r, x.logp, x.w⟩ (decide (t'.len = 0))) else none⟩) := by
      unfold NStep.pop
      rw [if_neg (by simp [hb])]
      simp only [es, er]
      rw [← er, hrn, ← ht', if_neg (by rw [hlen', h.n_eq]; omega)]
      dsimp only
      rw [h.gamman_eq, fromSingle_ok hxv.1 hgn hxv.1 hxv.2]
      rfl
    refine ⟨t', _, hpop, hp, hH, ?_⟩
    refine ⟨⟨⟨x, hget, rfl, rfl, rfl, rfl⟩, rfl, ?_, ?_⟩, hextra', ?_⟩
    · intro z hz
      rw [hnone] at hz; cases hz
    · intro _; exact ⟨by simp, rfl, rfl, rfl⟩
    · intro hf
      rcases hlong with h | h
      · rw [hf] at h; cases h
      · omega

/-- The transitions `seg` are those of the first steps of the episode. -/
def Segment (n : Nat) (gamma : K) (record : Bool) (ep : Episode σ α K) (seg : List (Out σ α K)) : Prop :=
  seg.length ≤ ep.steps.length ∧ ∀ k o, seg[k]? = some o → Correct n gamma record ep k o

/-- A finished episode that was popped completely. -/
def Complete (n : Nat) (gamma : K) (record : Bool) (ep : Episode σ α K) (seg : List (Out σ α K)) : Prop :=
  ep.done = true ∧ ep.steps ≠ [] ∧ seg.length = ep.steps.length ∧ Segment n gamma record ep seg

/-- The invariant of histories. -/
structure NInv (n : Nat) (gamma : K) (record : Bool) (t : NStep σ α K) (eps : List (Episode σ α K))
    (outs : List (Out σ α K)) (pre : List (Episode σ α K)) (last : Episode σ α K) (segs : List (List (Out σ α K)))
    (seg : List (Out σ α K)) : Prop where
  shape : (eps = pre ++ [last] ∧ last.steps ≠ []) ∨ (eps = [] ∧ pre = [] ∧ last = ⟨[], false⟩)
  outs_eq : outs = segs.flatten ++ seg
  full : List.Forall₂ (Complete n gamma record) pre segs
  cur : Segment n gamma record last seg
  hold : Holding n gamma record t last seg.length
  valid : ∀ x ∈ last.steps, x.Valid

theorem segment_snoc {n : Nat} {gamma : K} {record : Bool} {ep : Episode σ α K} {seg : List (Out σ α K)} {o : Out σ α K}
    (h : Segment n gamma record ep seg) (hlt : seg.length < ep.steps.length) (ho : Correct n gamma record ep seg.length o) :
    Segment n gamma record ep (seg ++ [o]) := by
  refine ⟨by simp; omega, ?_⟩
  intro k o' hk
  by_cases hks : k < seg.length
  · rw [List.getElem?_append_left hks] at hk
    exact h.2 k o' hk
  · have hk2 : k < (seg ++ [o]).length := (List.getElem?_eq_some_iff.1 hk).1
    simp at hk2
    have : k = seg.length := by omega
    subst this
    simp at hk
    exact hk ▸ ho

section
variable {n : Nat} {gamma : K} {record : Bool} {t t' : NStep σ α K} {eps pre : List (Episode σ α K)} {last : Episode σ α K}
  {outs seg : List (Out σ α K)} {segs : List (List (Out σ α K))}

theorem NInv.pop (h : NInv n gamma record t eps outs pre last segs seg) (hn : 0 < n) (hg : 0 ≤ gamma ∧ gamma ≤ 1)
    (hb : t.bool = true) : ∃ t' o, t.pop = (t', .ok o) ∧ t'.len + 1 = t.len ∧
      NInv n gamma record t' eps (outs ++ [o]) pre last segs (seg ++ [o]) := by
  obtain ⟨t', o, e, hlt, hH, hC⟩ := h.hold.pop hn hg h.valid hb
  refine ⟨t', o, e, ?_, h.shape, by rw [h.outs_eq, List.append_assoc], h.full, segment_snoc h.cur hlt hC, by simpa using hH, h.valid⟩
  simp only [NStep.len, hH.s_eq, h.hold.s_eq, List.length_map, List.length_drop]
  omega

theorem NInv.flushLoop (hn : 0 < n) (hg : 0 ≤ gamma ∧ gamma ≤ 1) (fuel : Nat) :
    ∀ {t : NStep σ α K} {acc seg : List (Out σ α K)}, NInv n gamma record t eps (outs ++ acc) pre last segs seg →
      t.len < fuel → ∃ t' os seg', NStep.flushLoop fuel t acc = (t', .ok os) ∧ t'.bool = false ∧
        NInv n gamma record t' eps (outs ++ os) pre last segs seg' := by
  induction fuel with
  | zero => intro t acc seg _ h; omega
  | succ fuel ih =>
    intro t acc seg h hlt
    rw [NStep.flushLoop]
    by_cases hb : t.bool = false
    · rw [if_pos hb]
      exact ⟨t, acc, seg, rfl, hb, h⟩
    · rw [if_neg hb]
      obtain ⟨t', o, e, hl, hI⟩ := h.pop hn hg (by simpa using hb)
      rw [e]
      dsimp only
      rw [List.append_assoc] at hI
      exact ih hI (by omega)

theorem NInv.flush (h : NInv n gamma record t eps outs pre last segs seg) (hn : 0 < n) (hg : 0 ≤ gamma ∧ gamma ≤ 1)
    (hb : t.bool = true) : ∃ t' os seg', t.flush = (t', .ok os) ∧ t'.bool = false ∧
        NInv n gamma record t' eps (outs ++ os) pre last segs seg' := by
  unfold NStep.flush
  rw [if_neg (by simp [hb])]
  exact NInv.flushLoop hn hg _ (acc := []) (by simpa using h) (by omega)

theorem pop_of_not_bool (hb : t.bool = false) : t.pop = (t, .error .insufficientCache) := by
  unfold NStep.pop; rw [if_pos hb]

theorem flush_of_not_bool (hb : t.bool = false) : t.flush = (t, .error .insufficientCache) := by
  unfold NStep.flush; rw [if_pos hb]

theorem NHistory.inv (hn : 0 < n) (hg : 0 ≤ gamma ∧ gamma ≤ 1) (h : NHistory n gamma record t eps outs) :
    ∃ pre last segs seg, NInv n gamma record t eps outs pre last segs seg := by
  induction h with
  | init =>
    exact ⟨[], ⟨[], false⟩, [], [], .inr ⟨rfl, rfl, rfl⟩, rfl, .nil, ⟨by simp, by simp⟩,
      ⟨rfl, rfl, rfl, rfl, rfl, rfl, rfl, rfl⟩, by simp⟩
  | reset _ ih =>
    obtain ⟨pre, last, segs, seg, hI⟩ := ih
    have hh := hI.hold
    refine ⟨[], ⟨[], false⟩, [], [], .inr ⟨rfl, rfl, rfl⟩, rfl, .nil, ⟨by simp, by simp⟩, ⟨hh.n_eq, hh.record_eq,
      hh.gamma_eq, ?_, ?_, rfl, rfl, rfl⟩, by simp⟩
    · simp [NStep.reset, hh.n_eq, hh.gamma_eq]
    · simp [NStep.reset, hh.n_eq, hh.gamma_eq]
  | @addFirst t t' eps outs x done _ hlast hv hadd ih =>
    obtain ⟨pre, last, segs, seg, hI⟩ := ih
    have hh := hI.hold
    have hlen : t.len = last.steps.length - seg.length := by simp [NStep.len, hh.s_eq]
    unfold NStep.add at hadd
    split at hadd
    · cases hadd
    · rename_i hc
      injection hadd with hadd _
      have hempty : last.steps.drop seg.length = [] ∧ (eps = pre ++ [last] → Complete n gamma record last seg) := by
        rcases hI.shape with ⟨hs, hne⟩ | ⟨_, _, hs⟩
        · have hd : last.done = true := hlast last (by rw [hs]; simp)
          simp [hh.done_eq, hd, hlen] at hc
          have := hI.cur.1
          exact ⟨List.drop_of_length_le (by omega), fun _ => ⟨hd, hne, by omega, hI.cur⟩⟩
        · refine ⟨by simp [hs], ?_⟩
          intro he
          have h0 : eps = [] := by assumption
          rw [h0] at he; simp at he
      have hH : Holding n gamma record t' ⟨[x], done⟩ 0 := by
        subst hadd
        refine ⟨hh.n_eq, hh.record_eq, hh.gamma_eq, hh.gammas_eq, hh.gamman_eq, ?_, ?_, rfl⟩
        · simp [hh.s_eq, hempty.1, Step.start]
        · simp [hh.r_eq, hempty.1]
      rcases hI.shape with ⟨hs, hne⟩ | ⟨hs, hpre, hl⟩
      · refine ⟨pre ++ [last], ⟨[x], done⟩, segs ++ [seg], [], .inl ⟨by rw [hs], by simp⟩, ?_, ?_, ⟨by simp, by simp⟩, hH,
          by simpa using hv⟩
        · rw [hI.outs_eq]; simp
        · exact List.rel_append hI.full (.cons (hempty.2 hs) .nil)
      · have hseg : seg = [] := by
          have := hI.cur.1
          rw [hl] at this
          simpa using this
        refine ⟨pre, ⟨[x], done⟩, segs, [], .inl ⟨by rw [hs, hpre], by simp⟩, ?_, hI.full, ⟨by simp, by simp⟩, hH,
          by simpa using hv⟩
        rw [hI.outs_eq, hseg]
  | @addNext t t' eps steps outs x done _ hv hadd ih =>
    obtain ⟨pre, last, segs, seg, hI⟩ := ih
    have hh := hI.hold
    rcases hI.shape with ⟨hs, hne⟩ | ⟨hs, _, _⟩
    · obtain ⟨hs1, hs2⟩ := List.append_inj' hs rfl
      injection hs2 with hs2 _
      subst hs1 hs2
      unfold NStep.add at hadd
      rw [if_neg (by simp [hh.done_eq])] at hadd
      injection hadd with hadd _
      subst hadd
      refine ⟨eps, ⟨steps ++ [x], done⟩, segs, seg, .inl ⟨rfl, by simp⟩, hI.outs_eq, hI.full, ⟨?_, ?_⟩, ?_, ?_⟩
      · have := hI.cur.1
        simp at this ⊢; omega
      · intro k o hk
        exact (hI.cur.2 k o hk).extend x done
      · have hle : seg.length ≤ steps.length := hI.cur.1
        refine ⟨hh.n_eq, hh.record_eq, hh.gamma_eq, hh.gammas_eq, hh.gamman_eq, ?_, ?_, rfl⟩
        · simp [hh.s_eq, List.drop_append_of_le_length hle, Step.start]
        · simp [hh.r_eq, List.drop_append_of_le_length hle]
      · intro y hy
        rcases List.mem_append.1 hy with hy | hy
        · exact hI.valid y hy
        · rw [List.mem_singleton.1 hy]; exact hv
    · simp at hs
  | @addFails t t' eps outs x done e _ hadd ih =>
    unfold NStep.add at hadd
    split at hadd
    · injection hadd with hadd _
      rw [← hadd]; exact ih
    · injection hadd with _ h; cases h
  | @pop t t' eps outs o _ hpop ih =>
    obtain ⟨pre, last, segs, seg, hI⟩ := ih
    cases hb : t.bool with
    | false => rw [pop_of_not_bool hb] at hpop; injection hpop with _ h; cases h
    | true =>
      obtain ⟨t'', o', e, _, hI'⟩ := hI.pop hn hg hb
      rw [e] at hpop
      injection hpop with h1 h2
      injection h2 with h2
      subst h1 h2
      exact ⟨_, _, _, _, hI'⟩
  | @popFails t t' eps outs e _ hpop ih =>
    obtain ⟨pre, last, segs, seg, hI⟩ := ih
    cases hb : t.bool with
    | false =>
      rw [pop_of_not_bool hb] at hpop
      injection hpop with h _
      subst h
      exact ⟨_, _, _, _, hI⟩
    | true =>
      obtain ⟨t'', o', e, _, hI'⟩ := hI.pop hn hg hb
      rw [e] at hpop
      injection hpop with h1 h2
      cases h2
  | @flush t t' eps outs os _ hpop ih =>
    obtain ⟨pre, last, segs, seg, hI⟩ := ih
    cases hb : t.bool with
    | false => rw [flush_of_not_bool hb] at hpop; injection hpop with _ h; cases h
    | true =>
      obtain ⟨t'', o', seg', e, _, hI'⟩ := hI.flush hn hg hb
      rw [e] at hpop
      injection hpop with h1 h2
      injection h2 with h2
      subst h1 h2
      exact ⟨_, _, _, _, hI'⟩
  | @flushFails t t' eps outs e _ hpop ih =>
    obtain ⟨pre, last, segs, seg, hI⟩ := ih
    cases hb : t.bool with
    | false =>
      rw [flush_of_not_bool hb] at hpop
      injection hpop with h _
      subst h
      exact ⟨_, _, _, _, hI⟩
    | true =>
      obtain ⟨t'', o', seg', e, _, hI'⟩ := hI.flush hn hg hb
      rw [e] at hpop
      injection hpop with h1 h2
      cases h2

end

end Coax.RewardTracing
