import Verif.Policy.Regularizers
import Verif.Policy.Objectives
import Verif.Dists.CategoricalProps
import Verif.RewardTracing.NStepProps
import Mathlib.Algebra.BigOperators.Fin
import Mathlib.Data.List.Sort

/-! Properties C57 (n-step entropy mask) and C65 (entropy and KL regularizers). -/

namespace Coax.Pol

/-- The episode has ended before step `k`: one of the steps before it is flagged. -/
def EndedBefore (dones : List Bool) (k : Nat) : Prop := ∃ j < k, dones[j]? = some true

instance (dones : List Bool) (k : Nat) : Decidable (EndedBefore dones k) :=
  decidable_of_iff (∃ j : Fin k, dones[j.1]? = some true) ⟨fun ⟨j, h⟩ => ⟨j.1, j.2, h⟩, fun ⟨j, h, e⟩ => ⟨⟨j, h⟩, e⟩⟩

/-- What the n-step entropy should be: the discounted entropies of the selected steps that come before the end of the episode. -/
def specEntropy (gamma : ℝ) (n : List Nat) (H : Nat → ℝ) (dones : List Bool) : ℝ :=
  (n.map (fun k => if EndedBefore dones k then 0 else gamma ^ k * H k)).sum

/-- The mask that the code computes: a selected step is masked out if an earlier entry of the selection is flagged. -/
def Counted (n : List Nat) (dones : List Bool) (i : Nat) : Prop := ∀ j k, j < i → n[j]? = some k → dones[k]? ≠ some true

theorem cumsum_length (acc : ℝ) (l : List Bool) : (cumsum acc l).length = l.length := by
  induction l generalizing acc with
  | nil => rfl
  | cons d l ih => simp [cumsum, ih]

theorem cumsum_get (l : List Bool) (acc : ℝ) (i : Nat) (hi : i < l.length) :
    (cumsum acc l)[i]'(by rw [cumsum_length]; exact hi) = acc + ((l.take (i + 1)).countP id : ℝ) := by
  induction l generalizing acc i with
  | nil => simp at hi
  | cons d l ih =>
    cases i with
    | zero => cases d <;> simp [cumsum]
    | succ i =>
      simp only [cumsum, List.getElem_cons_succ]
      rw [ih _ i (by simpa using hi)]
      rw [List.take_succ_cons, List.countP_cons]
      cases d
      · simp
      · simp; ring

theorem validFromDone_length (l : List Bool) : (validFromDone l).length = l.length := by
  cases l with
  | nil => rfl
  | cons d l => simp [validFromDone, cumsum_length]

open Classical in
theorem validFromDone_get (l : List Bool) (i : Nat) (hi : i < l.length) :
    (validFromDone l)[i]'(by rw [validFromDone_length]; exact hi) = if ∃ j < i, l[j]? = some true then 0 else 1 := by
  cases l with
  | nil => simp at hi
  | cons d l =>
    cases i with
    | zero => simp [validFromDone]
    | succ i =>
      have hlen : i < (d :: l).dropLast.length := by simpa using hi
      simp only [validFromDone, List.getElem_cons_succ, List.getElem_map]
      rw [cumsum_get _ _ _ hlen, zero_add]
      have htake : (d :: l).dropLast.take (i + 1) = (d :: l).take (i + 1) := by
        rw [List.dropLast_eq_take, List.take_take]
        congr 1
        simp at hi ⊢; omega
      rw [htake]
      split_ifs with h
      · obtain ⟨j, hj, e⟩ := h
        have : 0 < ((d :: l).take (i + 1)).countP id := by
          rw [List.countP_pos_iff]
          refine ⟨true, ?_, rfl⟩
          rw [List.mem_iff_getElem?]
          exact ⟨j, by rw [List.getElem?_take_of_lt hj]; exact e⟩
        have : (1 : ℝ) ≤ (((d :: l).take (i + 1)).countP id : ℝ) := by exact_mod_cast this
        rw [min_eq_right this]; ring
      · have : ((d :: l).take (i + 1)).countP id = 0 := by
          rw [List.countP_eq_zero]
          intro x hx hx'
          obtain ⟨j, hj⟩ := List.mem_iff_getElem?.1 hx
          rw [List.getElem?_take] at hj
          split at hj
          · next hlt => exact h ⟨j, hlt, by rw [hj]; simpa using hx'⟩
          · cases hj
        rw [this]; simp

theorem sumNaN_some (l : List ℝ) : sumNaN (l.map some) = some l.sum := by
  induction l with
  | nil => rfl
  | cons x l ih => simp [sumNaN, ih]

theorem gammas_eq (gamma : ℝ) {n : List Nat} (h : ∀ k ∈ n, k ≤ n.getLast?.getD 0) : gammas gamma n = n.map (fun k => some (gamma ^ k)) := by
  unfold gammas
  refine List.map_congr_left fun k hk => ?_
  unfold takeReal
  rw [List.getElem?_map, List.getElem?_range (by have := h k hk; omega)]
  rfl

open Classical in
/-- C57.  What the code computes, for every selection whose last entry is its largest and within range: a selected step is counted if no step before it *in the
selection* is flagged. -/
theorem C57_value_partial (gamma : ℝ) {n : List Nat} {H : List ℝ} {dones : List Bool} (h : ∀ k ∈ n, k ≤ n.getLast?.getD 0)
    (hH : ∀ k ∈ n, k < H.length) (hd : ∀ k ∈ n, k < dones.length) :
    nstepEntropy gamma n H dones =
      some ((List.ofFn fun i : Fin n.length => if Counted n dones i then gamma ^ n[i] * H[n[i]]'(hH _ (List.getElem_mem _)) else 0).sum) := by
  unfold nstepEntropy
  rw [gammas_eq gamma h, ← sumNaN_some]
  congr 1
  apply List.ext_getElem
  · simp [validFromDone_length]
  · intro i h1 h2
    have hi : i < n.length := by simpa using h2
    have hk := hH n[i] (List.getElem_mem _)
    simp only [List.getElem_zipWith, List.getElem_zip, List.getElem_map, List.getElem_ofFn]
    rw [validFromDone_get _ _ (by simpa using hi)]
    unfold takeReal summand
    rw [List.getElem?_eq_getElem hk]
    simp only
    have hiff : (∃ j < i, (n.map (takeBool dones))[j]? = some true) ↔ ¬ Counted n dones i := by
      unfold Counted
      push Not
      constructor
      · rintro ⟨j, hj, e⟩
        rw [List.getElem?_map, List.getElem?_eq_getElem (by omega)] at e
        refine ⟨j, n[j], hj, List.getElem?_eq_getElem _, ?_⟩
        have hd' := hd n[j] (List.getElem_mem _)
        simp only [takeBool, List.getElem?_eq_getElem hd', Option.map_some, Option.getD_some] at e ⊢
        exact e
      · rintro ⟨j, k, hj, e, e'⟩
        exact ⟨j, hj, by rw [List.getElem?_map, e]; simp [takeBool, e']⟩
    by_cases hc : Counted n dones i
    · rw [if_neg (by rw [hiff]; exact not_not.2 hc), if_pos hc, mul_one]; rfl
    · rw [if_pos (hiff.2 hc), if_neg hc, mul_zero]

/-- C57.  For the selections `0, 1, …, m` the mask is right, for all done patterns. -/
theorem C57_contiguous_partial (gamma : ℝ) (m : Nat) {H : List ℝ} {dones : List Bool} (hH : m < H.length) (hd : m < dones.length) :
    nstepEntropy gamma (List.range (m + 1)) H dones = some (specEntropy gamma (List.range (m + 1)) (fun k => H[k]?.getD 0) dones) := by
  classical
  rw [C57_value_partial gamma (n := List.range (m + 1)) (H := H) (dones := dones) (by simp [List.getLast?_range])
    (by simp; omega) (by simp; omega)]
  congr 2
  apply List.ext_getElem (by simp)
  intro i h1 h2
  have hi : i < m + 1 := by simpa using h2
  simp only [List.getElem_ofFn, List.getElem_map, List.getElem_range, Fin.getElem_fin]
  have hiff : Counted (List.range (m + 1)) dones i ↔ ¬ EndedBefore dones i := by
    unfold Counted EndedBefore
    push Not
    constructor
    · intro h j hj
      exact h j j hj (List.getElem?_range (by omega))
    · intro h j k hj e
      rw [List.getElem?_range (by omega)] at e
      cases e
      exact h j hj
  rw [List.getElem?_eq_getElem (by omega)]
  by_cases hc : EndedBefore dones i
  · rw [if_neg (by rw [hiff]; exact not_not.2 hc), if_pos hc]
  · rw [if_pos (hiff.2 hc), if_neg hc]; rfl

/-- The done pattern of an episode that ends at step `e`, as the reward tracer records it: flagged from there on. -/
def endsAt (len e : Nat) : List Bool := (List.range len).map (fun k => decide (e ≤ k))

theorem endsAt_get {len e k : Nat} (h : k < len) : (endsAt len e)[k]? = some (decide (e ≤ k)) := by
  unfold endsAt
  rw [List.getElem?_map, List.getElem?_range h]; rfl

theorem endedBefore_endsAt {len e k : Nat} (h : k ≤ len) : EndedBefore (endsAt len e) k ↔ e < k := by
  constructor
  · rintro ⟨j, hj, e1⟩
    rw [endsAt_get (by omega)] at e1
    simp at e1; omega
  · intro he
    exact ⟨e, he, by rw [endsAt_get (by omega)]; simp⟩

theorem counted_endsAt {len e : Nat} {n : List Nat} (hl : ∀ k ∈ n, k < len) {i : Nat} (hi : i < n.length) :
    Counted n (endsAt len e) i ↔ ∀ j, (h : j < i) → n[j] < e := by
  unfold Counted
  constructor
  · intro h j hj
    have := h j n[j] hj (List.getElem?_eq_getElem _)
    rw [endsAt_get (hl _ (List.getElem_mem _))] at this
    simpa using this
  · intro h j k hj hk
    rw [List.getElem?_eq_getElem (by omega)] at hk
    cases hk
    rw [endsAt_get (hl _ (List.getElem_mem _))]
    simpa using h j hj

/-- C57.  With the done patterns that occur and increasing selections, a step before the end of the episode is never masked out, and of the steps after the end at
most one is counted, the first selected. -/
theorem C57_one_off_partial {len e : Nat} {n : List Nat} (hn : n.Pairwise (· < ·)) (hl : ∀ k ∈ n, k < len) {i : Nat} (hi : i < n.length) :
    (¬ EndedBefore (endsAt len e) n[i] → Counted n (endsAt len e) i) ∧
    (∀ i', i < i' → i' < n.length → EndedBefore (endsAt len e) n[i] → ¬ Counted n (endsAt len e) i') := by
  have hlt : ∀ j, (h : j < i) → n[j] < n[i] := fun j hj => List.pairwise_iff_getElem.1 hn j i _ _ hj
  rw [endedBefore_endsAt (hl _ (List.getElem_mem _)).le]
  refine ⟨fun h => (counted_endsAt hl hi).2 fun j hj => ?_, fun i' h1 h2 h3 h4 => ?_⟩
  · have := hlt j hj
    omega
  · have := (counted_endsAt hl h2).1 h4 i h1
    omega

/-- C57.  The mask is right for all episodes exactly if the selection is `0, 1, …, m`: every selection with a gap, and every one that does not start at 0, counts
the entropy of a step that does not exist. -/
theorem C57_right_iff {len : Nat} {n : List Nat} (hn : n.Pairwise (· < ·)) (hl : ∀ k ∈ n, k < len) :
    (∀ e, ∀ i, (h : i < n.length) → (Counted n (endsAt len e) i ↔ ¬ EndedBefore (endsAt len e) n[i])) ↔ n = List.range n.length := by
  constructor
  · intro h
    apply List.ext_getElem (by simp)
    intro i h1 h2
    rw [List.getElem_range]
    clear h2
    induction i with
    | zero =>
      by_contra hne
      have h0 := (h 0 0 h1).1 ((counted_endsAt hl h1).2 (by intro j hj; omega))
      rw [endedBefore_endsAt (hl _ (List.getElem_mem _)).le] at h0
      omega
    | succ i ih =>
      have hi : i < n.length := by omega
      have hprev := ih hi
      have hlt := List.pairwise_iff_getElem.1 hn i (i + 1) hi h1 (by omega)
      by_contra hne
      have h0 := (h (i + 1) (i + 1) h1).1 ((counted_endsAt hl h1).2 (by
        intro j hj
        rcases Nat.lt_succ_iff_lt_or_eq.1 hj with hj' | hj'
        · have := List.pairwise_iff_getElem.1 hn j i (by omega) hi hj'
          omega
        · subst hj'; omega))
      rw [endedBefore_endsAt (hl _ (List.getElem_mem _)).le] at h0
      omega
  · intro h e i hi
    have hget : ∀ j, (hj : j < n.length) → n[j] = j := by
      intro j hj
      have : n[j]? = (List.range n.length)[j]? := by rw [← h]
      rw [List.getElem?_eq_getElem hj, List.getElem?_range hj] at this
      simpa using this
    rw [counted_endsAt hl hi, endedBefore_endsAt (hl _ (List.getElem_mem _)).le, hget i hi]
    constructor
    · intro h'
      by_contra hc
      have := h' e (by omega)
      rw [hget e (by omega)] at this
      omega
    · intro h' j hj
      rw [hget j (by omega)]; omega

/-- The done patterns are those of the tracer: the `extra_info` of step `t` of a finished episode of `L` steps has the pattern of an episode ending at step `L - 1 - t`
from the current one. -/
theorem tracer_endsAt {σ α K : Type _} {n : Nat} {ep : Coax.RewardTracing.Episode σ α K} {t : Nat} {xs : List (Coax.RewardTracing.Step σ α K × Bool)}
    (h : Coax.RewardTracing.IsExtra n ep t xs) (hd : ep.done = true) :
    xs.map (·.2) = endsAt (n + 1) (ep.steps.length - 1 - t) := by
  apply List.ext_getElem?
  intro k
  by_cases hk : k ≤ n
  · obtain ⟨x, -, e⟩ := h.2 k hk
    rw [List.getElem?_map, e, endsAt_get (by omega)]
    simp only [Option.map_some, hd, Bool.true_and]
    congr 2
    simp; omega
  · rw [List.getElem?_eq_none (by simp [h.1]; omega), List.getElem?_eq_none (by simp [endsAt]; omega)]

/-- C57.  False as stated: with `n = [2]`, `extra_info` recorded by a 2-step tracer for the last transition of an episode, the regularizer counts an entropy
though the episode had ended before. -/
theorem C57_counterexample : ∃ (t t' : Coax.RewardTracing.NStep Unit Unit ℚ) (o : Coax.RewardTracing.Out Unit Unit ℚ) (xs : List (Coax.RewardTracing.Step Unit Unit ℚ × Bool)) (H : List ℝ),
    Coax.RewardTracing.NHistory 2 1 true t [⟨[⟨(), (), 0, 0, 1⟩], true⟩] [] ∧ t.pop = (t', .ok o) ∧ o.extraInfo = some xs ∧ EndedBefore (xs.map (·.2)) 2 ∧
    nstepReg 1 1 [2] .type2 2 (some (H, xs.map (·.2))) = .ok (some (-1)) ∧ specEntropy 1 [2] (fun k => H[k]?.getD 0) (xs.map (·.2)) = 0 := by
  let t0 : Coax.RewardTracing.NStep Unit Unit ℚ := Coax.RewardTracing.NStep.init 2 1 true
  let t : Coax.RewardTracing.NStep Unit Unit ℚ := (t0.add ⟨(), (), 0, 0, 1⟩ true).1
  have hp : ∃ o, t.pop = (t.pop.1, .ok o) ∧ decide (o.extraInfo.map (fun xs => xs.map (·.2)) = some [true, true, true]) = true :=
    Coax.RewardTracing.result_of t.pop (fun o => decide (o.extraInfo.map (fun xs => xs.map (·.2)) = some [true, true, true])) (by decide +kernel)
  obtain ⟨o, e, ho⟩ := hp
  have ho := of_decide_eq_true ho
  cases hx : o.extraInfo with
  | none => rw [hx] at ho; cases ho
  | some xs =>
    rw [hx] at ho
    have ho : xs.map (·.2) = [true, true, true] := by simpa using ho
    refine ⟨t, t.pop.1, o, xs, [1, 1, 1], ?_, e, hx, ?_, ?_, ?_⟩
    · exact .addFirst (t := t0) _ true .init (by simp) ⟨by norm_num, by norm_num⟩ (Prod.ext rfl (by decide +kernel))
    · rw [ho]; exact ⟨0, by omega, rfl⟩
    · rw [ho]
      norm_num [nstepReg, nstepEntropy, gammas, validFromDone, takeReal, takeBool, summand, sumNaN, cumsum, List.range_succ]
    · rw [ho]
      unfold specEntropy
      simp only [List.map_cons, List.map_nil, List.sum_cons, List.sum_nil, add_zero]
      exact if_pos ⟨0, by omega, rfl⟩

/-- C57.  Other selections: an entry larger than the last one makes the discount, and so the result, NaN. -/
theorem C57_unsorted (beta gamma : ℝ) {n : List Nat} {H : List ℝ} {dones : List Bool} (hk : ∃ k ∈ n, n.getLast?.getD 0 < k) :
    nstepReg beta gamma n .type2 2 (some (H, dones)) = .ok none := by
  have hnone : ∀ l : List (Option ℝ), none ∈ l → sumNaN l = none := by
    intro l
    induction l with
    | nil => simp
    | cons x l ih =>
      cases x with
      | none => intro; rfl
      | some x => intro h; simp only [List.mem_cons, reduceCtorEq, false_or] at h; simp [sumNaN, ih h]
  obtain ⟨k, hk, hlt⟩ := hk
  obtain ⟨i, hi, rfl⟩ := List.getElem_of_mem hk
  have : nstepEntropy gamma n H dones = none := by
    unfold nstepEntropy
    refine hnone _ (List.mem_iff_getElem.2 ⟨i, by simp [gammas, validFromDone_length]; exact hi, ?_⟩)
    simp only [List.getElem_zipWith, List.getElem_zip, gammas, List.getElem_map]
    have : takeReal ((List.range (n.getLast?.getD 0 + 1)).map (fun i => gamma ^ i)) n[i] = none := by
      unfold takeReal; rw [List.getElem?_eq_none]; simp; omega
    rw [this]; rfl
  unfold nstepReg
  simp [this]

/-- C57.  A categorical policy (one distribution parameter) is rejected, and so are missing `extra_info` and functions that are not of type 2. -/
theorem C57_rejects (beta gamma : ℝ) (n : List Nat) (kind : FuncKind) (numParams : Nat) (x : Option (List ℝ × List Bool)) :
    (∃ v, nstepReg beta gamma n kind numParams x = .ok v) ↔ x.isSome ∧ kind = .type2 ∧ numParams = 2 := by
  unfold nstepReg
  cases x with
  | none => simp
  | some x => simp only; split_ifs <;> simp_all

/-- C65.  The entropy regularizer is `-β` times the entropy, so for `β ≥ 0` adding it to the loss rewards entropy; it lies between `-β log n` and 0. -/
theorem C65_entropy {n : Nat} {Z : List (List ℝ)} (hz : ∀ r ∈ Z, r.length = n) (hn : 0 < n) (beta : ℝ) :
    ∃ H R, Coax.Dists.entropy n Z = .ok H ∧ entropyReg n beta Z = .ok R ∧ R.length = Z.length ∧ R = H.map (fun h => -beta * h) ∧
      (0 ≤ beta → ∀ r ∈ R, -(beta * Real.log n) ≤ r ∧ r ≤ 0) := by
  obtain ⟨zs, p1, p2, -⟩ := Coax.Dists.checkShape_ok hz
  have hH : Coax.Dists.entropy n Z = .ok (zs.map Coax.Dists.entropyRow) := by unfold Coax.Dists.entropy Coax.Dists.batch1; rw [p1]
  refine ⟨_, _, hH, by unfold entropyReg; rw [hH], by simp [p2], rfl, ?_⟩
  intro hb r hr
  simp only [List.map_map, List.mem_map, Function.comp] at hr
  obtain ⟨z, -, rfl⟩ := hr
  obtain ⟨h1, h2, -⟩ := Coax.Dists.C49_entropy_bounds hn z
  constructor <;> nlinarith

/-- C65.  The KL regularizer with the default priors is the entropy regularizer plus the constant `β log n`, so both have the same gradients. -/
theorem C65_default_priors {n : Nat} {Z : List (List ℝ)} (hz : ∀ r ∈ Z, r.length = n) (hn : 0 < n) (beta : ℝ) :
    ∃ R, entropyReg n beta Z = .ok R ∧ klReg n beta Z none = .ok (R.map (fun r => beta * Real.log n + r)) := by
  obtain ⟨H, K, h1, h2, rfl⟩ := Coax.Dists.C49_default_priors hz hn
  refine ⟨H.map (fun h => -beta * h), by unfold entropyReg; rw [h1], ?_⟩
  unfold klReg
  simp only [Option.getD_none]
  rw [h2]
  simp only [List.map_map]
  congr 1
  refine List.map_congr_left fun h _ => ?_
  simp only [Function.comp]; ring

/-- C65.  With priors for each sample, the KL regularizer is never negative for `β ≥ 0`, and for `β > 0` it vanishes exactly where policy and prior are the same
distribution. -/
theorem C65_kl {n : Nat} {Zp Zq : List (List ℝ)} (hp : ∀ r ∈ Zp, r.length = n) (hq : ∀ r ∈ Zq, r.length = n) (hl : Zp.length = Zq.length) (beta : ℝ) :
    ∃ zp zq : List (Fin n → ℝ), ∃ R, Coax.Dists.checkShape n Zp = .ok zp ∧ Coax.Dists.checkShape n Zq = .ok zq ∧ klReg n beta Zp (some Zq) = .ok R ∧ R.length = Zp.length ∧
      ∀ (i : Nat) (z w : Fin n → ℝ) (r : ℝ), zp[i]? = some z → zq[i]? = some w → R[i]? = some r →
        (0 ≤ beta → 0 ≤ r) ∧ (0 < beta → (r = 0 ↔ Coax.Dists.meanRow z = Coax.Dists.meanRow w)) := by
  obtain ⟨zp, p1, p2, -⟩ := Coax.Dists.checkShape_ok hp
  obtain ⟨zq, q1, q2, -⟩ := Coax.Dists.checkShape_ok hq
  have hlen : zp.length = zq.length := by omega
  have hK : Coax.Dists.klDivergence n Zp Zq = .ok (List.zipWith Coax.Dists.klRow zp zq) := by
    unfold Coax.Dists.klDivergence Coax.Dists.batch2
    rw [p1]; simp only; rw [q1]; simp only; rw [if_pos hlen]
  refine ⟨zp, zq, _, p1, q1, by unfold klReg; simp only [Option.getD_some]; rw [hK], by simp [← p2, hlen], ?_⟩
  intro i z w r hz hw hr
  rw [List.getElem?_map, List.getElem?_zipWith, hz, hw] at hr
  simp only [Option.map_some, Option.some.injEq] at hr
  subst hr
  obtain ⟨h1, h2⟩ := Coax.Dists.C49_kl_nonneg z w
  refine ⟨fun hb => mul_nonneg hb h1, fun hb => ?_⟩
  rw [mul_eq_zero, or_iff_right hb.ne', h2]

/-- C65.  `batch_eval` rejects every function that is not of type 2, those of type 1 included. -/
theorem C65_batch_eval {D R : Type _} (kind : FuncKind) (d : D) (f : D → Except Err R) :
    baseBatchEval kind (.ok d) f = if kind = .type2 then f d else .error .typeError := by
  cases kind <;> rfl

/-- The hypotheses are met: two samples over two actions. -/
example : ∃ R, entropyReg 2 1 [[0, 0], [1, 0]] = .ok R ∧ klReg 2 1 [[0, 0], [1, 0]] none = .ok (R.map (fun r => 1 * Real.log (2 : Nat) + r)) :=
  C65_default_priors (by simp) (by omega) 1

/-- An episode that ends within the selected steps. -/
example : nstepEntropy (1/2) (List.range 3) [1, 1, 1] [false, true, true] = some (3/2) := by
  rw [C57_contiguous_partial (1/2) 2 (by simp) (by simp)]
  have h0 : ¬ EndedBefore [false, true, true] 0 := by decide
  have h1 : ¬ EndedBefore [false, true, true] 1 := by decide
  have h2 : EndedBefore [false, true, true] 2 := by decide
  norm_num [specEntropy, List.range_succ, h0, h1, h2]

end Coax.Pol
