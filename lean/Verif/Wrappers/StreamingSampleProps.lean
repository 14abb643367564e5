import Verif.Wrappers.StreamingSample
import Mathlib.MeasureTheory.Integral.IntervalIntegral.Basic
import Mathlib.Data.List.Nodup
import Mathlib.Algebra.BigOperators.Group.List.Basic

/-! Property C39 of `StreamingSample`. -/

namespace Coax.Streaming

set_option linter.unusedSectionVars false

variable {K A : Type _} [Field K] [LinearOrder K]

/-- `Seen n x m s`: the sample `s` of size `n` was reset (or created) and then fed `x 0, …, x (m-1)`, with some random draws
of which `randint` is in range. -/
inductive Seen (K : Type _) [Field K] [LinearOrder K] (n : Nat) (x : Nat → A) : Nat → Sample A → Prop
  | new : Seen K n x 0 (new n)
  | reset {s : Sample A} : s.maxlen = n → Seen K n x 0 s.reset
  | append {m s} (u : K) (i : Nat) : Seen K n x m s → i < n → Seen K n x (m + 1) (s.append (x m) u i)

/-- The held items are items of the stream at pairwise different positions below `m`. -/
def Holds (x : Nat → A) (m : Nat) (held : List A) : Prop := ∃ ps : List Nat, ps.Nodup ∧ (∀ p ∈ ps, p < m) ∧ held = ps.map x

theorem nodup_set {ps : List Nat} (h : ps.Nodup) (i m : Nat) (hm : ∀ p ∈ ps, p < m) : (ps.set i m).Nodup := by
  rw [List.nodup_iff_getElem?_ne_getElem?]
  intro a b hab hb
  rw [List.length_set] at hb
  rw [List.getElem?_set, List.getElem?_set]
  have e := List.nodup_iff_getElem?_ne_getElem?.1 h a b hab hb
  have hne : ∀ c : Nat, ps[c]? ≠ some m := by
    intro c hc
    have := hm m (List.mem_of_getElem? hc)
    omega
  have ha : a < ps.length := by omega
  by_cases hia : i = a
  · rw [if_pos hia, if_neg (show ¬ i = b by omega), if_pos (show i < ps.length by omega)]
    exact (hne b).symm
  · rw [if_neg hia]
    by_cases hib : i = b
    · rw [if_pos hib, if_pos (show i < ps.length by omega)]; exact hne a
    · rw [if_neg hib]; exact e

theorem Seen.inv {n : Nat} {x : Nat → A} {m : Nat} {s : Sample A} (h : Seen K n x m s) :
    s.maxlen = n ∧ s.count = m ∧ s.deque.length = min n m ∧ Holds x m s.deque := by
  have : s.maxlen = n ∧ s.count = m ∧ s.deque.length = min n m := by
    induction h with
    | new => exact ⟨rfl, rfl, by simp [Streaming.new]⟩
    | reset h => exact ⟨h, rfl, by simp [Sample.reset]⟩
    | append u i _ hi ih =>
      obtain ⟨h1, h2, h3⟩ := ih
      unfold Sample.append
      simp only
      split
      · rename_i hlt; rw [h1] at hlt
        refine ⟨h1, by rw [h2], ?_⟩
        simp only [List.length_append, List.length_singleton]; omega
      · rename_i hlt; rw [h1] at hlt
        split
        · exact ⟨h1, by rw [h2], by simp only [List.length_set]; omega⟩
        · exact ⟨h1, by rw [h2], by simp only; omega⟩
  refine ⟨this.1, this.2.1, this.2.2, ?_⟩
  clear this
  induction h with
  | new => exact ⟨[], List.nodup_nil, by simp, rfl⟩
  | reset _ => exact ⟨[], List.nodup_nil, by simp, rfl⟩
  | append u i _ hi ih =>
    rename_i m s _
    obtain ⟨ps, h1, h2, h3⟩ := ih
    unfold Sample.append
    simp only
    split
    · refine ⟨ps ++ [m], ?_, ?_, by simp [h3]⟩
      · rw [List.nodup_append]
        refine ⟨h1, by simp, ?_⟩
        intro a ha b hb
        simp only [List.mem_singleton] at hb
        have := h2 a ha; omega
      · intro p hp
        simp only [List.mem_append, List.mem_singleton] at hp
        rcases hp with hp | hp
        · have := h2 p hp; omega
        · omega
    · split
      · refine ⟨ps.set i m, nodup_set h1 i m h2, ?_, by rw [h3, List.map_set]⟩
        intro p hp
        rcases List.mem_or_eq_of_mem_set hp with hp | hp
        · have := h2 p hp; omega
        · omega
      · exact ⟨ps, h1, fun p hp => by have := h2 p hp; omega, h3⟩

/-- C39.  Whatever the random draws, the sample holds `min(maxlen, count)` items, all of them items seen since the last reset,
at pairwise different positions of the stream. -/
theorem C39_sample {n : Nat} {x : Nat → A} {m : Nat} {s : Sample A} (h : Seen K n x m s) :
    s.deque.length = min n m ∧ s.count = m ∧ Holds x m s.deque := ⟨h.inv.2.2.1, h.inv.2.1, h.inv.2.2.2⟩

/-- C39.  As long as no more than `maxlen` items were seen, all are held, in order. -/
theorem C39_all_held {n : Nat} {x : Nat → A} {m : Nat} {s : Sample A} (h : Seen K n x m s) (hm : m ≤ n) :
    s.deque = (List.range m).map x := by
  induction h with
  | new => rfl
  | reset _ => rfl
  | append u i hs hi ih =>
    obtain ⟨h1, h2, h3, _⟩ := hs.inv
    unfold Sample.append
    simp only
    rw [if_pos (by omega), ih (by omega), List.range_succ]
    simp

/-! ### Probability of being retained -/

open MeasureTheory

/-- The expected value of `f` after feeding `x 0, …, x (m-1)` to a new sample, when `rand` is uniform on `[0, 1]`, `randint`
uniform on `0, …, n-1`, and all draws are independent. -/
noncomputable def expect (n : Nat) (x : Nat → A) : Nat → (Sample A → ℝ) → ℝ
  | 0, f => f (new n)
  | m + 1, f => expect n x m (fun s => ∫ u in (0 : ℝ)..1, (∑ i ∈ Finset.range n, f (s.append (x m) u i)) / n)

/-- The samples that can occur. -/
theorem expect_congr (n : Nat) (x : Nat → A) (m : Nat) (f g : Sample A → ℝ) (h : ∀ s, Seen ℝ n x m s → f s = g s) :
    expect n x m f = expect n x m g := by
  induction m generalizing f g with
  | zero => exact h _ .new
  | succ m ih =>
    simp only [expect]
    apply ih
    intro s hs
    congr 1
    funext u
    congr 1
    apply Finset.sum_congr rfl
    intro i hi
    exact h _ (.append u i hs (Finset.mem_range.1 hi))

theorem expect_mul (n : Nat) (x : Nat → A) (m : Nat) (f : Sample A → ℝ) (c : ℝ) : expect n x m (fun s => f s * c) = expect n x m f * c := by
  induction m generalizing f with
  | zero => rfl
  | succ m ih =>
    simp only [expect]
    rw [← ih]
    congr 1
    funext s
    rw [← intervalIntegral.integral_mul_const]
    congr 1
    funext u
    rw [← Finset.sum_mul]; ring

theorem expect_const (n : Nat) (hn : 0 < n) (x : Nat → A) (m : Nat) (c : ℝ) : expect n x m (fun _ => c) = c := by
  have hn' : (n : ℝ) ≠ 0 := by exact_mod_cast hn.ne'
  induction m with
  | zero => rfl
  | succ m ih =>
    simp only [expect]
    rw [← ih]
    congr 1
    funext s
    simp only [Finset.sum_const, Finset.card_range, nsmul_eq_mul]
    rw [ih, intervalIntegral.integral_const, mul_div_cancel_left₀ _ hn']
    simp

theorem integral_ite (p a b : ℝ) (h0 : 0 ≤ p) (h1 : p ≤ 1) : ∫ u in (0 : ℝ)..1, (if u < p then a else b) = p * a + (1 - p) * b := by
  have e : (fun u : ℝ => if u < p then a else b) = fun u => (Set.Iio p).indicator (fun _ => a - b) u + b := by
    funext u
    simp only [Set.indicator, Set.mem_Iio]
    split <;> ring
  rw [e]
  have hi : IntervalIntegrable ((Set.Iio p).indicator (fun _ => a - b)) volume 0 1 := by
    rw [intervalIntegrable_iff]
    exact (integrableOn_const (by simp)).indicator measurableSet_Iio
  rw [intervalIntegral.integral_add hi intervalIntegrable_const, intervalIntegral.integral_const]
  rw [intervalIntegral.integral_of_le zero_le_one, integral_indicator measurableSet_Iio, Measure.restrict_restrict measurableSet_Iio]
  have : (volume : Measure ℝ).real (Set.Iio p ∩ Set.Ioc 0 1) = p := by
    rcases h1.lt_or_eq with hlt | rfl
    · have : Set.Iio p ∩ Set.Ioc (0 : ℝ) 1 = Set.Ioo 0 p := by
        ext u; simp only [Set.mem_inter_iff, Set.mem_Iio, Set.mem_Ioc, Set.mem_Ioo]
        constructor
        · rintro ⟨h1, h2, h3⟩; exact ⟨h2, h1⟩
        · rintro ⟨h1, h2⟩; exact ⟨h2, h1, by linarith⟩
      rw [this]; simp [h0]
    · have : Set.Iio 1 ∩ Set.Ioc (0 : ℝ) 1 = Set.Ioo 0 1 := by
        ext u; simp only [Set.mem_inter_iff, Set.mem_Iio, Set.mem_Ioc, Set.mem_Ioo]
        constructor
        · rintro ⟨h1, h2, h3⟩; exact ⟨h2, h1⟩
        · rintro ⟨h1, h2⟩; exact ⟨h2, h1, by linarith⟩
      rw [this]; simp
  rw [setIntegral_const, this]
  simp only [smul_eq_mul]
  ring

open Classical in
/-- 1 if the item `a` is held, otherwise 0. -/
noncomputable def held (a : A) (s : Sample A) : ℝ := if a ∈ s.deque then 1 else 0

/-- The average over the replaced position, for one appended item. -/
theorem sum_held_set {x : Nat → A} (hx : Function.Injective x) {n m : Nat} {ps : List Nat} (hnd : ps.Nodup) (hl : ps.length = n)
    (j : Nat) (hj : j < m) (c k : Nat) :
    ∑ i ∈ Finset.range n, held (x j) ⟨(ps.map x).set i (x m), k, c⟩ = if j ∈ ps then (n : ℝ) - 1 else 0 := by
  classical
  have hmem : ∀ i, x j ∈ (ps.map x).set i (x m) ↔ j ∈ ps.set i m := by
    intro i
    rw [← List.map_set, List.mem_map]
    constructor
    · rintro ⟨a, ha, hax⟩; rwa [← hx hax]
    · intro h; exact ⟨j, h, rfl⟩
  unfold held
  simp only [hmem]
  by_cases hin : j ∈ ps
  · rw [if_pos hin]
    obtain ⟨q, hq, hqj⟩ := List.getElem_of_mem hin
    have hset : ∀ i, j ∈ ps.set i m ↔ i ≠ q := by
      intro i
      constructor
      · intro hmem hiq
        subst hiq
        obtain ⟨r, hr, hrj⟩ := List.getElem_of_mem hmem
        rw [List.getElem_set] at hrj
        split at hrj
        · omega
        · rename_i hne
          rw [List.length_set] at hr
          exact hne ((List.Nodup.getElem_inj_iff hnd).1 (hqj.trans hrj.symm))
      · intro hne
        refine List.mem_of_getElem? (i := q) ?_
        rw [List.getElem?_set_ne hne, List.getElem?_eq_getElem hq, hqj]
    simp only [hset]
    rw [Finset.sum_ite, Finset.sum_const_zero, add_zero, Finset.sum_const, nsmul_eq_mul, mul_one]
    have : (Finset.range n).filter (fun i => i ≠ q) = (Finset.range n).erase q := by
      ext i; simp [Finset.mem_erase, and_comm]
    rw [this, Finset.card_erase_of_mem (Finset.mem_range.2 (by omega)), Finset.card_range]
    have : 1 ≤ n := by omega
    push_cast [this]; ring
  · rw [if_neg hin]
    apply Finset.sum_eq_zero
    intro i _
    rw [if_neg]
    intro hmem
    rcases List.mem_or_eq_of_mem_set hmem with h | h
    · exact hin h
    · omega

/-- One appended item: the new item is held with probability `n / (m+1)`, an old one stays with probability `m / (m+1)`. -/
theorem step_held {x : Nat → A} (hx : Function.Injective x) {n m : Nat} (hn : 0 < n) (hm : n ≤ m) {s : Sample A} (hs : Seen ℝ n x m s) (j : Nat) (hj : j ≤ m) :
    ∫ u in (0 : ℝ)..1, (∑ i ∈ Finset.range n, held (x j) (s.append (x m) u i)) / n =
      if j = m then (n : ℝ) / (m + 1) else held (x j) s * ((m : ℝ) / (m + 1)) := by
  classical
  obtain ⟨h1, h2, h3, ps, h4, h5, h6⟩ := hs.inv
  have hn' : (n : ℝ) ≠ 0 := by exact_mod_cast hn.ne'
  have hm1 : (0 : ℝ) < (m : ℝ) + 1 := by positivity
  have hlen : ps.length = n := by
    have := congrArg List.length h6; rw [List.length_map] at this; omega
  obtain ⟨dq, ml, ct⟩ := s
  simp only at h1 h2 h3 h6
  subst h1 h2
  have happ : ∀ (u : ℝ) (i : Nat), Sample.append ⟨dq, ml, ct⟩ (x ct) u i =
      if u < (ml : ℝ) / ((ct : ℝ) + 1) then ⟨dq.set i (x ct), ml, ct + 1⟩ else ⟨dq, ml, ct + 1⟩ := by
    intro u i
    unfold Sample.append
    simp only
    rw [if_neg (by omega)]
    push_cast
    split <;> rfl
  simp only [happ]
  have hint : ∀ u : ℝ, (∑ i ∈ Finset.range ml, held (x j) (if u < (ml : ℝ) / ((ct : ℝ) + 1) then ⟨dq.set i (x ct), ml, ct + 1⟩ else ⟨dq, ml, ct + 1⟩)) / (ml : ℝ) =
      if u < (ml : ℝ) / ((ct : ℝ) + 1) then (∑ i ∈ Finset.range ml, held (x j) ⟨dq.set i (x ct), ml, ct + 1⟩) / (ml : ℝ) else held (x j) ⟨dq, ml, ct + 1⟩ := by
    intro u
    split
    · rfl
    · rw [Finset.sum_const, Finset.card_range, nsmul_eq_mul, mul_div_cancel_left₀ _ hn']
  simp only [hint]
  rw [integral_ite _ _ _ (by positivity) (by rw [div_le_one hm1]; have : (ml : ℝ) ≤ ct := by exact_mod_cast hm
                                             linarith)]
  have hheld : held (x j) ⟨dq, ml, ct + 1⟩ = if j ∈ ps then 1 else 0 := by
    unfold held
    simp only [h6, List.mem_map]
    congr 1
    apply propext
    constructor
    · rintro ⟨a, ha, hax⟩; rwa [← hx hax]
    · intro h; exact ⟨j, h, rfl⟩
  by_cases hjm : j = ct
  · subst hjm
    rw [if_pos rfl, hheld, if_neg (fun h => by have := h5 j h; omega)]
    have : ∑ i ∈ Finset.range ml, held (x j) ⟨dq.set i (x j), ml, j + 1⟩ = (ml : ℝ) := by
      have : ∀ i ∈ Finset.range ml, held (x j) ⟨dq.set i (x j), ml, j + 1⟩ = 1 := by
        intro i hi
        unfold held
        rw [if_pos]
        simp only
        refine List.mem_of_getElem? (i := i) ?_
        rw [List.getElem?_set_self (by rw [h3]; have := Finset.mem_range.1 hi; omega)]
      rw [Finset.sum_congr rfl this]; simp
    rw [this, div_self hn']; ring
  · rw [if_neg hjm]
    have hjlt : j < ct := by omega
    rw [h6, sum_held_set hx h4 hlen j hjlt, ← h6, hheld]
    have : held (x j) ⟨dq, ml, ct⟩ = if j ∈ ps then 1 else 0 := by rw [← hheld]; rfl
    rw [this]
    split
    · field_simp; ring
    · simp

/-- C39.  With fair randomness, after `m ≥ maxlen` pairwise different items every item seen is held with probability
`maxlen / m`. -/
theorem C39_uniform {n : Nat} (hn : 0 < n) {x : Nat → A} (hx : Function.Injective x) (m : Nat) (hm : n ≤ m) (j : Nat) (hj : j < m) :
    expect n x m (held (x j)) = (n : ℝ) / m := by
  classical
  induction m, hm using Nat.le_induction with
  | base =>
    have hn' : (n : ℝ) ≠ 0 := by exact_mod_cast hn.ne'
    rw [expect_congr n x n _ (fun _ => 1), expect_const n hn, div_self hn']
    intro s hs
    unfold held
    rw [if_pos]
    rw [C39_all_held hs le_rfl]
    exact List.mem_map.2 ⟨j, List.mem_range.2 hj, rfl⟩
  | succ m hm ih =>
    simp only [expect]
    rw [expect_congr n x m _ _ (fun s hs => step_held hx hn hm hs j (by omega))]
    by_cases hjm : j = m
    · simp only [if_pos hjm]
      rw [expect_const n hn]; push_cast; rfl
    · simp only [if_neg hjm]
      rw [expect_mul, ih (by omega)]
      have hm0 : (m : ℝ) ≠ 0 := by
        have : m ≠ 0 := by omega
        exact_mod_cast this
      push_cast
      field_simp

/-- C39.  Before that every item is held with certainty. -/
theorem C39_certain {n : Nat} (hn : 0 < n) (x : Nat → A) (m : Nat) (hm : m ≤ n) (j : Nat) (hj : j < m) : expect n x m (held (x j)) = 1 := by
  classical
  rw [expect_congr n x m _ (fun _ => 1), expect_const n hn]
  intro s hs
  unfold held
  rw [if_pos]
  rw [C39_all_held hs hm]
  exact List.mem_map.2 ⟨j, List.mem_range.2 hj, rfl⟩

/-- A sample of size 2 that has seen 0, 1, 2 and replaced its item 0. -/
example : Seen ℚ 2 (fun i => 10 * i) 3 ⟨[20, 10], 2, 3⟩ := by
  have h := Seen.append (K := ℚ) (n := 2) (x := fun i => 10 * i) 0 0 (.append 0 0 (.append 0 0 .new (by decide)) (by decide)) (by decide)
  have e : ((((new 2).append (10 * 0) (0 : ℚ) 0).append (10 * (0 + 1)) (0 : ℚ) 0).append (10 * (0 + 1 + 1)) (0 : ℚ) 0) = (⟨[20, 10], 2, 3⟩ : Sample Nat) := by
    decide +kernel
  rw [e] at h
  exact h

/-- The probability that the first of five items is in a sample of size two. -/
example : expect 2 (fun i : Nat => i) 5 (held 0) = 2 / 5 := by
  have := C39_uniform (n := 2) (by decide) (x := fun i : Nat => i) (fun _ _ h => h) 5 (by decide) 0 (by decide)
  rw [this]; norm_num

end Coax.Streaming
