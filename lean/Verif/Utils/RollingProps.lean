import Verif.Utils.Rolling
import Mathlib.Algebra.BigOperators.Intervals
import Mathlib.Algebra.BigOperators.Ring.Finset
import Mathlib.Algebra.Order.BigOperators.Group.Finset
import Mathlib.Tactic.FieldSimp
import Mathlib.Tactic.Linarith
import Mathlib.Tactic.LinearCombination
import Mathlib.Tactic.Ring

/-! Property C31: `RollingAverage` is the mean of the last `n` observations, `ExponentialAverage` a convex combination. -/

namespace Coax.Rolling

set_option linter.unusedSectionVars false

variable {K : Type _} [Field K] [LinearOrder K] [IsStrictOrderedRing K]

/-! ### Specification -/

/-- `AvgRun n x m a`: an average created with window `n` was updated with `x 0, ..., x (m - 1)`, no call raised, and the
object is now `a`; `a.value` is also what the last call returned. -/
inductive AvgRun (n : Int) (x : Nat → K) : Nat → Avg K → Prop
  | new {a} : Avg.new n = .ok a → AvgRun n x 0 a
  | update {m a a' v} : AvgRun n x m a → a.update (x m) = (a', .ok v) → a'.value = v → AvgRun n x (m + 1) a'

/-- The same for `ExponentialAverage`. -/
inductive ExpRun (n : Int) (x : Nat → K) : Nat → Exp K → Prop
  | new : ExpRun n x 0 (Exp.new n)
  | update {m a a' v} : ExpRun n x m a → a.update (x m) = (a', .ok v) → a'.value = v → ExpRun n x (m + 1) a'

/-- The mean of `x i` over `lo ≤ i < hi`. -/
def mean (x : Nat → K) (lo hi : Nat) : K := (∑ i ∈ Finset.Ico lo hi, x i) / ((hi - lo : Nat) : K)

/-! ### Helpers -/

theorem mean_succ (x : Nat → K) (m : Nat) :
    (if m = 0 then 0 else mean x 0 m) + (x m - (if m = 0 then 0 else mean x 0 m)) / ((m + 1 : Nat) : K) = mean x 0 (m + 1) := by
  have hm1 : ((m : K) + 1) ≠ 0 := by positivity
  have e : mean x 0 (m + 1) = (∑ i ∈ Finset.Ico 0 m, x i + x m) / ((m : K) + 1) := by
    rw [mean, Finset.sum_Ico_succ_top (Nat.zero_le m), Nat.sub_zero]; push_cast; rfl
  rw [e]
  split
  · rename_i h0; subst h0; simp
  · rename_i h0
    have hm : (m : K) ≠ 0 := by exact_mod_cast h0
    rw [mean, Nat.sub_zero]
    push_cast
    field_simp
    ring

theorem exists_avgRun {n : Nat} (hn : 0 < n) (x : Nat → K) (m : Nat) : ∃ a : Avg K, AvgRun n x m a ∧ a.maxlen = n ∧
    a.deque = (List.range' (m - n) (min n m)).map x ∧ a.value = if m = 0 then 0 else mean x (m - n) m := by
  induction m with
  | zero =>
    refine ⟨{ value := 0, deque := [], maxlen := n }, .new ?_, rfl, by simp, by simp⟩
    simp [Avg.new]
  | succ m ih =>
    obtain ⟨a, h1, h2, h3, h4⟩ := ih
    have hnK : (n : K) ≠ 0 := by exact_mod_cast hn.ne'
    rcases Nat.lt_or_ge m n with hmn | hmn
    · have hl : a.deque.length = m := by rw [h3]; simp; omega
      have hd : dequeAppend a.maxlen a.deque (x m) = (List.range' (m + 1 - n) (min n (m + 1))).map x := by
        rw [dequeAppend, if_pos (by omega), h3]
        rw [show min n m = m by omega, show min n (m + 1) = m + 1 by omega, show m - n = 0 by omega,
          show m + 1 - n = 0 by omega, List.range'_concat]
        simp
      have hv : a.value + (x m - a.value) / ((m + 1 : Nat) : K) = mean x (m + 1 - n) (m + 1) := by
        rw [h4]
        rw [show m + 1 - n = 0 by omega, show m - n = 0 by omega, mean_succ]
      have hu : a.update (x m) = ((⟨mean x (m + 1 - n) (m + 1), (List.range' (m + 1 - n) (min n (m + 1))).map x, a.maxlen⟩ : Avg K), .ok (mean x (m + 1 - n) (m + 1))) := by
        unfold Avg.update
        rw [if_neg (by omega)]
        simp only [hd]
        have e : (List.map x (List.range' (m + 1 - n) (min n (m + 1)))).length = m + 1 := by simp; omega
        rw [e, hv]
      exact ⟨_, .update h1 hu rfl, h2, rfl, by simp⟩
    · have hl : a.deque.length = n := by rw [h3]; simp; omega
      obtain ⟨k, rfl⟩ : ∃ k, n = k + 1 := ⟨n - 1, by omega⟩
      have hq : a.deque = x (m - (k + 1)) :: (List.range' (m - k) k).map x := by
        rw [h3, show min (k + 1) m = k + 1 by omega, List.range'_succ, List.map_cons, show m - (k + 1) + 1 = m - k by omega]
      have hd : dequeAppend a.maxlen ((List.range' (m - k) k).map x) (x m) =
          (List.range' (m + 1 - (k + 1)) (min (k + 1) (m + 1))).map x := by
        rw [dequeAppend, if_pos (by simp; omega), show min (k + 1) (m + 1) = k + 1 by omega, List.range'_concat,
          show m + 1 - (k + 1) = m - k by omega]
        have e : m - k + 1 * k = m := by omega
        rw [List.map_append, List.map_singleton, e]
      have hv : a.value + (x m - x (m - (k + 1))) / (a.maxlen : K) = mean x (m + 1 - (k + 1)) (m + 1) := by
        rw [h4, if_neg (by omega), h2, mean, mean]
        rw [show m + 1 - (m + 1 - (k + 1)) = k + 1 by omega, show m - (m - (k + 1)) = k + 1 by omega]
        rw [Finset.sum_Ico_succ_top (by omega), show m + 1 - (k + 1) = m - (k + 1) + 1 by omega,
          Finset.sum_eq_sum_Ico_succ_bot (show m - (k + 1) < m by omega)]
        ring
      have hu : a.update (x m) = ((⟨mean x (m + 1 - (k + 1)) (m + 1), (List.range' (m + 1 - (k + 1)) (min (k + 1) (m + 1))).map x, a.maxlen⟩ : Avg K), .ok (mean x (m + 1 - (k + 1)) (m + 1))) := by
        unfold Avg.update
        rw [if_pos (by omega)]
        rw [hq]
        simp only [hd, hv]
      exact ⟨_, .update h1 hu rfl, h2, rfl, by simp⟩

theorem AvgRun.unique {n : Int} {x : Nat → K} {m : Nat} {a b : Avg K} (ha : AvgRun n x m a) (hb : AvgRun n x m b) : a = b := by
  induction ha generalizing b with
  | new h => cases hb with | new h' => rw [h] at h'; cases h'; rfl
  | update _ h _ ih =>
    cases hb with
    | update h1 h2 _ => rw [ih h1, h2] at h; cases h; rfl

/-- The closed form of the exponential average. -/
def smooth (n : Nat) (x : Nat → K) (m : Nat) : K :=
  if m ≤ n then mean x 0 m
  else (1 - 1 / (n : K)) ^ (m - n) * mean x 0 n + ∑ j ∈ Finset.Ico n m, 1 / (n : K) * (1 - 1 / (n : K)) ^ (m - 1 - j) * x j

theorem smooth_succ {n m : Nat} (hn : 0 < n) (hmn : n ≤ m) (x : Nat → K) :
    smooth n x (m + 1) = smooth n x m + (x m - smooth n x m) / (n : K) := by
  have key : smooth n x m = (1 - 1 / (n : K)) ^ (m - n) * mean x 0 n +
      ∑ j ∈ Finset.Ico n m, 1 / (n : K) * (1 - 1 / (n : K)) ^ (m - 1 - j) * x j := by
    unfold smooth
    split
    · have : m = n := by omega
      subst this; simp
    · rfl
  rw [key]
  unfold smooth
  rw [if_neg (by omega), Finset.sum_Ico_succ_top hmn, show m + 1 - n = (m - n) + 1 by omega, pow_succ,
    show m + 1 - 1 - m = 0 by omega, pow_zero]
  have : ∑ j ∈ Finset.Ico n m, 1 / (n : K) * (1 - 1 / (n : K)) ^ (m + 1 - 1 - j) * x j =
      (1 - 1 / (n : K)) * ∑ j ∈ Finset.Ico n m, 1 / (n : K) * (1 - 1 / (n : K)) ^ (m - 1 - j) * x j := by
    rw [Finset.mul_sum]
    refine Finset.sum_congr rfl fun j hj => ?_
    rw [Finset.mem_Ico] at hj
    rw [show m + 1 - 1 - j = (m - 1 - j) + 1 by omega, pow_succ]
    ring
  rw [this]
  ring

theorem exists_expRun {n : Nat} (hn : 0 < n) (x : Nat → K) (m : Nat) : ∃ a : Exp K, ExpRun n x m a ∧ a.maxlen = n ∧
    a.len = (min n m : Nat) ∧ a.value = if m = 0 then 0 else smooth n x m := by
  induction m with
  | zero => exact ⟨_, .new, rfl, by simp [Exp.new], by simp [Exp.new]⟩
  | succ m ih =>
    obtain ⟨a, h1, h2, h3, h4⟩ := ih
    have hlen : (if a.len < a.maxlen then a.len + 1 else a.len) = ((min n (m + 1) : Nat) : Int) := by
      rw [h2, h3]; split <;> omega
    have hv : a.value + (x m - a.value) / ((min n (m + 1) : Nat) : K) = smooth n x (m + 1) := by
      rcases Nat.lt_or_ge m n with hmn | hmn
      · have e : a.value = if m = 0 then 0 else mean x 0 m := by
          rw [h4, smooth, if_pos (show m ≤ n by omega)]
        rw [e, show min n (m + 1) = m + 1 by omega, mean_succ, smooth, if_pos (by omega)]
      · rw [smooth_succ hn hmn, h4, if_neg (by omega), show min n (m + 1) = n by omega]
    refine ⟨{ a with len := ((min n (m + 1) : Nat) : Int), value := smooth n x (m + 1) }, .update (v := smooth n x (m + 1)) h1 ?_ rfl, h2, rfl, by simp⟩
    unfold Exp.update
    simp only [hlen]
    rw [if_neg (by omega)]
    rw [Int.cast_natCast, hv]

theorem ExpRun.unique {n : Int} {x : Nat → K} {m : Nat} {a b : Exp K} (ha : ExpRun n x m a) (hb : ExpRun n x m b) : a = b := by
  induction ha generalizing b with
  | new => cases hb with | new => rfl
  | update _ h _ ih =>
    cases hb with
    | update h1 h2 _ => rw [ih h1, h2] at h; cases h; rfl

/-! ### Theorems -/

/-- C31.  With a window of at least one, no update of a `RollingAverage` ever raises. -/
theorem C31_rolling_total {n : Nat} (hn : 0 < n) (x : Nat → K) (m : Nat) : ∃ a : Avg K, AvgRun n x m a := by
  obtain ⟨a, h, _⟩ := exists_avgRun hn x m
  exact ⟨a, h⟩

/-- C31.  After `m > 0` updates the value is the mean of the last `min n m` observations. -/
theorem C31_rolling {n : Nat} (hn : 0 < n) {x : Nat → K} {m : Nat} (hm : 0 < m) {a : Avg K} (h : AvgRun n x m a) :
    a.value = (∑ i ∈ Finset.Ico (m - n) m, x i) / ((min n m : Nat) : K) := by
  obtain ⟨b, h1, _, _, h4⟩ := exists_avgRun hn x m
  rw [h.unique h1, h4, if_neg (by omega), mean]
  congr 2
  omega

/-- C31.  With a window of at least one, no update of an `ExponentialAverage` ever raises. -/
theorem C31_exponential_total {n : Nat} (hn : 0 < n) (x : Nat → K) (m : Nat) : ∃ a : Exp K, ExpRun n x m a := by
  obtain ⟨a, h, _⟩ := exists_expRun hn x m
  exact ⟨a, h⟩

/-- C31.  For the first `n` observations the exponential average is their mean. -/
theorem C31_exponential_mean {n : Nat} {x : Nat → K} {m : Nat} (hm : 0 < m) (hmn : m ≤ n) {a : Exp K} (h : ExpRun n x m a) :
    a.value = (∑ i ∈ Finset.range m, x i) / (m : K) := by
  obtain ⟨b, h1, _, _, h4⟩ := exists_expRun (show 0 < n by omega) x m
  rw [h.unique h1, h4, if_neg (by omega), smooth, if_pos hmn, mean, Nat.Ico_zero_eq_range, Nat.sub_zero]

/-- C31.  After that it is exponential smoothing with rate `1 / n`. -/
theorem C31_exponential_smoothing {n : Nat} (hn : 0 < n) {x : Nat → K} {m : Nat} (hmn : n ≤ m) {a : Exp K} (h : ExpRun n x m a) :
    a.value = (1 - 1 / (n : K)) ^ (m - n) * ((∑ i ∈ Finset.range n, x i) / (n : K)) +
      ∑ j ∈ Finset.Ico n m, 1 / (n : K) * (1 - 1 / (n : K)) ^ (m - 1 - j) * x j := by
  obtain ⟨b, h1, _, _, h4⟩ := exists_expRun hn x m
  rw [h.unique h1, h4, if_neg (by omega), smooth, mean, mean, Nat.Ico_zero_eq_range, Nat.sub_zero, Nat.sub_zero]
  split
  · have : m = n := by omega
    subst this; simp
  · simp only [Nat.Ico_zero_eq_range]

/-- C31.  The exponential average lies between any bounds on the observations seen. -/
theorem C31_exponential_bounds {n : Nat} (hn : 0 < n) {x : Nat → K} {m : Nat} (hm : 0 < m) {a : Exp K} (h : ExpRun n x m a)
    {lo hi : K} (hb : ∀ i, i < m → lo ≤ x i ∧ x i ≤ hi) : lo ≤ a.value ∧ a.value ≤ hi := by
  obtain ⟨k, rfl⟩ : ∃ k, m = k + 1 := ⟨m - 1, by omega⟩
  clear hm
  induction k generalizing a with
  | zero =>
    rw [C31_exponential_mean (by omega) (by omega) h]
    simpa using hb 0 (by omega)
  | succ k ih =>
    obtain ⟨b, h1, h2, h3, h4⟩ := exists_expRun hn x (k + 1)
    have hbd := ih h1 (fun i hi => hb i (by omega))
    have hx := hb (k + 1) (by omega)
    cases h with
    | update h5 h6 h7 =>
      rw [h5.unique h1] at h6
      unfold Exp.update at h6
      simp only at h6
      have hlen : (if b.len < b.maxlen then b.len + 1 else b.len) = ((min n (k + 2) : Nat) : Int) := by
        rw [h2, h3]; split <;> omega
      rw [hlen, if_neg (by omega)] at h6
      cases h6
      simp only
      rw [Int.cast_natCast]
      have hc : (1 : K) ≤ ((min n (k + 2) : Nat) : K) := by
        have : 1 ≤ min n (k + 2) := by omega
        exact_mod_cast this
      have hp : (0 : K) < ((min n (k + 2) : Nat) : K) := by linarith
      generalize ((min n (k + 2) : Nat) : K) = c at *
      have e : b.value + (x (k + 1) - b.value) / c = ((c - 1) * b.value + x (k + 1)) / c := by
        field_simp; ring
      rw [e, le_div_iff₀ hp, div_le_iff₀ hp]
      constructor <;> nlinarith [hbd.1, hbd.2, hx.1, hx.2]

/-- C31.  A window of zero: the first update of either average raises; a negative window is rejected by
`RollingAverage` only, and makes the first update of `ExponentialAverage` raise. -/
theorem C31_degenerate_window (x : K) (n : Int) :
    (n < 0 → Avg.new (K := K) n = .error .valueError) ∧
    (∀ a : Avg K, Avg.new 0 = .ok a → (a.update x).2 = .error .indexError) ∧
    (n ≤ 0 → ((Exp.new n : Exp K).update x).2 = .error .zeroDivisionError) := by
  refine ⟨?_, ?_, ?_⟩
  · intro h; rw [Avg.new, if_pos h]
  · intro a h
    simp only [Avg.new, lt_self_iff_false, if_false, Except.ok.injEq] at h
    subst h
    rfl
  · intro h
    have : ¬ (0 : Int) < n := by omega
    simp [Exp.update, Exp.new, this]

/-- A window of two after the observations 1, 2, 6. -/
example : ∃ a : Avg ℚ, AvgRun 2 (fun i => [1, 2, 6].getD i 0) 3 a ∧ a.value = 4 := by
  obtain ⟨a, h⟩ := C31_rolling_total (K := ℚ) (n := 2) (by omega) (fun i => [1, 2, 6].getD i 0) 3
  refine ⟨a, h, ?_⟩
  rw [C31_rolling (n := 2) (by omega) (by omega) h]
  decide +kernel

example : ∃ a : Exp ℚ, ExpRun 2 (fun i => [1, 2, 6].getD i 0) 3 a ∧ a.value = 15 / 4 := by
  obtain ⟨a, h⟩ := C31_exponential_total (K := ℚ) (n := 2) (by omega) (fun i => [1, 2, 6].getD i 0) 3
  refine ⟨a, h, ?_⟩
  rw [C31_exponential_smoothing (n := 2) (by omega) (by omega) h]
  decide +kernel

end Coax.Rolling
