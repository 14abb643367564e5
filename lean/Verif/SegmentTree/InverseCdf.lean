import Verif.SegmentTree.PartialReduceTop
import Mathlib.Algebra.BigOperators.Group.List.Basic
import Mathlib.Algebra.Order.BigOperators.Group.List
import Mathlib.Tactic.FieldSimp

/-! The descent loop of `SumTree.inverse_cdf`. -/

namespace Coax.SegmentTree

variable {K : Type _} [Field K] [LinearOrder K] [IsStrictOrderedRing K] {cap : Nat} {t : Tree K}

theorem unital_add : IsUnital (α := K) (· + ·) 0 :=
  ⟨fun a b c => add_assoc a b c, fun a => zero_add a, fun a => add_zero a⟩

theorem reduce_add_eq_sum (xs : List K) : reduce (· + ·) 0 xs = xs.sum := by
  have : ∀ (a : K), xs.foldl (· + ·) a = a + xs.sum := by
    induction xs with
    | nil => simp
    | cons x xs ih => intro a; simp [ih, add_assoc]
  simpa [reduce] using this 0

/-- Sum of the leaves in `[s, e)`. -/
theorem sum_slice (xs : List K) {s e : Nat} (h : s ≤ e) :
    reduce (· + ·) 0 (slice xs s e) = cumsum xs e - cumsum xs s := by
  have h1 := reduce_slice_split (unital_add (K := K)) xs (Nat.zero_le s) h
  have h2 : ∀ n, reduce (· + ·) 0 (slice xs 0 n) = cumsum xs n := by
    intro n; rw [reduce_add_eq_sum]; simp [slice, cumsum]
  rw [h2, h2] at h1
  rw [h1]; ring

/-- The invariant of the descent: the remaining value is `v = target - (sum of leaves to the left)` and lies in
`[0, node)`. -/
theorem descend_ok (h : Inv cap (· + ·) 0 t) (target : K) : ∀ (n lev k : Nat) (v : K),
    lev + n + 1 = t.height → k < 2 ^ lev → v = target - cumsum t.leaves (k * 2 ^ n) → 0 ≤ v →
    target < cumsum t.leaves ((k + 1) * 2 ^ n) →
    ∃ i, descend t.arr n (lev + 1) (2 ^ lev - 1) (2 ^ lev - 1 + k) v = .ok i ∧ i < 2 ^ (t.height - 1) ∧
      cumsum t.leaves i ≤ target ∧ target < cumsum t.leaves (i + 1)
  | 0, lev, k, v, hl, hk, hv, h0, hlt => by
    have : t.height - 1 = lev := by omega
    refine ⟨k, by simp [descend], by rw [this]; exact hk, ?_, ?_⟩
    · simp at hv; linarith
    · simpa using hlt
  | n + 1, lev, k, v, hl, hk, hv, h0, hlt => by
    have hk0 : 2 * k < 2 ^ (lev + 1) := by rw [Nat.pow_succ]; omega
    have hk1 : 2 * k + 1 < 2 ^ (lev + 1) := by rw [Nat.pow_succ]; omega
    have hleft := h.node_value unital_add n (lev + 1) (2 * k) (by omega) hk0
    have hmono : 2 * k * 2 ^ n ≤ (2 * k + 1) * 2 ^ n := Nat.mul_le_mul_right _ (by omega)
    rw [sum_slice _ hmono] at hleft
    have e1 : k * 2 ^ (n + 1) = 2 * k * 2 ^ n := by rw [Nat.pow_succ]; ring
    have e2 : (k + 1) * 2 ^ (n + 1) = (2 * k + 1 + 1) * 2 ^ n := by rw [Nat.pow_succ]; ring
    rw [e1] at hv
    rw [e2] at hlt
    have eidx : (2 ^ lev - 1 + k - (2 ^ lev - 1)) * 2 + (2 ^ (lev + 1) - 1) = 2 ^ (lev + 1) - 1 + 2 * k := by omega
    simp only [descend, eidx, readAt_of_some hleft]
    simp only [bind, Except.bind]
    by_cases hlt2 : cumsum t.leaves ((2 * k + 1) * 2 ^ n) - cumsum t.leaves (2 * k * 2 ^ n) > v
    · rw [if_pos hlt2]
      exact descend_ok h target n (lev + 1) (2 * k) v (by omega) hk0 hv h0 (by linarith)
    · rw [if_neg hlt2, Nat.add_assoc]
      exact descend_ok h target n (lev + 1) (2 * k + 1) _ (by omega) hk1 (by rw [hv]; ring) (by linarith) hlt

/-- With `u = 1` and non-negative values the descent always goes right. -/
theorem descend_one (h : Inv cap (· + ·) 0 t) (hnn : ∀ x ∈ t.leaves, 0 ≤ x) : ∀ (n lev k : Nat) (v : K),
    lev + n + 1 = t.height → k < 2 ^ lev →
    v = cumsum t.leaves ((k + 1) * 2 ^ n) - cumsum t.leaves (k * 2 ^ n) →
    descend t.arr n (lev + 1) (2 ^ lev - 1) (2 ^ lev - 1 + k) v = .ok ((k + 1) * 2 ^ n - 1)
  | 0, lev, k, v, hl, hk, hv => by simp [descend]
  | n + 1, lev, k, v, hl, hk, hv => by
    have hk0 : 2 * k < 2 ^ (lev + 1) := by rw [Nat.pow_succ]; omega
    have hk1 : 2 * k + 1 < 2 ^ (lev + 1) := by rw [Nat.pow_succ]; omega
    have hleft := h.node_value unital_add n (lev + 1) (2 * k) (by omega) hk0
    have hmono : 2 * k * 2 ^ n ≤ (2 * k + 1) * 2 ^ n := Nat.mul_le_mul_right _ (by omega)
    have hmono2 : (2 * k + 1) * 2 ^ n ≤ (2 * k + 1 + 1) * 2 ^ n := Nat.mul_le_mul_right _ (by omega)
    have hright : 0 ≤ cumsum t.leaves ((2 * k + 1 + 1) * 2 ^ n) - cumsum t.leaves ((2 * k + 1) * 2 ^ n) := by
      rw [← sum_slice _ hmono2, reduce_add_eq_sum]
      apply List.sum_nonneg
      intro x hx
      exact hnn x (List.mem_of_mem_take (List.mem_of_mem_drop hx))
    rw [sum_slice _ hmono] at hleft
    have e1 : k * 2 ^ (n + 1) = 2 * k * 2 ^ n := by rw [Nat.pow_succ]; ring
    have e2 : (k + 1) * 2 ^ (n + 1) = (2 * k + 1 + 1) * 2 ^ n := by rw [Nat.pow_succ]; ring
    rw [e1, e2] at hv
    have eidx : (2 ^ lev - 1 + k - (2 ^ lev - 1)) * 2 + (2 ^ (lev + 1) - 1) = 2 ^ (lev + 1) - 1 + 2 * k := by omega
    simp only [descend, eidx, readAt_of_some hleft]
    simp only [bind, Except.bind]
    rw [if_neg (by linarith), Nat.add_assoc (2 ^ (lev + 1) - 1)]
    rw [descend_one h hnn n (lev + 1) (2 * k + 1) _ (by omega) hk1 (by rw [hv]; ring), e2]

theorem Inv.cumsum_leaves (h : Inv cap (· + ·) (0 : K) t) {i : Nat} (hi : i ≤ cap) :
    cumsum t.leaves i = cumsum t.values i := by
  unfold cumsum
  rw [h.leaves_eq, List.take_append_of_le_length]
  rw [h.values_length]; exact hi

theorem Inv.cumsum_leaves_ge (h : Inv cap (· + ·) (0 : K) t) {i : Nat} (hi : cap ≤ i) :
    cumsum t.leaves i = t.values.sum := by
  unfold cumsum
  rw [h.leaves_eq, List.take_append]
  have := h.values_length
  rw [List.take_of_length_le (by omega)]
  simp

theorem Inv.root_sum (h : Inv cap (· + ·) (0 : K) t) : t.rootValue = .ok t.values.sum := by
  have := h.root unital_add
  rw [reduce_add_eq_sum] at this
  exact readAt_of_some this

theorem cumsum_succ {xs : List K} {i : Nat} {x : K} (h : xs[i]? = some x) : cumsum xs (i + 1) = cumsum xs i + x := by
  unfold cumsum
  rw [List.take_add_one, h]; simp

theorem cumsum_mono {xs : List K} (hnn : ∀ x ∈ xs, 0 ≤ x) {i j : Nat} (h : i ≤ j) : cumsum xs i ≤ cumsum xs j := by
  have := sum_slice xs h
  rw [reduce_add_eq_sum] at this
  have h2 : 0 ≤ (slice xs i j).sum :=
    List.sum_nonneg (fun x hx => hnn x (List.mem_of_mem_take (List.mem_of_mem_drop hx)))
  linarith

/-- Descent from the root. -/
theorem Inv.descend_root (h : Inv cap (· + ·) (0 : K) t) {target : K} (h0 : 0 ≤ target) (h1 : target < t.values.sum) :
    ∃ i, descend t.arr (t.height - 1) 1 0 0 target = .ok i ∧ i < cap ∧
      cumsum t.values i ≤ target ∧ target < cumsum t.values (i + 1) := by
  have hh := h.height_pos
  obtain ⟨i, e, hi, hlo, hhi⟩ := descend_ok h target (t.height - 1) 0 0 target (by omega) (by simp)
    (by simp [cumsum]) h0 (by
      have := h.cap_le
      rw [h.cumsum_leaves_ge (by simpa using this)]; exact h1)
  have hic : i < cap := by
    by_contra hge
    rw [h.cumsum_leaves_ge (by omega)] at hlo
    linarith
  refine ⟨i, by simpa using e, hic, ?_, ?_⟩
  · rwa [h.cumsum_leaves (by omega)] at hlo
  · rwa [h.cumsum_leaves (by omega)] at hhi

end Coax.SegmentTree
