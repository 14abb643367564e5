import Verif.SegmentTree.Rounded
import Mathlib.Algebra.Order.Field.Power
import Mathlib.Tactic.Ring
import Mathlib.Tactic.Linarith
import Mathlib.Tactic.Positivity
import Mathlib.Tactic.FieldSimp
import Mathlib.Tactic.NormNum

/-! Rounding to the nearest number with `p` binary digits. -/

namespace Coax.SegmentTree

variable {K : Type _} [Field K] [LinearOrder K] [IsStrictOrderedRing K] [FloorRing K]

theorem nearestEven_ge {x : K} : ⌊x⌋ ≤ nearestEven x := by
  unfold nearestEven; split_ifs <;> omega

theorem nearestEven_le {x : K} : nearestEven x ≤ ⌊x⌋ + 1 := by
  unfold nearestEven; split_ifs <;> omega

theorem nearestEven_int (k : Int) : nearestEven (k : K) = k := by
  unfold nearestEven; simp

theorem nearestEven_mono {x y : K} (h : x ≤ y) : nearestEven x ≤ nearestEven y := by
  rcases (Int.floor_mono h).lt_or_eq with hlt | heq
  · have h1 := nearestEven_le (x := x)
    have h2 := nearestEven_ge (x := y)
    omega
  · unfold nearestEven
    rw [heq]
    split_ifs <;> first | omega | (exfalso; linarith)

theorem nearestEven_abs (x : K) : |(nearestEven x : K) - x| ≤ 1 / 2 := by
  have h1 := Int.floor_le x
  have h2 := Int.lt_floor_add_one x
  unfold nearestEven
  split_ifs <;> push_cast <;> rw [abs_le] <;> constructor <;> linarith

theorem ulp_pos (p : Nat) (x : K) : 0 < ulp p x := by unfold ulp; positivity

theorem fl_zero (p : Nat) : fl p (0 : K) = 0 := by
  unfold fl
  have : nearestEven (0 : K) = 0 := by simpa using nearestEven_int (K := K) 0
  simp [this]

theorem fl_nonneg {p : Nat} {x : K} (hx : 0 ≤ x) : 0 ≤ fl p x := by
  have h : (0 : Int) ≤ nearestEven (x / ulp p x) := by
    have := nearestEven_mono (div_nonneg hx (ulp_pos p x).le)
    have h0 : nearestEven (0 : K) = 0 := by simpa using nearestEven_int (K := K) 0
    rwa [h0] at this
  exact mul_nonneg (by exact_mod_cast h) (ulp_pos p x).le

/-- A number that is a multiple of its `ulp` is not rounded. -/
theorem fl_of_int {p : Nat} {x : K} {k : Int} (h : x = k * ulp p x) : fl p x = x := by
  have h1 : x / ulp p x = k := by
    rw [div_eq_iff (ulp_pos p x).ne']; exact h
  unfold fl
  rw [h1, nearestEven_int, ← h]

theorem fl_le_of {p : Nat} {x : K} {k : Int} (h : x ≤ k * ulp p x) : fl p x ≤ k * ulp p x := by
  have h1 : x / ulp p x ≤ k := by rwa [div_le_iff₀ (ulp_pos p x)]
  have h2 := nearestEven_mono h1
  rw [nearestEven_int] at h2
  exact mul_le_mul_of_nonneg_right (by exact_mod_cast h2) (ulp_pos p x).le

theorem le_fl_of {p : Nat} {x : K} {k : Int} (h : k * ulp p x ≤ x) : k * ulp p x ≤ fl p x := by
  have h1 : (k : K) ≤ x / ulp p x := by rwa [le_div_iff₀ (ulp_pos p x)]
  have h2 := nearestEven_mono h1
  rw [nearestEven_int] at h2
  exact mul_le_mul_of_nonneg_right (by exact_mod_cast h2) (ulp_pos p x).le

theorem two_ne : (2 : K) ≠ 0 := two_ne_zero

theorem log_le {x : K} (hx : 0 < x) : (2 : K) ^ Int.log 2 x ≤ x := by
  simpa using Int.zpow_log_le_self (b := 2) (by norm_num) hx

theorem lt_log (x : K) : x < (2 : K) ^ (Int.log 2 x + 1) := by
  simpa using Int.lt_zpow_succ_log_self (b := 2) (by norm_num) x

theorem log_eq {x : K} {e : Int} (h1 : (2 : K) ^ e ≤ x) (h2 : x < (2 : K) ^ (e + 1)) : Int.log 2 x = e := by
  have hx : 0 < x := lt_of_lt_of_le (by positivity) h1
  have h3 : e ≤ Int.log 2 x := by
    rw [← Int.zpow_le_iff_le_log (by norm_num) hx]; exact_mod_cast h1
  have h4 : Int.log 2 x < e + 1 := by
    rw [← Int.lt_zpow_iff_log_lt (by norm_num) hx]; exact_mod_cast h2
  omega

/-- The powers of two that enclose `x`, as multiples of the `ulp` of `x`. -/
theorem pow_low {p : Nat} (hp : 0 < p) {x : K} (hx : 0 < x) :
    (2 : K) ^ Int.log 2 x = ((2 ^ (p - 1) : Int) : K) * ulp p x := by
  unfold ulp
  rw [abs_of_pos hx]
  push_cast
  rw [← zpow_natCast, ← zpow_add₀ two_ne]
  congr 1
  omega

theorem pow_high {p : Nat} {x : K} (hx : 0 < x) :
    (2 : K) ^ (Int.log 2 x + 1) = ((2 ^ p : Int) : K) * ulp p x := by
  unfold ulp
  rw [abs_of_pos hx]
  push_cast
  rw [← zpow_natCast, ← zpow_add₀ two_ne]
  congr 1
  omega

theorem fl_ge_pow {p : Nat} (hp : 0 < p) {x : K} (hx : 0 < x) : (2 : K) ^ Int.log 2 x ≤ fl p x := by
  have h := log_le hx
  rw [pow_low hp hx] at h ⊢
  exact le_fl_of h

theorem fl_le_pow {p : Nat} {x : K} (hx : 0 < x) : fl p x ≤ (2 : K) ^ (Int.log 2 x + 1) := by
  have h := (lt_log x).le
  rw [pow_high (p := p) hx] at h ⊢
  exact fl_le_of h

theorem fl_mono {p : Nat} (hp : 0 < p) {x y : K} (h0 : 0 ≤ x) (h : x ≤ y) : fl p x ≤ fl p y := by
  rcases h0.eq_or_lt with rfl | hx
  · rw [fl_zero]; exact fl_nonneg h
  · have hy := lt_of_lt_of_le hx h
    rcases (Int.log_mono_right (b := 2) hx h).lt_or_eq with hlt | heq
    · refine (fl_le_pow hx).trans (le_trans ?_ (fl_ge_pow hp hy))
      exact zpow_le_zpow_right₀ (by norm_num) (by omega)
    · have hu : ulp p x = ulp p y := by unfold ulp; rw [abs_of_pos hx, abs_of_pos hy, heq]
      unfold fl
      rw [hu]
      refine mul_le_mul_of_nonneg_right ?_ (ulp_pos p y).le
      exact_mod_cast nearestEven_mono (div_le_div_of_nonneg_right h (ulp_pos p y).le)

/-- A number with at most `p` binary digits. -/
def Rep (p : Nat) (x : K) : Prop := ∃ (k : Nat) (j : Int), k ≤ 2 ^ p ∧ x = k * 2 ^ j

theorem fl_of_rep {p : Nat} (hp : 0 < p) {x : K} (h : Rep p x) : fl p x = x := by
  obtain ⟨k, j, hk, rfl⟩ := h
  rcases Nat.eq_zero_or_pos k with rfl | hk0
  · simpa using fl_zero p
  have hkK : (0 : K) < k := by exact_mod_cast hk0
  have hx : (0 : K) < k * 2 ^ j := by positivity
  set x : K := k * 2 ^ j with hxdef
  -- `k` lies between two powers of two
  set m := Nat.log 2 k with hm
  have hm1 : 2 ^ m ≤ k := Nat.pow_log_le_self 2 (by omega)
  have hm2 : k < 2 ^ (m + 1) := Nat.lt_pow_succ_log_self (by norm_num) k
  have hlog : Int.log 2 x = m + j := by
    apply log_eq
    · rw [zpow_add₀ two_ne, zpow_natCast, hxdef]
      refine mul_le_mul_of_nonneg_right ?_ (by positivity)
      exact_mod_cast hm1
    · rw [show (m : Int) + j + 1 = ((m + 1 : Nat) : Int) + j by push_cast; ring, zpow_add₀ two_ne, zpow_natCast, hxdef]
      refine mul_lt_mul_of_pos_right ?_ (by positivity)
      exact_mod_cast hm2
  have hmp : m ≤ p := by
    by_contra hlt
    have : 2 ^ (p + 1) ≤ 2 ^ m := Nat.pow_le_pow_right (by norm_num) (by omega)
    rw [Nat.pow_succ] at this
    have := Nat.two_pow_pos p
    omega
  rcases Nat.lt_or_ge m p with hlt | hge
  · apply fl_of_int (k := k * 2 ^ (p - 1 - m))
    unfold ulp
    rw [abs_of_pos hx, hlog, hxdef]
    push_cast
    rw [mul_assoc, ← zpow_natCast, ← zpow_add₀ two_ne]
    congr 2
    omega
  · have hmp : m = p := by omega
    have hk2 : k = 2 ^ p := by rw [hmp] at hm1; omega
    apply fl_of_int (k := 2 ^ (p - 1))
    unfold ulp
    rw [abs_of_pos hx, hlog, hxdef, hk2]
    push_cast
    rw [← zpow_natCast, ← zpow_natCast, ← zpow_add₀ two_ne, ← zpow_add₀ two_ne]
    congr 1
    omega

theorem rep_fl {p : Nat} {x : K} (hx : 0 ≤ x) : Rep p (fl p x) := by
  rcases hx.eq_or_lt with rfl | hx
  · exact ⟨0, 0, by positivity, by simp [fl_zero]⟩
  · have h0 : (0 : Int) ≤ nearestEven (x / ulp p x) := by
      have := nearestEven_mono (div_nonneg hx.le (ulp_pos p x).le)
      have h0 : nearestEven (0 : K) = 0 := by simpa using nearestEven_int (K := K) 0
      rwa [h0] at this
    have h1 : nearestEven (x / ulp p x) ≤ (2 ^ p : Int) := by
      have h := (lt_log x).le
      rw [pow_high (p := p) hx, ← div_le_iff₀ (ulp_pos p x)] at h
      have := nearestEven_mono h
      rwa [nearestEven_int] at this
    refine ⟨(nearestEven (x / ulp p x)).toNat, Int.log 2 |x| - p + 1, ?_, ?_⟩
    · zify; rw [Int.toNat_of_nonneg h0]; exact h1
    · unfold fl
      congr 1
      rw [← Int.cast_natCast, Int.toNat_of_nonneg h0]

theorem fl_idem {p : Nat} (hp : 0 < p) {x : K} (hx : 0 ≤ x) : fl p (fl p x) = fl p x :=
  fl_of_rep hp (rep_fl hx)

/-- The relative error of one operation. -/
theorem fl_err {p : Nat} (hp : 0 < p) {x : K} (hx : 0 ≤ x) : |fl p x - x| ≤ (2 ^ p)⁻¹ * fl p x := by
  rcases hx.eq_or_lt with rfl | hx
  · simp [fl_zero]
  · have h1 : |fl p x - x| ≤ 1 / 2 * ulp p x := by
      have e : fl p x - x = (nearestEven (x / ulp p x) - x / ulp p x) * ulp p x := by
        unfold fl; rw [sub_mul, div_mul_cancel₀ _ (ulp_pos p x).ne']
      rw [e, abs_mul, abs_of_pos (ulp_pos p x)]
      exact mul_le_mul_of_nonneg_right (nearestEven_abs _) (ulp_pos p x).le
    refine h1.trans ?_
    have h2 := fl_ge_pow hp hx
    have h3 := pow_high (p := p) hx
    rw [zpow_add₀ two_ne, zpow_one] at h3
    push_cast at h3
    rw [le_inv_mul_iff₀ (by positivity)]
    linarith

end Coax.SegmentTree
