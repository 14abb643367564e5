import Verif.SegmentTree.RoundedLemmas
import Verif.SegmentTree.Props

/-!
C132: the sum tree in floating-point arithmetic.

The specification is written in exact arithmetic: `cumsum` (exact partial sums of the stored values) and `pairwiseSum`
(the sum that is formed in pairs of neighbours, each addition rounded).
-/

namespace Coax.SegmentTree

variable {K : Type _} [Field K] [LinearOrder K] [IsStrictOrderedRing K]

theorem Inv.cumsum_leavesR {cap : Nat} {red : K → K → K} {t : Tree K} (h : Inv cap red 0 t) (i : Nat) :
    cumsum t.leaves i = cumsum t.values i := by
  unfold cumsum
  rw [h.leaves_eq, List.take_append]
  simp [List.take_replicate]

theorem Inv.rootR {cap : Nat} {rnd : K → K} {t : Tree K} (h : Inv cap (fun a b => rnd (a + b)) 0 t) :
    t.rootValue = .ok (pairwiseSum rnd (t.height - 1) t.values) := by
  have hh := h.height_pos
  have h1 := h.node_pairwise (t.height - 1) 0 0 (by omega) (by simp)
  rw [pairwiseSum_congr _ (ys := t.values)] at h1
  · exact readAt_of_some (by simpa using h1)
  · intro i
    have hl := h.values_length
    have hc := h.cap_le
    rw [h.leaves_eq]
    unfold slice
    simp only [Nat.zero_mul, List.drop_zero, Nat.zero_add, Nat.one_mul, List.getElem?_take, List.getElem?_append,
      List.getElem?_replicate]
    rcases Nat.lt_or_ge i t.values.length with h2 | h2
    · rw [if_pos (by omega), if_pos h2]
    · rw [List.getElem?_eq_none h2]
      split_ifs <;> simp_all

/-- C132, no drift: with any rounding of the additions (`rnd 0 = 0` is all that is used), after any history of
`set_values` calls the root is the pairwise rounded sum of the values that are stored now.  Rounding errors of earlier
values do not accumulate: two trees with the same values have the same root, whatever happened before. -/
theorem C132_no_drift {cap : Nat} (hc : 0 < cap) {rnd : K → K} (h0 : rnd 0 = 0) {t : Tree K}
    (h : Reachable cap (fun a b => rnd (a + b)) 0 t) :
    t.rootValue = .ok (pairwiseSum rnd (Nat.clog 2 cap) t.values) := by
  have hinv := h.inv hc (by simpa using h0)
  rw [hinv.rootR, hinv.height_eq]
  simp

/-- C132, the error of the root: it is the exact sum of the stored values up to the factors `(1 ± ε)^⌈log₂ capacity⌉`,
however many calls have been made. -/
theorem C132_root_error {cap : Nat} (hc : 0 < cap) {ε : K} {rnd : K → K} (hr : Rounding ε rnd) (h0 : 0 ≤ ε) (h1 : ε ≤ 1)
    {t : Tree K} (h : Reachable cap (fun a b => rnd (a + b)) 0 t) (hnn : ∀ x ∈ t.values, 0 ≤ x) :
    ∃ root, t.rootValue = .ok root ∧ (1 - ε) ^ Nat.clog 2 cap * root ≤ t.values.sum ∧
      t.values.sum ≤ (1 + ε) ^ Nat.clog 2 cap * root := by
  have hinv := h.inv hc (by simpa using hr.zero)
  refine ⟨_, C132_no_drift hc hr.zero h, ?_⟩
  apply pairwiseSum_err hr h0 h1 _ hnn
  rw [hinv.values_length]
  exact Nat.le_pow_clog (by norm_num) cap

/-- The error of the sampled position, relative to the root: `n = ⌈log₂ capacity⌉` levels. -/
def cdfError (ε : K) (n : Nat) : K := (3 * n + 1) * ε + ((1 + ε) ^ n - 1) * (1 + n * ε)

theorem Inv.leaves_mem {cap : Nat} {red : K → K → K} {t : Tree K} (h : Inv cap red 0 t) {P : K → Prop} (h0 : P 0)
    (hv : ∀ x ∈ t.values, P x) : ∀ x ∈ t.leaves, P x := by
  rw [h.leaves_eq]
  intro x hx
  rcases List.mem_append.1 hx with hx | hx
  · exact hv x hx
  · rw [(List.mem_replicate.1 hx).2]; exact h0

/-- One draw. -/
theorem descendR_root {cap : Nat} (hc : 0 < cap) {ε : K} {rnd : K → K} (hr : Rounding ε rnd) (h0 : 0 ≤ ε) (h1 : ε ≤ 1)
    {t : Tree K} (h : Reachable cap (fun a b => rnd (a + b)) 0 t) (hnn : ∀ x ∈ t.values, 0 ≤ x)
    (hfix : ∀ x ∈ t.values, rnd x = x) {root : K} (hroot : t.rootValue = .ok root) {x : K} (hx : 0 ≤ x ∧ x ≤ 1) :
    ∃ i, descendR rnd t.arr (t.height - 1) 1 0 0 (rnd (x * root)) = .ok i ∧ i < 2 ^ Nat.clog 2 cap ∧
      cumsum t.values i ≤ x * root + cdfError ε (Nat.clog 2 cap) * root ∧
      x * root ≤ cumsum t.values (i + 1) + cdfError ε (Nat.clog 2 cap) * root := by
  have hinv := h.inv hc (by simpa using hr.zero)
  have hnl := hinv.leaves_mem (P := fun x => 0 ≤ x) le_rfl hnn
  have hfl := hinv.leaves_mem (P := fun x => rnd x = x) hr.zero hfix
  have hh := hinv.height_pos
  have hht : t.height - 1 = Nat.clog 2 cap := by rw [hinv.height_eq]; rfl
  obtain ⟨N, eN, hN0, hNf, -⟩ := hinv.node_facts hr h0 h1 hnl hfl (d := t.height - 1) (lev := 0) (k := 0) (by omega)
    (by simp)
  have eN' : t.arr[0]? = some N := by simpa using eN
  obtain rfl : N = root := by
    have h3 : t.rootValue = .ok N := readAt_of_some eN'
    rw [hroot] at h3
    exact (Except.ok.inj h3).symm
  have hη0 : 0 ≤ (1 + ε) ^ (t.height - 1) - 1 := by
    have := one_le_pow₀ (show 1 ≤ 1 + ε by linarith) (n := t.height - 1)
    linarith
  have hxr : 0 ≤ x * N := mul_nonneg hx.1 hN0
  have hxN : x * N ≤ N := by nlinarith [hx.2]
  have hv0 := hr.nonneg hxr
  have hvR : rnd (x * N) ≤ N := by have := hr.mono hxr hxN; rwa [hNf] at this
  have hverr : |rnd (x * N) - x * N| ≤ ε * N := (hr.err hxr).trans (mul_le_mul_of_nonneg_left hvR h0)
  rw [abs_le] at hverr
  obtain ⟨i, ei, hi, lo, hi'⟩ := hinv.descendR_ok hr h0 h1 hnl hfl (R := N) (d := ε * N) rfl rfl hη0
    (mul_nonneg h0 hN0) (t.height - 1) 0 0 (rnd (x * N)) 0 N (by omega) (by simp) eN (hr.idem hxr) hv0 hvR le_rfl le_rfl
    (by linarith)
  refine ⟨i, by simpa using ei, by rw [← hht]; exact hi, ?_, ?_⟩
  · rw [hinv.cumsum_leavesR, hinv.cumsum_leavesR, hht] at lo
    rw [hht] at hη0
    have e : cumsum t.values (0 * 2 ^ Nat.clog 2 cap) = 0 := by simp [cumsum]
    rw [e] at lo
    unfold cdfError
    have h5 := mul_le_mul_of_nonneg_left hvR hη0
    have h6 : 0 ≤ (Nat.clog 2 cap : K) * (ε * N) := mul_nonneg (by positivity) (mul_nonneg h0 hN0)
    linarith
  · rw [hinv.cumsum_leavesR, hinv.cumsum_leavesR, hht] at hi'
    rw [hht] at hη0
    have e : cumsum t.values (0 * 2 ^ Nat.clog 2 cap) = 0 := by simp [cumsum]
    rw [e] at hi'
    unfold cdfError
    have h5 := mul_le_mul_of_nonneg_left hvR hη0
    linarith

/-- C132, the sampled positions: with rounded operations every draw `u ∈ [0, 1]` is answered, with a position whose
interval of the exact cumulative sums contains `u * root` up to `cdfError ε ⌈log₂ capacity⌉ * root`. -/
theorem C132_inverse_cdf {cap : Nat} (hc : 0 < cap) {ε : K} {rnd : K → K} (hr : Rounding ε rnd) (h0 : 0 ≤ ε) (h1 : ε ≤ 1)
    {t : Tree K} (h : Reachable cap (fun a b => rnd (a + b)) 0 t) (hnn : ∀ x ∈ t.values, 0 ≤ x)
    (hfix : ∀ x ∈ t.values, rnd x = x) {root : K} (hroot : t.rootValue = .ok root) (hpos : 0 < root) {u : List K}
    (hu : ∀ x ∈ u, 0 ≤ x ∧ x ≤ 1) :
    ∃ idx, t.inverseCdfR rnd u = .ok idx ∧ List.Forall₂ (fun x i => i < 2 ^ Nat.clog 2 cap ∧
      cumsum t.values i ≤ x * root + cdfError ε (Nat.clog 2 cap) * root ∧
      x * root ≤ cumsum t.values (i + 1) + cdfError ε (Nat.clog 2 cap) * root) u idx := by
  have e1 : (u.any (fun x => decide (x > 1)) || u.any (fun x => decide (x < 0))) = false := by
    simp only [Bool.or_eq_false_iff, List.any_eq_false, decide_eq_true_eq, not_lt]
    exact ⟨fun x hx => (hu x hx).2, fun x hx => (hu x hx).1⟩
  have e2 : t.inverseCdfR rnd u = u.mapM (fun x => descendR rnd t.arr (t.height - 1) 1 0 0 (rnd (x * root))) := by
    unfold Tree.inverseCdfR
    rw [hroot]
    simp only [bind, Except.bind]
    rw [if_neg (not_le.2 hpos), e1]
    rfl
  rw [e2]
  clear e1 e2
  induction u with
  | nil => exact ⟨[], rfl, .nil⟩
  | cons x u ih =>
    obtain ⟨idx, e, hf⟩ := ih (fun y hy => hu y (by simp [hy]))
    obtain ⟨i, e', hi⟩ := descendR_root hc hr h0 h1 h hnn hfix hroot (hu x (by simp))
    exact ⟨i :: idx, by rw [List.mapM_cons, e', e]; rfl, .cons hi hf⟩

/-- C132, how often a position can be drawn: all draws that are answered with position `i` lie in an interval of length
`value of i / root + 2 cdfError`.  In particular, if the value of `i` is zero (or `i` is no position of the tree at all)
then the length of that interval is only `2 cdfError`. -/
theorem C132_share {cap : Nat} (hc : 0 < cap) {ε : K} {rnd : K → K} (hr : Rounding ε rnd) (h0 : 0 ≤ ε) (h1 : ε ≤ 1)
    {t : Tree K} (h : Reachable cap (fun a b => rnd (a + b)) 0 t) (hnn : ∀ x ∈ t.values, 0 ≤ x)
    (hfix : ∀ x ∈ t.values, rnd x = x) {root : K} (hroot : t.rootValue = .ok root) (hpos : 0 < root) {x y : K}
    (hx : 0 ≤ x ∧ x ≤ 1) (hy : 0 ≤ y ∧ y ≤ 1) {i : Nat} (ex : t.inverseCdfR rnd [x] = .ok [i])
    (ey : t.inverseCdfR rnd [y] = .ok [i]) :
    |x - y| ≤ t.values[i]?.getD 0 / root + 2 * cdfError ε (Nat.clog 2 cap) := by
  obtain ⟨ix, e1, f1⟩ := C132_inverse_cdf hc hr h0 h1 h hnn hfix hroot hpos (u := [x]) (by simpa using hx)
  obtain ⟨iy, e2, f2⟩ := C132_inverse_cdf hc hr h0 h1 h hnn hfix hroot hpos (u := [y]) (by simpa using hy)
  rw [ex] at e1
  rw [ey] at e2
  obtain rfl := Except.ok.inj e1
  obtain rfl := Except.ok.inj e2
  simp only [List.forall₂_cons, List.Forall₂.nil, and_true] at f1 f2
  have hs : cumsum t.values (i + 1) = cumsum t.values i + t.values[i]?.getD 0 := by
    unfold cumsum
    rw [List.take_add_one]
    cases t.values[i]? <;> simp
  rw [hs] at f1 f2
  obtain ⟨-, a1, b1⟩ := f1
  obtain ⟨-, a2, b2⟩ := f2
  have e : t.values[i]?.getD 0 / root * root = t.values[i]?.getD 0 := div_mul_cancel₀ _ hpos.ne'
  rw [abs_le]
  constructor
  · refine le_of_mul_le_mul_right ?_ hpos
    rw [neg_mul, add_mul, e]
    linarith
  · refine le_of_mul_le_mul_right ?_ hpos
    rw [add_mul, e]
    linarith

theorem one_add_pow_le {ε : K} (h0 : 0 ≤ ε) : ∀ n : Nat, n * ε ≤ 1 → (1 + ε) ^ n ≤ 1 + n * ε + (n * ε) ^ 2
  | 0, _ => by simp
  | n + 1, h => by
    push_cast at h ⊢
    have ih := one_add_pow_le h0 n (by linarith)
    have hn : (0 : K) ≤ n := by positivity
    have h2 : 0 ≤ ε * ε := mul_nonneg h0 h0
    have h3 := mul_le_mul_of_nonneg_right ih (show 0 ≤ 1 + ε by linarith)
    have h4 : n * ε * (n * (ε * ε)) ≤ 1 * (n * (ε * ε)) :=
      mul_le_mul_of_nonneg_right (by linarith) (mul_nonneg hn h2)
    rw [pow_succ]
    nlinarith

/-- The size of the error: at most `(5 n + 1) ε`, for every `n` with `n ε ≤ 1/4`. -/
theorem C132_error_small {ε : K} (h0 : 0 ≤ ε) {n : Nat} (hn : n * ε ≤ 1 / 4) : cdfError ε n ≤ (5 * n + 1) * ε := by
  unfold cdfError
  have h1 := one_add_pow_le h0 n (by linarith)
  have h2 : 0 ≤ n * ε := mul_nonneg (by positivity) h0
  have e1 : (3 * n + 1) * ε = 3 * (n * ε) + ε := by ring
  have e2 : (5 * n + 1) * ε = 5 * (n * ε) + ε := by ring
  rw [e1, e2]
  generalize (n : K) * ε = y at *
  have h3 : ((1 + ε) ^ n - 1) * (1 + y) ≤ (y + y ^ 2) * (1 + y) :=
    mul_le_mul_of_nonneg_right (by linarith) (by linarith)
  have h4 : (y + y ^ 2) * (1 + y) ≤ 2 * y := by
    have h5 : (1 + y) * (1 + y) ≤ 2 := by nlinarith
    have := mul_le_mul_of_nonneg_left h5 h2
    linarith
  linarith

/-! ### Doubles -/

variable [FloorRing K]

/-- The largest number that `rand()` can return keeps the start of the descent below the root. -/
theorem fl_mul_lt {p : Nat} (hp : 0 < p) {R x : K} (hR : 0 < R) (hf : fl p R = R) (hx0 : 0 ≤ x)
    (hx : x ≤ 1 - (2 ^ p)⁻¹) : fl p (x * R) < R := by
  have hq : (0 : K) < (2 ^ p)⁻¹ := by positivity
  have hp1 : ((2 : K) ^ p)⁻¹ ≤ 1 / 2 := by
    rw [one_div]
    apply inv_anti₀ (by norm_num)
    calc (2 : K) = 2 ^ 1 := by norm_num
      _ ≤ 2 ^ p := pow_le_pow_right₀ (by norm_num) hp
  set z : K := (1 - (2 ^ p)⁻¹) * R with hz
  have hz0 : 0 < z := mul_pos (by linarith) hR
  have hxz : x * R ≤ z := mul_le_mul_of_nonneg_right hx hR.le
  refine lt_of_le_of_lt (fl_mono hp (mul_nonneg hx0 hR.le) hxz) ?_
  have hzR : z < R := by nlinarith
  have hlow := log_le hR
  rcases hlow.eq_or_lt with he | hlt
  · -- the root is a power of two
    have hrep : Rep p z := by
      refine ⟨2 ^ p - 1, Int.log 2 R - p, Nat.sub_le _ _, ?_⟩
      rw [hz, Nat.cast_sub Nat.one_le_two_pow, zpow_sub₀ two_ne, he]
      push_cast
      rw [zpow_natCast]
      field_simp
    rw [fl_of_rep hp hrep]
    exact hzR
  · rcases lt_or_ge z (2 ^ Int.log 2 R) with hzl | hzl
    · have h2 : Rep p ((2 : K) ^ Int.log 2 R) := ⟨1, Int.log 2 R, Nat.one_le_two_pow, by simp⟩
      have := fl_mono hp hz0.le hzl.le
      rw [fl_of_rep hp h2] at this
      linarith
    · have hlog : Int.log 2 z = Int.log 2 R := log_eq hzl (hzR.trans (lt_log R))
      have hu : ulp p z = ulp p R := by unfold ulp; rw [abs_of_pos hz0, abs_of_pos hR, hlog]
      have hg := ulp_pos p R
      have hRm : R = nearestEven (R / ulp p R) * ulp p R := hf.symm
      set m := nearestEven (R / ulp p R) with hm
      have hlt' : ((2 ^ p : Int) : K) * ulp p R < 2 * R := by
        have := pow_high (p := p) hR
        rw [zpow_add₀ two_ne, zpow_one] at this
        linarith
      push_cast at hlt'
      have hzm : z / ulp p R < m - 1 / 2 := by
        rw [div_lt_iff₀ hg, hz]
        have : (2 ^ p)⁻¹ * (2 ^ p * ulp p R) < (2 ^ p)⁻¹ * (2 * R) := mul_lt_mul_of_pos_left hlt' hq
        rw [inv_mul_cancel_left₀ (by positivity)] at this
        linarith
      have habs := nearestEven_abs (z / ulp p R)
      rw [abs_le] at habs
      have : (nearestEven (z / ulp p R) : K) < m := by linarith
      unfold fl
      rw [hu]
      calc _ < (m : K) * ulp p R := mul_lt_mul_of_pos_right this hg
        _ = R := hRm.symm

/-- A multiple of `2 ^ a`. -/
def OnGrid (a : Int) (x : K) : Prop := ∃ m : Nat, x = m * 2 ^ a

theorem OnGrid.add {a : Int} {x y : K} (hx : OnGrid a x) (hy : OnGrid a y) : OnGrid a (x + y) := by
  obtain ⟨m, rfl⟩ := hx
  obtain ⟨n, rfl⟩ := hy
  exact ⟨m + n, by push_cast; ring⟩

theorem onGrid_sum {a : Int} : ∀ {xs : List K}, (∀ x ∈ xs, OnGrid a x) → OnGrid a xs.sum
  | [], _ => ⟨0, by simp⟩
  | x :: xs, h => by
    rw [List.sum_cons]
    exact (h x (by simp)).add (onGrid_sum fun y hy => h y (by simp [hy]))

theorem OnGrid.rep {a : Int} {x : K} {p : Nat} (hx : OnGrid a x) (hle : x ≤ 2 ^ p * 2 ^ a) : Rep p x := by
  obtain ⟨m, rfl⟩ := hx
  refine ⟨m, a, ?_, rfl⟩
  have := le_of_mul_le_mul_right hle (by positivity)
  exact_mod_cast this

/-- The subtraction in the descent is exact on a grid. -/
theorem rep_sub {p : Nat} {a : Int} {v l : K} (hv : Rep p v) (hl : OnGrid a l) (hlv : l ≤ v) (hle : v ≤ 2 ^ p * 2 ^ a) :
    Rep p (v - l) := by
  obtain ⟨k, j, hk, rfl⟩ := hv
  obtain ⟨m, rfl⟩ := hl
  rcases le_total j a with hja | haj
  · -- the grid of `v` is finer
    obtain ⟨d, rfl⟩ : ∃ d : Nat, a = j + d := ⟨(a - j).toNat, by omega⟩
    have e : (m : K) * 2 ^ (j + (d : Int)) = ((m * 2 ^ d : Nat) : K) * 2 ^ j := by
      rw [zpow_add₀ two_ne, zpow_natCast]; push_cast; ring
    rw [e] at hlv ⊢
    have hmk : m * 2 ^ d ≤ k := by
      have := le_of_mul_le_mul_right hlv (by positivity)
      exact_mod_cast this
    exact ⟨k - m * 2 ^ d, j, (Nat.sub_le _ _).trans hk, by rw [Nat.cast_sub hmk]; ring⟩
  · obtain ⟨d, rfl⟩ : ∃ d : Nat, j = a + d := ⟨(j - a).toNat, by omega⟩
    have e : (k : K) * 2 ^ (a + (d : Int)) = ((k * 2 ^ d : Nat) : K) * 2 ^ a := by
      rw [zpow_add₀ two_ne, zpow_natCast]; push_cast; ring
    rw [e] at hlv hle ⊢
    have hmk : m ≤ k * 2 ^ d := by
      have := le_of_mul_le_mul_right hlv (by positivity)
      exact_mod_cast this
    have hkp : k * 2 ^ d ≤ 2 ^ p := by
      have := le_of_mul_le_mul_right hle (by positivity)
      exact_mod_cast this
    exact ⟨k * 2 ^ d - m, a, (Nat.sub_le _ _).trans hkp, by rw [Nat.cast_sub hmk]; ring⟩

/-- On a grid the descent with rounded subtractions is the exact descent. -/
theorem descendR_exact {p : Nat} (hp : 0 < p) {a : Int} {arr : List K} (harr : ∀ x ∈ arr, OnGrid a x) :
    ∀ (n level off idx : Nat) (v : K), Rep p v → v ≤ 2 ^ p * 2 ^ a →
      descendR (fl p) arr n level off idx v = descend arr n level off idx v
  | 0, _, _, _, _, _, _ => rfl
  | n + 1, level, off, idx, v, hv, hle => by
    simp only [descendR, descend]
    cases hread : readAt arr ((idx - off) * 2 + (2 ^ level - 1)) with
    | error e => rfl
    | ok l =>
      simp only [bind, Except.bind]
      have hmem : l ∈ arr := by
        unfold readAt at hread
        split at hread
        · rename_i h; obtain rfl := Except.ok.inj hread; exact List.mem_of_getElem? h
        · cases hread
      obtain ⟨m, hm⟩ := harr l hmem
      split_ifs with hlt
      · exact descendR_exact hp harr n _ _ _ v hv hle
      · have hlv : l ≤ v := not_lt.1 hlt
        have hrep := rep_sub hv ⟨m, hm⟩ hlv hle
        rw [fl_of_rep hp hrep]
        have hl0 : 0 ≤ l := by rw [hm]; positivity
        exact descendR_exact hp harr n _ _ _ _ hrep (by linarith)

/-- If the values are on a grid and their sum is small enough then no addition in the tree is rounded. -/
theorem Inv.exact {cap p : Nat} (hp : 0 < p) {a : Int} {t : Tree K} (h : Inv cap (fun x y => fl p (x + y)) 0 t)
    (hgrid : ∀ x ∈ t.values, OnGrid a x) (hsum : t.values.sum ≤ 2 ^ p * 2 ^ a) :
    ∀ (d lev k : Nat), lev + d + 1 = t.height → k < 2 ^ lev →
      t.arr[2 ^ lev - 1 + k]? = some (cumsum t.leaves ((k + 1) * 2 ^ d) - cumsum t.leaves (k * 2 ^ d))
  | 0, lev, k, hl, hk => by
    have hlev : t.height - 1 = lev := by omega
    have hlt : 2 ^ lev - 1 + k < t.arr.length := by
      rw [h.len]; exact node_lt (by omega) hk
    have h1 : t.leaves[k]? = some t.arr[2 ^ lev - 1 + k] := by
      rw [leaves_get, hlev]; simp [hlt]
    simp only [Nat.pow_zero, Nat.mul_one]
    rw [cumsum_succ h1]
    simp [hlt]
  | d + 1, lev, k, hl, hk => by
    obtain ⟨x, y, hx, hy, hxy⟩ := h.node lev (by omega) k hk
    have h0 : 2 * k < 2 ^ (lev + 1) := by rw [Nat.pow_succ]; omega
    have h1 : 2 * k + 1 < 2 ^ (lev + 1) := by rw [Nat.pow_succ]; omega
    have ex := Inv.exact hp h hgrid hsum d (lev + 1) (2 * k) (by omega) h0
    have ey := Inv.exact hp h hgrid hsum d (lev + 1) (2 * k + 1) (by omega) h1
    rw [hx] at ex
    rw [← Nat.add_assoc, hy] at ey
    simp only [Option.some.injEq] at ex ey
    have e1 : k * 2 ^ (d + 1) = 2 * k * 2 ^ d := by rw [Nat.pow_succ]; ring
    have e2 : (k + 1) * 2 ^ (d + 1) = (2 * k + 1 + 1) * 2 ^ d := by rw [Nat.pow_succ]; ring
    have hs : x + y = cumsum t.leaves ((k + 1) * 2 ^ (d + 1)) - cumsum t.leaves (k * 2 ^ (d + 1)) := by
      rw [ex, ey, e1, e2]; ring
    have hgl := h.leaves_mem (P := OnGrid a) ⟨0, by simp⟩ hgrid
    have hnn : ∀ x ∈ t.leaves, 0 ≤ x := fun x hx => by obtain ⟨m, rfl⟩ := hgl x hx; positivity
    have hg : OnGrid a (x + y) := by
      rw [hs, ← slice_sum _ (Nat.mul_le_mul_right _ (by omega))]
      exact onGrid_sum fun z hz => hgl z (slice_mem hz)
    have hle : x + y ≤ 2 ^ p * 2 ^ a := by
      refine le_trans ?_ hsum
      have htot : cumsum t.leaves t.leaves.length = t.values.sum := by
        rw [h.cumsum_leavesR]
        unfold cumsum
        rw [List.take_of_length_le]
        rw [h.leaves_eq]; simp
      have hb : cumsum t.leaves ((k + 1) * 2 ^ (d + 1)) ≤ t.values.sum := by
        rw [← htot]
        rcases le_total ((k + 1) * 2 ^ (d + 1)) t.leaves.length with hc | hc
        · exact cumsum_mono hnn hc
        · unfold cumsum; rw [List.take_of_length_le hc, List.take_of_length_le le_rfl]
      have h00 : 0 ≤ cumsum t.leaves (k * 2 ^ (d + 1)) := by
        have := cumsum_mono hnn (Nat.zero_le (k * 2 ^ (d + 1)))
        simpa [cumsum] using this
      rw [hs]; linarith
    refine hxy.trans ?_
    show some (fl p (x + y)) = _
    rw [fl_of_rep hp (hg.rep hle), hs]

/-- C132, where doubles behave like exact numbers: if the stored values are multiples of one power of two and their
sum is at most `2^p` times that power (`p = 53` for doubles: e.g. integers with a sum up to `2^53`), the total is exact and
every draw `u ∈ [0, 1 - 2^-p]` (the doubles in `[0, 1)` that `rand()` returns) gives a position of the tree whose value
is positive and whose interval of exact cumulative sums contains the rounded product `u * total`. -/
theorem C132_grid_partial {cap p : Nat} (hc : 0 < cap) (hp : 0 < p) {a : Int} {t : Tree K}
    (h : Reachable cap (fun x y => fl p (x + y)) 0 t) (hgrid : ∀ x ∈ t.values, OnGrid a x)
    (hsum : t.values.sum ≤ 2 ^ p * 2 ^ a) (hpos : 0 < t.values.sum) {u : List K}
    (hu : ∀ x ∈ u, 0 ≤ x ∧ x ≤ 1 - (2 ^ p)⁻¹) :
    t.rootValue = .ok t.values.sum ∧
    ∃ idx, t.inverseCdfR (fl p) u = .ok idx ∧ List.Forall₂ (fun x i => i < cap ∧
      cumsum t.values i ≤ fl p (x * t.values.sum) ∧ fl p (x * t.values.sum) < cumsum t.values (i + 1) ∧
      ∃ v, t.values[i]? = some v ∧ 0 < v) u idx := by
  have hinv := h.inv hc (by simp [fl_zero])
  have hh := hinv.height_pos
  -- the same tree, with an exact reducer
  have hinv' : Inv cap (· + ·) 0 { t with reducer := (· + ·) } := by
    refine ⟨hc, hinv.cap_eq, rfl, hinv.init_eq, hinv.height_eq, hinv.len, hinv.pad, ?_⟩
    intro l hl k hk
    change l + 1 < t.height at hl
    obtain ⟨x, y, hx, hy, hxy⟩ := hinv.node l hl k hk
    refine ⟨x, y, hx, hy, ?_⟩
    have h0 : 2 * k < 2 ^ (l + 1) := by rw [Nat.pow_succ]; omega
    have h1 : 2 * k + 1 < 2 ^ (l + 1) := by rw [Nat.pow_succ]; omega
    have ex := hinv.exact hp hgrid hsum (t.height - 2 - l) (l + 1) (2 * k) (by omega) h0
    have ey := hinv.exact hp hgrid hsum (t.height - 2 - l) (l + 1) (2 * k + 1) (by omega) h1
    have en := hinv.exact hp hgrid hsum (t.height - 2 - l + 1) l k (by omega) hk
    rw [hx] at ex
    rw [← Nat.add_assoc, hy] at ey
    simp only [Option.some.injEq] at ex ey
    refine en.trans ?_
    rw [ex, ey]
    have e1 : k * 2 ^ (t.height - 2 - l + 1) = 2 * k * 2 ^ (t.height - 2 - l) := by rw [Nat.pow_succ]; ring
    have e2 : (k + 1) * 2 ^ (t.height - 2 - l + 1) = (2 * k + 1 + 1) * 2 ^ (t.height - 2 - l) := by
      rw [Nat.pow_succ]; ring
    rw [e1, e2]
    congr 1
    ring
  have hroot : t.rootValue = .ok t.values.sum := hinv'.root_sum
  refine ⟨hroot, ?_⟩
  have hgs : OnGrid a t.values.sum := onGrid_sum hgrid
  have hfs : fl p t.values.sum = t.values.sum := fl_of_rep hp (hgs.rep hsum)
  have hgl := hinv.leaves_mem (P := OnGrid a) ⟨0, by simp⟩ hgrid
  have harr : ∀ x ∈ t.arr, OnGrid a x := by
    intro x hx
    obtain ⟨j, hj, rfl⟩ := List.mem_iff_getElem.1 hx
    have hl1 : 2 ^ Nat.log 2 (j + 1) ≤ j + 1 := Nat.pow_log_le_self 2 (by omega)
    have hl2 : j + 1 < 2 ^ (Nat.log 2 (j + 1) + 1) := Nat.lt_pow_succ_log_self (by norm_num) _
    have hlev : Nat.log 2 (j + 1) < t.height := by
      by_contra hge
      have h1 : 2 ^ t.height ≤ 2 ^ Nat.log 2 (j + 1) := Nat.pow_le_pow_right (by norm_num) (by omega)
      have h2 := hinv.len
      omega
    generalize Nat.log 2 (j + 1) = lev at *
    rw [Nat.pow_succ] at hl2
    have en := hinv.exact hp hgrid hsum (t.height - 1 - lev) lev (j + 1 - 2 ^ lev) (by omega) (by omega)
    rw [show 2 ^ lev - 1 + (j + 1 - 2 ^ lev) = j by have := Nat.two_pow_pos lev; omega, List.getElem?_eq_getElem hj] at en
    rw [Option.some.inj en, ← slice_sum _ (Nat.mul_le_mul_right _ (by omega))]
    exact onGrid_sum fun z hz => hgl z (slice_mem hz)
  have hq : (0 : K) < (2 ^ p)⁻¹ := by positivity
  have e1 : (u.any (fun x => decide (x > 1)) || u.any (fun x => decide (x < 0))) = false := by
    simp only [Bool.or_eq_false_iff, List.any_eq_false, decide_eq_true_eq, not_lt]
    exact ⟨fun x hx => by have := (hu x hx).2; linarith, fun x hx => (hu x hx).1⟩
  have e2 : t.inverseCdfR (fl p) u =
      u.mapM (fun x => descendR (fl p) t.arr (t.height - 1) 1 0 0 (fl p (x * t.values.sum))) := by
    unfold Tree.inverseCdfR
    rw [hroot]
    simp only [bind, Except.bind]
    rw [if_neg (not_le.2 hpos), e1]
    rfl
  rw [e2]
  clear e1 e2
  induction u with
  | nil => exact ⟨[], rfl, .nil⟩
  | cons x u ih =>
    obtain ⟨idx, e, hf⟩ := ih (fun y hy => hu y (by simp [hy]))
    have hx := hu x (by simp)
    have hx0 : 0 ≤ x * t.values.sum := mul_nonneg hx.1 hpos.le
    have hlt := fl_mul_lt hp hpos hfs hx.1 hx.2
    have hv0 := fl_nonneg (p := p) hx0
    obtain ⟨i, e', hi, hlo, hhi⟩ := hinv'.descend_root (target := fl p (x * t.values.sum)) hv0 hlt
    have e3 : descendR (fl p) t.arr (t.height - 1) 1 0 0 (fl p (x * t.values.sum)) = .ok i := by
      rw [descendR_exact hp harr _ _ _ _ _ (rep_fl hx0) (hlt.le.trans hsum)]
      exact e'
    refine ⟨i :: idx, by rw [List.mapM_cons, e3, e]; rfl, .cons ⟨hi, hlo, hhi, ?_⟩ hf⟩
    have hlen : i < t.values.length := by rw [hinv.values_length]; exact hi
    refine ⟨t.values[i], by simp [hlen], ?_⟩
    have hs : cumsum t.values (i + 1) = cumsum t.values i + t.values[i] := cumsum_succ (by simp [hlen])
    have hlo' : cumsum t.values i ≤ fl p (x * t.values.sum) := hlo
    have hhi' : fl p (x * t.values.sum) < cumsum t.values (i + 1) := hhi
    rw [hs] at hhi'
    linarith

/-- C132 fails for doubles in general, first form: a tree with three positive values around one, and the largest double
below one.  `inverse_cdf` returns position 3, which is not a position of the tree (it is a padding entry).  The exact
sum of the first two values is `1/2 - 2^-53` and its sum with the third one is rounded up; the difference at the root
is then rounded up to the whole of the right-hand child. -/
theorem C132_out_of_range_counterexample : ¬ ∀ (t : Tree ℚ), Reachable 3 (fun x y => fl 53 (x + y)) 0 t →
    (∀ v ∈ t.values, 0 < v ∧ fl 53 v = v) → ∀ x : ℚ, 0 ≤ x → x < 1 → fl 53 x = x →
    ∀ idx, t.inverseCdfR (fl 53) [x] = .ok idx → ∀ i ∈ idx, i < 3 := by
  intro hall
  have h1 : ∀ v ∈ (run (Tree.init 3 (fun x y : ℚ => fl 53 (x + y)) 0)
      [⟨.all, [1 / 4, 1 / 4 - 1 / 2 ^ 53, 1 + 1 / 2 ^ 51]⟩]).values, 0 < v ∧ fl 53 v = v := by decide +kernel
  have h2 : (run (Tree.init 3 (fun x y : ℚ => fl 53 (x + y)) 0)
      [⟨.all, [1 / 4, 1 / 4 - 1 / 2 ^ 53, 1 + 1 / 2 ^ 51]⟩]).inverseCdfR (fl 53) [1 - 1 / 2 ^ 53] = .ok [3] := by
    decide +kernel
  have h3 := hall _ ⟨_, rfl⟩ h1 (1 - 1 / 2 ^ 53) (by norm_num) (by norm_num) (by decide +kernel) [3] h2 3 (by simp)
  omega

/-- C132 fails for doubles in general, second form: a position that was never written (value zero) is returned. -/
theorem C132_zero_weight_counterexample : ¬ ∀ (t : Tree ℚ), Reachable 4 (fun x y => fl 53 (x + y)) 0 t →
    (∀ v ∈ t.values, 0 ≤ v ∧ fl 53 v = v) → ∀ x : ℚ, 0 ≤ x → x < 1 → fl 53 x = x →
    ∀ idx, t.inverseCdfR (fl 53) [x] = .ok idx → ∀ i ∈ idx, ∃ v, t.values[i]? = some v ∧ 0 < v := by
  intro hall
  have h1 : ∀ v ∈ (run (Tree.init 4 (fun x y : ℚ => fl 53 (x + y)) 0)
      [⟨.arr [0, 1, 2], [1 / 4, 1 / 4 - 1 / 2 ^ 53, 1 + 1 / 2 ^ 51]⟩]).values, 0 ≤ v ∧ fl 53 v = v := by decide +kernel
  have h2 : (run (Tree.init 4 (fun x y : ℚ => fl 53 (x + y)) 0)
      [⟨.arr [0, 1, 2], [1 / 4, 1 / 4 - 1 / 2 ^ 53, 1 + 1 / 2 ^ 51]⟩]).inverseCdfR (fl 53) [1 - 1 / 2 ^ 53] = .ok [3] := by
    decide +kernel
  have h4 : (run (Tree.init 4 (fun x y : ℚ => fl 53 (x + y)) 0)
      [⟨.arr [0, 1, 2], [1 / 4, 1 / 4 - 1 / 2 ^ 53, 1 + 1 / 2 ^ 51]⟩]).values[3]? = some 0 := by decide +kernel
  obtain ⟨v, e, hv⟩ := hall _ ⟨_, rfl⟩ h1 (1 - 1 / 2 ^ 53) (by norm_num) (by norm_num) (by decide +kernel) [3] h2 3
    (by simp)
  rw [h4] at e
  obtain rfl := Option.some.inj e
  exact lt_irrefl _ hv

/-- C132, what doubles are used for: rounding to 53 binary digits is a rounding with relative error `2^-53`, and the
error of a draw from a tree with a million positions (20 levels) is at most `101 * 2^-53` of the total. -/
theorem C132_doubles : Rounding ((2 ^ 53)⁻¹ : K) (fl 53) ∧ cdfError ((2 ^ 53)⁻¹ : K) 20 ≤ 101 * (2 ^ 53)⁻¹ := by
  refine ⟨fl_rounding (by norm_num), ?_⟩
  have := C132_error_small (K := K) (ε := (2 ^ 53)⁻¹) (by positivity) (n := 20) (by norm_num)
  norm_num at this ⊢
  exact this

/-- A tree that meets the hypotheses of `C132_inverse_cdf`, after two calls, one of which overwrites a value. -/
example : ∃ t : Tree ℚ, Reachable 3 (fun x y => fl 53 (x + y)) 0 t ∧ (∀ x ∈ t.values, 0 ≤ x) ∧
    (∀ x ∈ t.values, fl 53 x = x) ∧ t.values = [5, 1 / 8, 0] ∧ t.rootValue = .ok (41 / 8) ∧
    t.inverseCdfR (fl 53) [0, 1 / 2, 1 - 1 / 2 ^ 53] = .ok [0, 0, 1] := by
  refine ⟨_, ⟨[⟨.arr [0, 1], [7, 1 / 8]⟩, ⟨.arr [0], [5]⟩], rfl⟩, ?_, ?_, ?_, ?_, ?_⟩ <;> decide +kernel

/-- A tree that meets the hypotheses of `C132_grid_partial` (integers). -/
example : ∃ t : Tree ℚ, Reachable 3 (fun x y => fl 53 (x + y)) 0 t ∧ (∀ x ∈ t.values, OnGrid 0 x) ∧
    t.values.sum ≤ 2 ^ 53 * 2 ^ (0 : Int) ∧ 0 < t.values.sum := by
  have e : (run (Tree.init 3 (fun x y : ℚ => fl 53 (x + y)) 0) [⟨.all, [3, 0, 2 ^ 52]⟩]).values = [3, 0, 2 ^ 52] := by
    decide +kernel
  refine ⟨_, ⟨[⟨.all, [3, 0, 2 ^ 52]⟩], rfl⟩, ?_, ?_, ?_⟩
  · rw [e]
    intro x hx
    simp only [List.mem_cons, List.not_mem_nil, or_false] at hx
    rcases hx with rfl | rfl | rfl
    · exact ⟨3, by norm_num⟩
    · exact ⟨0, by norm_num⟩
    · exact ⟨2 ^ 52, by norm_num⟩
  · rw [e]; norm_num
  · rw [e]; norm_num

end Coax.SegmentTree
