import Verif.Dists.IntervalProps
import Mathlib.Algebra.BigOperators.Module
import Mathlib.Algebra.Order.Chebyshev
import Mathlib.MeasureTheory.Integral.Bochner.Set
import Mathlib.MeasureTheory.Measure.Lebesgue.Basic
import Mathlib.Analysis.InnerProductSpace.PiL2

/-! Property C122: the projection of distributional reinforcement learning is a contraction for the Cramér distance. -/

namespace Coax.Dists

open MeasureTheory

variable {n : Nat}

/-! ### The distance -/

open Classical in
/-- The distribution function of masses `p` at the points `z`. -/
noncomputable def cdf (z p : Fin n → ℝ) (x : ℝ) : ℝ := ∑ k, if z k ≤ x then p k else 0

/-- The square of the Cramér distance: the integral of the squared difference of the distribution functions. -/
noncomputable def cramerSq (z p p' : Fin n → ℝ) : ℝ := ∫ x, (cdf z p x - cdf z p' x) ^ 2

/-- The Cramér distance. -/
noncomputable def cramer (z p p' : Fin n → ℝ) : ℝ := Real.sqrt (cramerSq z p p')

/-! ### Steps of the distribution functions -/

/-- The masses of the first `j` atoms. -/
noncomputable def cum (p : Fin n → ℝ) (j : ℕ) : ℝ := ∑ k ∈ Finset.range j, if h : k < n then p ⟨k, h⟩ else 0

theorem cum_zero (p : Fin n → ℝ) : cum p 0 = 0 := by simp [cum]

theorem cum_succ (p : Fin n → ℝ) {j : ℕ} (h : j < n) : cum p (j + 1) = cum p j + p ⟨j, h⟩ := by
  unfold cum
  rw [Finset.sum_range_succ, dif_pos h]

theorem cum_all (p : Fin n → ℝ) : cum p n = ∑ k, p k := by
  unfold cum
  rw [Finset.sum_range]
  exact Finset.sum_congr rfl fun k _ => by rw [dif_pos k.2]

theorem cum_le (p : Fin n → ℝ) {j : ℕ} (h : j ≤ n) : cum p j = ∑ k : Fin n, if k.1 < j then p k else 0 := by
  have e := Finset.sum_range (n := n) (fun k => if k < j then (if h : k < n then p ⟨k, h⟩ else 0) else 0)
  have e' : ∑ k : Fin n, (if k.1 < j then (if h : k.1 < n then p ⟨k.1, h⟩ else 0) else 0) = ∑ k : Fin n, if k.1 < j then p k else 0 :=
    Finset.sum_congr rfl fun k _ => by simp
  rw [← e', ← e, ← Finset.sum_filter]
  unfold cum
  refine Finset.sum_congr ?_ fun _ _ => rfl
  ext k; simp; omega

/-! ### The cumulated weights of a value -/

/-- Weight on the first `j` integers. -/
noncomputable def ramp (b : ℝ) (j : ℕ) : ℝ := min 1 (max 0 ((j : ℝ) - b))

theorem ramp_step (x : ℝ) : min 1 (max 0 x) + max 0 (1 - |x|) = min 1 (max 0 (x + 1)) := by
  rcases le_total x 0 with h | h
  · rw [max_eq_left h, abs_of_nonpos h, min_eq_right zero_le_one, zero_add, sub_neg_eq_add, add_comm, min_eq_right (max_le zero_le_one (by linarith))]
  · rw [max_eq_right h, abs_of_nonneg h, max_eq_right (by linarith : (0 : ℝ) ≤ x + 1), min_eq_left (by linarith : (1 : ℝ) ≤ x + 1)]
    rcases le_total x 1 with h1 | h1
    · rw [min_eq_right h1, max_eq_right (by linarith)]; ring
    · rw [min_eq_left h1, max_eq_left (by linarith)]; ring

theorem hat_cum {b : ℝ} (hb : 0 ≤ b) (j : ℕ) : ∑ k ∈ Finset.range j, hat b (k : Int) = ramp b j := by
  induction j with
  | zero => simp [ramp, hb]
  | succ j ih =>
    rw [Finset.sum_range_succ, ih]
    have := ramp_step ((j : ℝ) - b)
    unfold ramp hat
    rw [Int.cast_natCast, abs_sub_comm, this]
    push_cast
    congr 2; ring

theorem ramp_sum {b : ℝ} (hb : 0 ≤ b) (N : ℕ) : ∑ j ∈ Finset.range N, ramp b (j + 1) = max 0 ((N : ℝ) - b) := by
  induction N with
  | zero => simp [hb]
  | succ N ih =>
    rw [Finset.sum_range_succ, ih]
    unfold ramp
    push_cast
    set x := (N : ℝ) - b with hx
    rw [show (N : ℝ) + 1 - b = x + 1 by rw [hx]; ring]
    rcases le_total x 0 with h | h
    · rw [max_eq_left h, zero_add, min_eq_right (max_le zero_le_one (by linarith))]
    · rw [max_eq_right h, max_eq_right (by linarith : (0 : ℝ) ≤ x + 1), min_eq_left (by linarith)]

theorem ramp_anti {b b' : ℝ} (h : b ≤ b') (j : ℕ) : ramp b' j ≤ ramp b j := by
  unfold ramp
  exact min_le_min_left _ (max_le_max_left _ (by linarith))

theorem ramp_nonneg (b : ℝ) (j : ℕ) : 0 ≤ ramp b j := le_min zero_le_one (le_max_left _ _)

theorem ramp_le (b : ℝ) (j : ℕ) : ramp b j ≤ 1 := min_le_left _ _

/-- The core: moving the atoms to sorted places whose distances are at most `κ`, and sharing their masses between the neighbours, contracts by `κ`. -/
theorem contract {N : ℕ} {b d : ℕ → ℝ} {κ : ℝ} (hb0 : ∀ i, 0 ≤ b i) (hbN : ∀ i, b i ≤ N) (hmono : ∀ i, b i ≤ b (i + 1)) (hκ : ∀ i, b (i + 1) - b i ≤ κ) (hd : ∑ i ∈ Finset.range (N + 1), d i = 0) :
    ∑ j ∈ Finset.range N, (∑ i ∈ Finset.range (N + 1), d i * ramp (b i) (j + 1)) ^ 2 ≤ κ * ∑ i ∈ Finset.range N, (∑ k ∈ Finset.range (i + 1), d k) ^ 2 := by
  have habel : ∀ j, ∑ i ∈ Finset.range (N + 1), d i * ramp (b i) (j + 1) = ∑ i ∈ Finset.range N, (ramp (b i) (j + 1) - ramp (b (i + 1)) (j + 1)) * ∑ k ∈ Finset.range (i + 1), d k := by
    intro j
    have := Finset.sum_range_by_parts (fun i => ramp (b i) (j + 1)) d (N + 1)
    simp only [smul_eq_mul, hd, mul_zero, zero_sub, Nat.add_sub_cancel] at this
    rw [Finset.sum_congr rfl fun i _ => mul_comm (d i) _, this, ← Finset.sum_neg_distrib]
    exact Finset.sum_congr rfl fun i _ => by ring
  have hc0 : ∀ i j, 0 ≤ ramp (b i) (j + 1) - ramp (b (i + 1)) (j + 1) := fun i j => sub_nonneg.2 (ramp_anti (hmono i) _)
  have hcs : ∀ j, ∑ i ∈ Finset.range N, (ramp (b i) (j + 1) - ramp (b (i + 1)) (j + 1)) ≤ 1 := by
    intro j
    rw [Finset.sum_range_sub']
    have := ramp_le (b 0) (j + 1)
    have := ramp_nonneg (b N) (j + 1)
    linarith
  have hcol : ∀ i, ∑ j ∈ Finset.range N, (ramp (b i) (j + 1) - ramp (b (i + 1)) (j + 1)) ≤ κ := by
    intro i
    rw [Finset.sum_sub_distrib, ramp_sum (hb0 i), ramp_sum (hb0 (i + 1)), max_eq_right (by have := hbN i; linarith), max_eq_right (by have := hbN (i + 1); linarith)]
    have := hκ i
    linarith
  calc ∑ j ∈ Finset.range N, (∑ i ∈ Finset.range (N + 1), d i * ramp (b i) (j + 1)) ^ 2
      ≤ ∑ j ∈ Finset.range N, ∑ i ∈ Finset.range N, (ramp (b i) (j + 1) - ramp (b (i + 1)) (j + 1)) * (∑ k ∈ Finset.range (i + 1), d k) ^ 2 := by
        refine Finset.sum_le_sum fun j _ => ?_
        rw [habel]
        have cs := Finset.sum_mul_sq_le_sq_mul_sq (Finset.range N) (fun i => Real.sqrt (ramp (b i) (j + 1) - ramp (b (i + 1)) (j + 1)))
          (fun i => Real.sqrt (ramp (b i) (j + 1) - ramp (b (i + 1)) (j + 1)) * ∑ k ∈ Finset.range (i + 1), d k)
        have e1 : ∀ i, Real.sqrt (ramp (b i) (j + 1) - ramp (b (i + 1)) (j + 1)) * (Real.sqrt (ramp (b i) (j + 1) - ramp (b (i + 1)) (j + 1)) * ∑ k ∈ Finset.range (i + 1), d k) =
            (ramp (b i) (j + 1) - ramp (b (i + 1)) (j + 1)) * ∑ k ∈ Finset.range (i + 1), d k := fun i => by rw [← mul_assoc, Real.mul_self_sqrt (hc0 i j)]
        simp only [e1, mul_pow, Real.sq_sqrt (hc0 _ j)] at cs
        refine cs.trans ?_
        exact mul_le_of_le_one_left (Finset.sum_nonneg fun i _ => mul_nonneg (hc0 i j) (sq_nonneg _)) (hcs j)
    _ = ∑ i ∈ Finset.range N, (∑ j ∈ Finset.range N, (ramp (b i) (j + 1) - ramp (b (i + 1)) (j + 1))) * (∑ k ∈ Finset.range (i + 1), d k) ^ 2 := by
        rw [Finset.sum_comm]
        exact Finset.sum_congr rfl fun i _ => by rw [Finset.sum_mul]
    _ ≤ ∑ i ∈ Finset.range N, κ * (∑ k ∈ Finset.range (i + 1), d k) ^ 2 := Finset.sum_le_sum fun i _ => mul_le_mul_of_nonneg_right (hcol i) (sq_nonneg _)
    _ = _ := by rw [Finset.mul_sum]

/-! ### Distribution functions of masses on equidistant points -/

theorem cdf_eq {z0 dz : ℝ} (hdz : 0 < dz) {z : Fin n → ℝ} (hz : ∀ k, z k = z0 + k.1 * dz) (p : Fin n → ℝ) {x : ℝ} {j : ℕ} (hj : j ≤ n)
    (h1 : ∀ i, i < j → z0 + i * dz ≤ x) (h2 : j < n → x < z0 + j * dz) : cdf z p x = cum p j := by
  rw [cum_le p hj]
  unfold cdf
  refine Finset.sum_congr rfl fun k _ => ?_
  by_cases hk : k.1 < j
  · rw [if_pos hk, if_pos (by rw [hz]; exact h1 _ hk)]
  · rw [if_neg hk, if_neg]
    rw [hz, not_le]
    have hjk : (j : ℝ) ≤ k.1 := by exact_mod_cast (not_lt.1 hk)
    have := h2 (lt_of_le_of_lt (not_lt.1 hk) k.2)
    have := mul_le_mul_of_nonneg_right hjk hdz.le
    linarith

/-- The squared Cramér distance of masses on equidistant points with equal totals is the spacing times the sum of the squared differences of the cumulated masses. -/
theorem cramerSq_eq {z0 dz : ℝ} (hdz : 0 < dz) {z : Fin n → ℝ} (hz : ∀ k, z k = z0 + k.1 * dz) {p p' : Fin n → ℝ} (hp : ∑ k, p k = ∑ k, p' k) :
    cramerSq z p p' = dz * ∑ j ∈ Finset.range (n - 1), (cum p (j + 1) - cum p' (j + 1)) ^ 2 := by
  have hf : ∀ x, (cdf z p x - cdf z p' x) ^ 2 = ∑ j ∈ Finset.range (n - 1), (Set.Ico (z0 + j * dz) (z0 + (j + 1 : ℕ) * dz)).indicator (fun _ => (cum p (j + 1) - cum p' (j + 1)) ^ 2) x := by
    intro x
    by_cases hlow : x < z0
    · have h1 := cdf_eq hdz hz p (Nat.zero_le n) (x := x) (fun i hi => absurd hi (by omega)) (fun _ => by simpa using hlow)
      have h2 := cdf_eq hdz hz p' (Nat.zero_le n) (x := x) (fun i hi => absurd hi (by omega)) (fun _ => by simpa using hlow)
      rw [h1, h2, cum_zero, cum_zero, Finset.sum_eq_zero]
      · ring
      · intro j _
        rw [Set.indicator_of_notMem]
        intro hm
        have h0 : (0 : ℝ) ≤ j * dz := by positivity
        have := hm.1
        linarith
    · push Not at hlow
      set q := ⌊(x - z0) / dz⌋₊ with hq
      have hx0 : 0 ≤ (x - z0) / dz := div_nonneg (by linarith) hdz.le
      have q1 : z0 + q * dz ≤ x := by
        have := Nat.floor_le hx0
        rw [← hq, le_div_iff₀ hdz] at this
        linarith
      have q2 : x < z0 + (q + 1 : ℕ) * dz := by
        have := Nat.lt_floor_add_one ((x - z0) / dz)
        rw [← hq, div_lt_iff₀ hdz] at this
        push_cast
        linarith
      have huniq : ∀ j : ℕ, x ∈ Set.Ico (z0 + j * dz) (z0 + (j + 1 : ℕ) * dz) → j = q := by
        rintro j ⟨m1, m2⟩
        have a1 : (j : ℝ) * dz < (q + 1 : ℕ) * dz := by linarith
        have a2 : (q : ℝ) * dz < (j + 1 : ℕ) * dz := by linarith
        have b1 := lt_of_mul_lt_mul_right a1 hdz.le
        have b2 := lt_of_mul_lt_mul_right a2 hdz.le
        have c1 : j < q + 1 := by exact_mod_cast b1
        have c2 : q < j + 1 := by exact_mod_cast b2
        omega
      have hle : ∀ i : ℕ, i < q + 1 → z0 + i * dz ≤ x := fun i hi => by
        have : (i : ℝ) ≤ q := by exact_mod_cast (by omega : i ≤ q)
        have := mul_le_mul_of_nonneg_right this hdz.le
        linarith
      by_cases hqn : q < n - 1
      · have e1 := cdf_eq hdz hz p (by omega : q + 1 ≤ n) (x := x) hle (fun _ => q2)
        have e2 := cdf_eq hdz hz p' (by omega : q + 1 ≤ n) (x := x) hle (fun _ => q2)
        rw [e1, e2, Finset.sum_eq_single q]
        · rw [Set.indicator_of_mem (show x ∈ Set.Ico (z0 + q * dz) (z0 + (q + 1 : ℕ) * dz) from ⟨q1, q2⟩)]
        · intro j _ hj
          exact Set.indicator_of_notMem (fun hm => hj (huniq j hm)) _
        · intro h; exact absurd (Finset.mem_range.2 hqn) h
      · have e1 := cdf_eq hdz hz p le_rfl (x := x) (fun i hi => hle i (by omega)) (fun h => absurd h (lt_irrefl _))
        have e2 := cdf_eq hdz hz p' le_rfl (x := x) (fun i hi => hle i (by omega)) (fun h => absurd h (lt_irrefl _))
        rw [e1, e2, cum_all, cum_all, hp, sub_self, Finset.sum_eq_zero]
        · ring
        · intro j hj
          exact Set.indicator_of_notMem (fun hm => hqn (by rw [← huniq j hm]; exact Finset.mem_range.1 hj)) _
  unfold cramerSq
  simp only [hf]
  rw [integral_finsetSum]
  · rw [Finset.mul_sum]
    refine Finset.sum_congr rfl fun j _ => ?_
    rw [integral_indicator measurableSet_Ico, setIntegral_const, Real.volume_real_Ico_of_le (by push_cast; nlinarith), smul_eq_mul]
    push_cast
    ring
  · intro j _
    rw [integrable_indicator_iff measurableSet_Ico]
    exact integrableOn_const (by simp)

theorem cramerSq_nonneg (z p p' : Fin n → ℝ) : 0 ≤ cramerSq z p p' := integral_nonneg fun _ => sq_nonneg _

/-! ### The projection -/

theorem atoms_eq (low high : ℝ) (k : Fin n) : atoms n low high k = (low + 0.5 * (high - low) / n) + k.1 * ((high - low) / n) := by
  unfold atoms; ring

theorem clip_mono {x y : ℝ} (h : x ≤ y) (lo hi : ℝ) : clip x lo hi ≤ clip y lo hi := min_le_min_right _ (max_le_max_right _ h)

theorem clip_lip {x y : ℝ} (h : x ≤ y) (lo hi : ℝ) : clip y lo hi - clip x lo hi ≤ y - x := by
  unfold clip
  rcases le_total x lo with h1 | h1 <;> rcases le_total y lo with h2 | h2
  · rw [max_eq_right h1, max_eq_right h2]; linarith
  · rw [max_eq_right h1, max_eq_left h2]
    rcases le_total y hi with h3 | h3 <;> rcases le_total lo hi with h4 | h4 <;>
      first
      | (rw [min_eq_left h3, min_eq_left h4]; linarith)
      | (rw [min_eq_left h3, min_eq_right h4]; linarith)
      | (rw [min_eq_right h3, min_eq_left h4]; linarith)
      | (rw [min_eq_right h3, min_eq_right h4]; linarith)
  · rw [max_eq_left h1, max_eq_right h2]
    have : x = y := by linarith
    have : x = lo := by linarith
    subst this; linarith
  · rw [max_eq_left h1, max_eq_left h2]
    rcases le_total y hi with h3 | h3 <;> rcases le_total x hi with h4 | h4 <;>
      first
      | (rw [min_eq_left h3, min_eq_left h4])
      | (rw [min_eq_left h3, min_eq_right h4]; linarith)
      | (rw [min_eq_right h3, min_eq_left h4]; linarith)
      | (rw [min_eq_right h3, min_eq_right h4]; linarith)

theorem cum_hat {b : Fin n → ℝ} (hb : ∀ i, 0 ≤ b i) (p : Fin n → ℝ) {m : Fin n → ℝ} (hm : ∀ k, m k = ∑ i, p i * hat (b i) (k.1 : Int)) {j : ℕ} (hj : j ≤ n) :
    cum m j = ∑ i, p i * ramp (b i) j := by
  induction j with
  | zero =>
    rw [cum_zero, Finset.sum_eq_zero]
    intro i _
    have : ramp (b i) 0 = 0 := by simp [ramp, hb i]
    rw [this, mul_zero]
  | succ j ih =>
    rw [cum_succ m (by omega), ih (by omega), hm, ← Finset.sum_add_distrib]
    refine Finset.sum_congr rfl fun i _ => ?_
    rw [← hat_cum (hb i), ← hat_cum (hb i), Finset.sum_range_succ, mul_add]

/-- C122.  Let `u ↦ f (scale·fInv u + shift)` be monotone with slope at most `κ`.  The projections of two distributions are closer than the distributions: the square of the Cramér distance shrinks at
least by the factor `κ`.  (The masses need not be non-negative, and clipping does not matter.) -/
theorem C122_projection (hn : 2 ≤ n) {low high : ℝ} (hlh : low < high) {p p' : Fin n → ℝ} (hp : ∑ k, p k = ∑ k, p' k) {scale shift κ : ℝ} {f fInv : ℝ → ℝ}
    (hg : ∀ x y, x ≤ y → f (scale * fInv x + shift) ≤ f (scale * fInv y + shift) ∧ f (scale * fInv y + shift) - f (scale * fInv x + shift) ≤ κ * (y - x)) :
    ∃ m m', project (by omega) (atoms n low high) p scale shift f fInv = some m ∧ project (by omega) (atoms n low high) p' scale shift f fInv = some m' ∧
      cramerSq (atoms n low high) m m' ≤ κ * cramerSq (atoms n low high) p p' := by
  have hn' : (0 : ℝ) < n := by exact_mod_cast (by omega : 0 < n)
  have hd : 0 < (high - low) / n := div_pos (by linarith) hn'
  obtain ⟨m, hm, hk⟩ := project_eq hn hlh p scale shift f fInv
  obtain ⟨m', hm', hk'⟩ := project_eq hn hlh p' scale shift f fInv
  obtain ⟨m1, hm1, -, hs, -⟩ := C48_projection hn hlh p scale shift f fInv
  obtain ⟨m1', hm1', -, hs', -⟩ := C48_projection hn hlh p' scale shift f fInv
  rw [hm] at hm1; cases hm1
  rw [hm'] at hm1'; cases hm1'
  refine ⟨m, m', hm, hm', ?_⟩
  set bF : Fin n → ℝ := fun i => pos n low high (target n (by omega) low high scale shift f fInv i) with hbF
  have hr : ∀ i, 0 ≤ bF i ∧ bF i ≤ (n : ℝ) - 1 := fun i => pos_range hn hlh scale shift f fInv i
  rw [cramerSq_eq hd (atoms_eq low high) (by rw [hs, hs', hp]), cramerSq_eq hd (atoms_eq low high) hp, mul_left_comm]
  refine mul_le_mul_of_nonneg_left ?_ hd.le
  obtain ⟨N, rfl⟩ : ∃ N, n = N + 1 := ⟨n - 1, by omega⟩
  have hN : ((N + 1 : ℕ) : ℝ) - 1 = N := by push_cast; ring
  have hstep : ∀ (i : ℕ) (h : i < N), bF ⟨i, by omega⟩ ≤ bF ⟨i + 1, by omega⟩ ∧ bF ⟨i + 1, by omega⟩ - bF ⟨i, by omega⟩ ≤ κ := by
    intro i h
    have hz : atoms (N + 1) low high ⟨i + 1, by omega⟩ - atoms (N + 1) low high ⟨i, by omega⟩ = (high - low) / (N + 1 : ℕ) := by
      rw [atoms_eq, atoms_eq]; push_cast; ring
    obtain ⟨g1, g2⟩ := hg (atoms (N + 1) low high ⟨i, by omega⟩) (atoms (N + 1) low high ⟨i + 1, by omega⟩) (by linarith)
    rw [hz] at g2
    have hc1 := clip_mono g1 (atoms (N + 1) low high ⟨0, by omega⟩) (atoms (N + 1) low high ⟨N + 1 - 1, by omega⟩)
    have hc2 := clip_lip g1 (atoms (N + 1) low high ⟨0, by omega⟩) (atoms (N + 1) low high ⟨N + 1 - 1, by omega⟩)
    simp only [hbF, pos, target]
    refine ⟨div_le_div_of_nonneg_right (by linarith) hd.le, ?_⟩
    rw [← sub_div, div_le_iff₀ hd]
    linarith
  have hκ : 0 ≤ κ := by
    obtain ⟨s1, s2⟩ := hstep 0 (by omega)
    linarith
  have hmin : ∀ i : ℕ, min i N < N + 1 := fun i => by omega
  have key := contract (N := N) (b := fun i => bF ⟨min i N, hmin i⟩) (d := fun i => if h : i < N + 1 then p ⟨i, h⟩ - p' ⟨i, h⟩ else 0) (κ := κ)
    (fun i => (hr _).1) (fun i => by have := (hr ⟨min i N, hmin i⟩).2; rw [hN] at this; exact this)
    (fun i => by
      by_cases h : i < N
      · have e1 : min i N = i := by omega
        have e2 : min (i + 1) N = i + 1 := by omega
        simp only [e1, e2]
        exact (hstep i h).1
      · have e : min i N = min (i + 1) N := by omega
        simp only [e]; exact le_rfl)
    (fun i => by
      by_cases h : i < N
      · have e1 : min i N = i := by omega
        have e2 : min (i + 1) N = i + 1 := by omega
        simp only [e1, e2]
        exact (hstep i h).2
      · have e : min i N = min (i + 1) N := by omega
        simp only [e, sub_self]; exact hκ)
    (by
      rw [Finset.sum_range]
      simp only [Fin.is_lt, dif_pos, Fin.eta, Finset.sum_sub_distrib, hp, sub_self])
  have e1 : ∀ j ∈ Finset.range N, (cum m (j + 1) - cum m' (j + 1)) ^ 2 =
      (∑ i ∈ Finset.range (N + 1), (if h : i < N + 1 then p ⟨i, h⟩ - p' ⟨i, h⟩ else 0) * ramp (bF ⟨min i N, hmin i⟩) (j + 1)) ^ 2 := by
    intro j hj
    rw [Finset.mem_range] at hj
    rw [cum_hat (fun i => (hr i).1) p hk (by omega), cum_hat (fun i => (hr i).1) p' hk' (by omega), ← Finset.sum_sub_distrib, Finset.sum_range]
    congr 1
    refine Finset.sum_congr rfl fun i _ => ?_
    have e : (⟨min i.1 N, hmin i.1⟩ : Fin (N + 1)) = i := Fin.ext (by simp; omega)
    rw [e, dif_pos i.2]
    ring
  have e2 : ∀ j ∈ Finset.range N, (cum p (j + 1) - cum p' (j + 1)) ^ 2 = (∑ k ∈ Finset.range (j + 1), if h : k < N + 1 then p ⟨k, h⟩ - p' ⟨k, h⟩ else 0) ^ 2 := by
    intro j _
    unfold cum
    rw [← Finset.sum_sub_distrib]
    congr 1
    refine Finset.sum_congr rfl fun k _ => ?_
    split <;> simp
  rw [Nat.add_sub_cancel, Finset.sum_congr rfl e1, Finset.sum_congr rfl e2]
  exact key

/-- C122.  Without value transform the factor is the scale: the discount factor, or zero at the end of an episode. -/
theorem C122_discount (hn : 2 ≤ n) {low high : ℝ} (hlh : low < high) {p p' : Fin n → ℝ} (hp : ∑ k, p k = ∑ k, p' k) {scale : ℝ} (hs : 0 ≤ scale) (shift : ℝ) :
    ∃ m m', project (by omega) (atoms n low high) p scale shift id id = some m ∧ project (by omega) (atoms n low high) p' scale shift id id = some m' ∧
      cramer (atoms n low high) m m' ≤ Real.sqrt scale * cramer (atoms n low high) p p' := by
  obtain ⟨m, m', h1, h2, h3⟩ := C122_projection hn hlh hp (scale := scale) (shift := shift) (κ := scale) (f := id) (fInv := id)
    (fun x y h => ⟨by have := mul_le_mul_of_nonneg_left h hs; simp only [id]; linarith, by simp only [id]; linarith⟩)
  refine ⟨m, m', h1, h2, ?_⟩
  unfold cramer
  rw [← Real.sqrt_mul hs]
  exact Real.sqrt_le_sqrt h3

/-! ### The distance as a norm -/

/-- The cumulated masses as a vector. -/
noncomputable def emb : (Fin n → ℝ) →ₗ[ℝ] EuclideanSpace ℝ (Fin (n - 1)) where
  toFun p := WithLp.toLp 2 fun j => cum p (j.1 + 1)
  map_add' p q := by
    ext j
    simp only [cum, PiLp.add_apply]
    rw [← Finset.sum_add_distrib]
    exact Finset.sum_congr rfl fun k _ => by split <;> simp
  map_smul' c p := by
    ext j
    simp only [cum, PiLp.smul_apply, RingHom.id_apply, smul_eq_mul]
    rw [Finset.mul_sum]
    exact Finset.sum_congr rfl fun k _ => by split <;> simp

theorem emb_apply (p : Fin n → ℝ) (j : Fin (n - 1)) : emb p j = cum p (j.1 + 1) := rfl

theorem cramer_emb (hn : 2 ≤ n) {low high : ℝ} (hlh : low < high) {p p' : Fin n → ℝ} (hp : ∑ k, p k = ∑ k, p' k) :
    cramer (atoms n low high) p p' = Real.sqrt ((high - low) / n) * dist (emb p) (emb p') := by
  have hn' : (0 : ℝ) < n := by exact_mod_cast (by omega : 0 < n)
  have hd : 0 < (high - low) / n := div_pos (by linarith) hn'
  unfold cramer
  rw [cramerSq_eq hd (atoms_eq low high) hp, Real.sqrt_mul hd.le, EuclideanSpace.dist_eq, Finset.sum_range]
  simp only [Real.dist_eq, sq_abs, emb_apply]

theorem emb_injective (hn : 0 < n) {p p' : Fin n → ℝ} (hp : ∑ k, p k = ∑ k, p' k) (h : emb p = emb p') : p = p' := by
  have hc : ∀ j, j ≤ n → cum p j = cum p' j := by
    intro j hj
    rcases Nat.eq_zero_or_pos j with rfl | h0
    · rw [cum_zero, cum_zero]
    rcases Nat.lt_or_ge j n with h1 | h1
    · have e : ∀ q : Fin n → ℝ, emb q ⟨j - 1, by omega⟩ = cum q j := fun q => by rw [emb_apply]; congr 1; simp only; omega
      rw [← e p, ← e p', h]
    · obtain rfl : j = n := by omega
      rw [cum_all, cum_all, hp]
  funext k
  have e1 := cum_succ p k.2
  have e2 := cum_succ p' k.2
  have h1 := hc k.1 k.2.le
  have h2 := hc (k.1 + 1) k.2
  have h3 : p ⟨k.1, k.2⟩ = p' ⟨k.1, k.2⟩ := by linarith
  exact h3

/-- Total differences bound the Cramér distance. -/
theorem cramer_le (hn : 2 ≤ n) {low high : ℝ} (hlh : low < high) {p p' : Fin n → ℝ} (hp : ∑ k, p k = ∑ k, p' k) {ε : ℝ} (hε : ∑ k, |p k - p' k| ≤ ε) :
    cramer (atoms n low high) p p' ≤ ε * Real.sqrt (high - low) := by
  have hn' : (0 : ℝ) < n := by exact_mod_cast (by omega : 0 < n)
  have hd : 0 < (high - low) / n := div_pos (by linarith) hn'
  have hε0 : 0 ≤ ε := (Finset.sum_nonneg fun k _ => abs_nonneg _).trans hε
  unfold cramer
  rw [cramerSq_eq hd (atoms_eq low high) hp, ← Real.sqrt_sq hε0, ← Real.sqrt_mul (sq_nonneg ε)]
  refine Real.sqrt_le_sqrt ?_
  have hterm : ∀ j ∈ Finset.range (n - 1), (cum p (j + 1) - cum p' (j + 1)) ^ 2 ≤ ε ^ 2 := by
    intro j hj
    rw [Finset.mem_range] at hj
    rw [sq_le_sq, abs_of_nonneg hε0, cum_le p (by omega), cum_le p' (by omega), ← Finset.sum_sub_distrib]
    refine (Finset.abs_sum_le_sum_abs _ _).trans (le_trans (Finset.sum_le_sum fun k _ => ?_) hε)
    split
    · exact le_rfl
    · simpa using abs_nonneg _
  have hsum := Finset.sum_le_sum hterm
  rw [Finset.sum_const, Finset.card_range, nsmul_eq_mul] at hsum
  have hcard : ((n - 1 : ℕ) : ℝ) ≤ n := by exact_mod_cast Nat.sub_le n 1
  calc (high - low) / n * ∑ j ∈ Finset.range (n - 1), (cum p (j + 1) - cum p' (j + 1)) ^ 2 ≤ (high - low) / n * (n * ε ^ 2) :=
        mul_le_mul_of_nonneg_left (hsum.trans (mul_le_mul_of_nonneg_right hcard (sq_nonneg ε))) hd.le
    _ = ε ^ 2 * (high - low) := by field_simp

/-- C122.  The Cramér distance is a metric on the distributions over the atoms. -/
theorem C122_metric (hn : 2 ≤ n) {low high : ℝ} (hlh : low < high) {p q r : Fin n → ℝ} (hpq : ∑ k, p k = ∑ k, q k) (hqr : ∑ k, q k = ∑ k, r k) :
    cramer (atoms n low high) p r ≤ cramer (atoms n low high) p q + cramer (atoms n low high) q r ∧ cramer (atoms n low high) p q = cramer (atoms n low high) q p ∧
      (cramer (atoms n low high) p q = 0 ↔ p = q) := by
  have hn' : (0 : ℝ) < n := by exact_mod_cast (by omega : 0 < n)
  have hd : 0 < Real.sqrt ((high - low) / n) := Real.sqrt_pos.2 (div_pos (by linarith) hn')
  rw [cramer_emb hn hlh hpq, cramer_emb hn hlh hqr, cramer_emb hn hlh (hpq.trans hqr), cramer_emb hn hlh hpq.symm]
  refine ⟨?_, by rw [dist_comm], ?_⟩
  · rw [← mul_add]
    exact mul_le_mul_of_nonneg_left (dist_triangle _ _ _) hd.le
  · rw [mul_eq_zero, or_iff_right hd.ne', dist_eq_zero]
    exact ⟨emb_injective (by omega) hpq, fun h => by rw [h]⟩

/-- C122.  The distance between mixtures is at most the mean of the distances. -/
theorem C122_mixture (hn : 2 ≤ n) {low high : ℝ} (hlh : low < high) {ι : Type _} [Fintype ι] {w : ι → ℝ} (hw : ∀ i, 0 ≤ w i) {p p' : ι → Fin n → ℝ} (hp : ∀ i, ∑ k, p i k = ∑ k, p' i k) :
    cramer (atoms n low high) (fun k => ∑ i, w i * p i k) (fun k => ∑ i, w i * p' i k) ≤ ∑ i, w i * cramer (atoms n low high) (p i) (p' i) := by
  have e : ∀ p : ι → Fin n → ℝ, (fun k => ∑ i, w i * p i k) = ∑ i, w i • p i := fun p => by
    funext k; simp [Finset.sum_apply]
  have ht : ∑ k, (∑ i, w i • p i) k = ∑ k, (∑ i, w i • p' i) k := by
    simp only [Finset.sum_apply, Pi.smul_apply, smul_eq_mul]
    rw [Finset.sum_comm, Finset.sum_comm (f := fun k i => w i * p' i k)]
    exact Finset.sum_congr rfl fun i _ => by rw [← Finset.mul_sum, ← Finset.mul_sum, hp]
  rw [e, e, cramer_emb hn hlh ht, map_sum, map_sum]
  have := dist_sum_sum_le Finset.univ (fun i => emb (w i • p i)) (fun i => emb (w i • p' i))
  refine (mul_le_mul_of_nonneg_left this (Real.sqrt_nonneg _)).trans (le_of_eq ?_)
  rw [Finset.mul_sum]
  refine Finset.sum_congr rfl fun i _ => ?_
  rw [map_smul, map_smul, dist_smul₀, Real.norm_eq_abs, abs_of_nonneg (hw i), cramer_emb hn hlh (hp i)]
  ring

/-- C122 for the code: the distributions whose logits `affine_transform` returns are closer than those that it gets, by the square root of the discount factor, up to the floor of `1e-16`. -/
theorem C122_output (hn : 2 ≤ n) {low high : ℝ} (hlh : low < high) (logits logits' : Fin n → ℝ) {scale : ℝ} (hs : 0 ≤ scale) (shift : ℝ) :
    ∃ out out', affineTransform (by omega) low high logits scale shift id id = some out ∧ affineTransform (by omega) low high logits' scale shift id id = some out' ∧
      cramer (atoms n low high) (softmax out) (softmax out') ≤ Real.sqrt scale * cramer (atoms n low high) (softmax logits) (softmax logits') + 4 * n * 1e-16 * Real.sqrt (high - low) := by
  obtain ⟨m, out, a1, a2, a3, a4, a5, a6, a7⟩ := C48_output hn hlh logits scale shift id id
  obtain ⟨m', out', b1, b2, b3, b4, b5, b6, b7⟩ := C48_output hn hlh logits' scale shift id id
  obtain ⟨m1, m1', c1, c2, c3⟩ := C122_discount hn hlh (p := softmax logits) (p' := softmax logits') (by rw [softmax_sum (by omega), softmax_sum (by omega)]) hs shift
  rw [a1] at c1; cases c1
  rw [b1] at c2; cases c2
  refine ⟨out, out', a2, b2, ?_⟩
  have d1 := cramer_le hn hlh (a6.trans a4.symm) a7
  have d2 := cramer_le hn hlh (b6.trans b4.symm) b7
  have t1 := (C122_metric hn hlh (a6.trans a4.symm) (a4.trans b6.symm)).1
  have t2 := (C122_metric hn hlh (a4.trans b4.symm) (b4.trans b6.symm)).1
  have sy := (C122_metric hn hlh (b4.trans b6.symm) (q := softmax out') (r := softmax out') rfl).2.1
  rw [sy] at t2
  linarith

end Coax.Dists
