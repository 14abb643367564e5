import Verif.Dists.IntervalProps

/-!
C68 for value functions with a discretized interval: the target is projected twice, first with the reward and the discount, then with the regularizer
(`coax/td_learning/_base.py:258-260, 416-418`).
-/

namespace Coax.TD

open Coax.Dists

variable {n : Nat}

/-- The projection does not increase differences of masses. -/
theorem project_nonexpansive (hn : 2 ≤ n) {low high : ℝ} (hlh : low < high) (p p' : Fin n → ℝ) (scale shift : ℝ) (f fInv : ℝ → ℝ) {m m' : Fin n → ℝ}
    (hm : project (by omega) (atoms n low high) p scale shift f fInv = some m) (hm' : project (by omega) (atoms n low high) p' scale shift f fInv = some m') :
    ∑ k, |m k - m' k| ≤ ∑ j, |p j - p' j| := by
  obtain ⟨_, h1, e1⟩ := project_eq hn hlh p scale shift f fInv
  obtain ⟨_, h2, e2⟩ := project_eq hn hlh p' scale shift f fInv
  rw [hm] at h1; rw [hm'] at h2
  cases h1; cases h2
  calc ∑ k, |m k - m' k| = ∑ k : Fin n, |∑ j, (p j - p' j) * hat (pos n low high (target n (by omega) low high scale shift f fInv j)) (k.1 : Int)| := by
        refine Finset.sum_congr rfl fun k _ => ?_
        rw [e1, e2, ← Finset.sum_sub_distrib]
        simp only [sub_mul]
    _ ≤ ∑ k : Fin n, ∑ j, |p j - p' j| * hat (pos n low high (target n (by omega) low high scale shift f fInv j)) (k.1 : Int) := by
        refine Finset.sum_le_sum fun k _ => (Finset.abs_sum_le_sum_abs _ _).trans (Finset.sum_le_sum fun j _ => ?_)
        rw [abs_mul, abs_of_nonneg (hat_nonneg _ _)]
    _ = ∑ j, |p j - p' j| := by
        rw [Finset.sum_comm]
        refine Finset.sum_congr rfl fun j _ => ?_
        rw [← Finset.mul_sum, (hat_sums (pos_range hn hlh scale shift f fInv j).1 (pos_range hn hlh scale shift f fInv j).2).1, mul_one]

/-- Atoms that receive mass are closer to a target than the spacing. -/
theorem near_target (hn : 2 ≤ n) {low high : ℝ} (hlh : low < high) {x : ℝ} {k : Fin n} (h : hat (pos n low high x) (k.1 : Int) ≠ 0) :
    |x - atoms n low high k| < (high - low) / n := by
  have hn' : (0 : ℝ) < n := by exact_mod_cast (by omega : 0 < n)
  have hd : 0 < (high - low) / n := div_pos (by linarith) hn'
  have h1 : |pos n low high x - ((k.1 : Int) : ℝ)| < 1 := by
    by_contra hge
    exact h (by unfold hat; rw [max_eq_left (by linarith)])
  have e : x - atoms n low high k = (pos n low high x - ((k.1 : Int) : ℝ)) * ((high - low) / n) := by
    have hw : high - low ≠ 0 := (sub_pos.2 hlh).ne'
    unfold pos atoms
    field_simp
    push_cast
    ring
  rw [e, abs_mul, abs_of_pos hd]
  calc _ < 1 * ((high - low) / n) := mul_lt_mul_of_pos_right h1 hd
    _ = _ := one_mul _

/-- The two projections with exact masses: the mean is that of the regularized return, provided the returns stay away from the ends of the interval by the regularizer
and one bin. -/
theorem two_projections (hn : 2 ≤ n) {low high : ℝ} (hlh : low < high) {p : Fin n → ℝ} (hp : ∑ j, p j = 1) {r d rho : ℝ}
    (hin : ∀ j, p j ≠ 0 → atoms n low high ⟨0, by omega⟩ ≤ d * atoms n low high j + r ∧ d * atoms n low high j + r ≤ atoms n low high ⟨n - 1, by omega⟩)
    (hmargin : ∀ j, p j ≠ 0 → atoms n low high ⟨0, by omega⟩ + rho + (high - low) / n ≤ d * atoms n low high j + r ∧
      d * atoms n low high j + r ≤ atoms n low high ⟨n - 1, by omega⟩ + rho - (high - low) / n) :
    ∃ m1 m2, project (by omega) (atoms n low high) p d r id id = some m1 ∧ project (by omega) (atoms n low high) m1 1 (-rho) id id = some m2 ∧
      ∑ k, m2 k * atoms n low high k = d * (∑ j, p j * atoms n low high j) + r - rho := by
  obtain ⟨m1, hm1, e1⟩ := project_eq hn hlh p d r id id
  obtain ⟨m1', hm1', -, hs1, hmean1⟩ := C48_projection hn hlh p d r id id
  rw [hm1] at hm1'; cases hm1'
  obtain ⟨m2, hm2, -, -, hmean2⟩ := C48_projection hn hlh m1 1 (-rho) id id
  refine ⟨m1, m2, hm1, hm2, ?_⟩
  have hclip1 : ∀ j, p j ≠ 0 → target n (by omega) low high d r id id j = d * atoms n low high j + r := by
    intro j hj
    unfold target clip
    rw [id, id, max_eq_left (hin j hj).1, min_eq_left (hin j hj).2]
  have hnear : ∀ k, m1 k ≠ 0 → atoms n low high ⟨0, by omega⟩ ≤ atoms n low high k - rho ∧ atoms n low high k - rho ≤ atoms n low high ⟨n - 1, by omega⟩ := by
    intro k hk
    rw [e1] at hk
    obtain ⟨j, -, hj⟩ := Finset.exists_ne_zero_of_sum_ne_zero hk
    have hpj := left_ne_zero_of_mul hj
    have hh := near_target hn hlh (right_ne_zero_of_mul hj)
    rw [hclip1 j hpj] at hh
    have := abs_lt.1 hh
    have := hmargin j hpj
    constructor <;> linarith
  rw [hmean2]
  calc _ = ∑ k, m1 k * (atoms n low high k - rho) := by
        refine Finset.sum_congr rfl fun k _ => ?_
        by_cases hk : m1 k = 0
        · rw [hk, zero_mul, zero_mul]
        · have := hnear k hk
          unfold clip
          rw [id, id, one_mul, ← sub_eq_add_neg, max_eq_left this.1, min_eq_left this.2]
    _ = (∑ k, m1 k * atoms n low high k) - rho := by
        simp only [mul_sub, Finset.sum_sub_distrib, ← Finset.sum_mul]
        rw [hs1, hp, one_mul]
    _ = _ := by
        rw [hmean1]
        have : ∑ j, p j * clip (id (d * id (atoms n low high j) + r)) (atoms n low high ⟨0, by omega⟩) (atoms n low high ⟨n - 1, by omega⟩)
            = ∑ j, p j * (d * atoms n low high j + r) := by
          refine Finset.sum_congr rfl fun j _ => ?_
          by_cases hj : p j = 0
          · rw [hj, zero_mul, zero_mul]
          · exact congrArg (p j * ·) (hclip1 j hj)
        rw [this]
        simp only [mul_add, Finset.sum_add_distrib, ← Finset.sum_mul]
        rw [hp, one_mul, Finset.mul_sum]
        congr 2
        exact Finset.sum_congr rfl fun j _ => by ring

theorem atoms_centre {low high : ℝ} (hlh : low < high) (k : Fin n) : |atoms n low high k - (low + high) / 2| ≤ (high - low) / 2 := by
  have hn' : (0 : ℝ) < n := by exact_mod_cast (by have := k.2; omega : 0 < n)
  have hk : ((k.1 : ℝ)) + 0.5 ≤ n := by
    have : (k.1 : ℝ) + 1 ≤ n := by exact_mod_cast k.2
    linarith
  have hk0 : (0 : ℝ) ≤ k.1 := by positivity
  have hw : 0 ≤ high - low := by linarith
  unfold atoms
  have hq : 0 ≤ (k.1 + 0.5) * (high - low) / n := by positivity
  have hq' : (k.1 + 0.5) * (high - low) / n ≤ high - low := by
    rw [div_le_iff₀ hn', mul_comm]; exact mul_le_mul_of_nonneg_left hk hw
  rw [abs_le]; constructor <;> linarith

/-- **C68** for discretized intervals without value transform: the mean of the regularized target is `Rn + In * mean - regularizer`, up to `2 n·1e-16` times the width of the
interval, if the returns stay away from the ends of the interval by the regularizer and one bin.  Missing: the distribution itself, which is not that of the
regularized return (`C68_interval_counterexample`), returns near the ends, and value transforms. -/
theorem C68_interval_partial (hn : 2 ≤ n) {low high : ℝ} (hlh : low < high) (logits : Fin n → ℝ) {r d rho : ℝ}
    (hin : ∀ j, atoms n low high ⟨0, by omega⟩ ≤ d * atoms n low high j + r ∧ d * atoms n low high j + r ≤ atoms n low high ⟨n - 1, by omega⟩)
    (hmargin : ∀ j, atoms n low high ⟨0, by omega⟩ + rho + (high - low) / n ≤ d * atoms n low high j + r ∧
      d * atoms n low high j + r ≤ atoms n low high ⟨n - 1, by omega⟩ + rho - (high - low) / n) :
    ∃ out1 out2, affineTransform (by omega) low high logits d r id id = some out1 ∧ affineTransform (by omega) low high out1 1 (-rho) id id = some out2 ∧
      |intervalMean low high out2 - (d * intervalMean low high logits + r - rho)| ≤ 2 * n * 1e-16 * (high - low) := by
  have hs := softmax_sum (n := n) (by omega) logits
  obtain ⟨m1, m2, hm1, hm2, hmean⟩ := two_projections hn hlh hs (r := r) (d := d) (rho := rho) (fun j _ => hin j) (fun j _ => hmargin j)
  obtain ⟨m, out1, h1, h2, -, h4, -, -, h7⟩ := C48_output hn hlh logits d r id id
  rw [hm1] at h1; cases h1
  obtain ⟨m', out2, g1, g2, -, g4, -, g6, g7⟩ := C48_output hn hlh out1 1 (-rho) id id
  refine ⟨out1, out2, h2, g2, ?_⟩
  have hle := project_nonexpansive hn hlh _ _ _ _ _ _ g1 hm2
  have htot : ∑ k, |softmax out2 k - m2 k| ≤ 4 * n * 1e-16 := by
    calc _ ≤ ∑ k, (|softmax out2 k - m' k| + |m' k - m2 k|) := Finset.sum_le_sum fun k _ => abs_sub_le _ _ _
      _ ≤ 2 * n * 1e-16 + 2 * n * 1e-16 := by rw [Finset.sum_add_distrib]; exact add_le_add g7 (hle.trans h7)
      _ = _ := by ring
  have hm2s : ∑ k, m2 k = 1 := by
    obtain ⟨_, e, -, hsum, -⟩ := C48_projection hn hlh m1 1 (-rho) id id
    rw [hm2] at e; cases e
    rw [hsum, h4]
  unfold intervalMean
  rw [← hmean, ← Finset.sum_sub_distrib]
  have e : ∑ k, (softmax out2 k * atoms n low high k - m2 k * atoms n low high k)
      = ∑ k, (softmax out2 k - m2 k) * (atoms n low high k - (low + high) / 2) := by
    simp only [mul_sub, Finset.sum_sub_distrib, ← Finset.sum_mul, sub_mul]
    rw [g6, hm2s]; ring
  rw [e]
  calc _ ≤ ∑ k, |(softmax out2 k - m2 k) * (atoms n low high k - (low + high) / 2)| := Finset.abs_sum_le_sum_abs _ _
    _ ≤ ∑ k, |softmax out2 k - m2 k| * ((high - low) / 2) := Finset.sum_le_sum (fun k _ => by
        rw [abs_mul]; exact mul_le_mul_of_nonneg_left (atoms_centre hlh k) (abs_nonneg _))
    _ = (∑ k, |softmax out2 k - m2 k|) * ((high - low) / 2) := by rw [Finset.sum_mul]
    _ ≤ (4 * n * 1e-16) * ((high - low) / 2) := mul_le_mul_of_nonneg_right htot (by linarith)
    _ = _ := by ring

/-- The hypotheses can be met: eleven bins on `[0, 11]`, a discount of `1/2` and a regularizer of `1`. -/
example (logits : Fin 11 → ℝ) : ∃ out1 out2, affineTransform (by omega) 0 11 logits (1 / 2) 3 id id = some out1 ∧
    affineTransform (by omega) 0 11 out1 1 (-1) id id = some out2 ∧
    |intervalMean 0 11 out2 - (1 / 2 * intervalMean 0 11 logits + 3 - 1)| ≤ 2 * (11 : ℕ) * 1e-16 * (11 - 0) := by
  refine C68_interval_partial (by norm_num) (by norm_num) logits (fun j => ?_) (fun j => ?_)
  all_goals
    have h0 : (0 : ℝ) ≤ j.1 := by positivity
    have h1 : (j.1 : ℝ) ≤ 10 := by exact_mod_cast (by omega : j.1 ≤ 10)
    simp only [atoms]
    constructor <;> norm_num <;> linarith

/-- C68 fails for the distribution: with three bins, a terminal transition whose return is half a bin above the middle, and a regularizer of half a bin, the regularized return is the middle
of the interval for certain; the target computed in two steps has half of its mass in the other bins. -/
theorem C68_interval_counterexample (p : Fin 3 → ℝ) (hp : ∑ j, p j = 1) :
    ∃ m1 m2 m, project (by omega) (atoms 3 0 3) p 0 2 id id = some m1 ∧ project (by omega) (atoms 3 0 3) m1 1 (-(1 / 2)) id id = some m2 ∧
      project (by omega) (atoms 3 0 3) p 0 (2 - 1 / 2) id id = some m ∧ m = ![0, 1, 0] ∧ m2 = ![1 / 4, 1 / 2, 1 / 4] := by
  obtain ⟨m1, h1, e1⟩ := project_eq (n := 3) (by norm_num) (by norm_num : (0 : ℝ) < 3) p 0 2 id id
  obtain ⟨m2, h2, e2⟩ := project_eq (n := 3) (by norm_num) (by norm_num : (0 : ℝ) < 3) m1 1 (-(1 / 2)) id id
  obtain ⟨m, h3, e3⟩ := project_eq (n := 3) (by norm_num) (by norm_num : (0 : ℝ) < 3) p 0 (2 - 1 / 2) id id
  have ht1 : ∀ j, target 3 (by omega) 0 3 0 2 id id j = 2 := by
    intro j; norm_num [target, clip, atoms]
  have ht3 : ∀ j, target 3 (by omega) 0 3 0 (2 - 1 / 2) id id j = 3 / 2 := by
    intro j; norm_num [target, clip, atoms]
  have hm1 : m1 = ![0, 1 / 2, 1 / 2] := by
    funext k
    rw [e1]
    simp only [ht1, ← Finset.sum_mul, hp, one_mul]
    fin_cases k <;> norm_num [hat, pos, abs_of_nonneg, abs_of_neg]
  refine ⟨m1, m2, m, h1, h2, h3, ?_, ?_⟩
  · funext k
    rw [e3]
    simp only [ht3, ← Finset.sum_mul, hp, one_mul]
    fin_cases k <;> norm_num [hat, pos, abs_of_nonneg, abs_of_neg]
  · funext k
    have a0 : m1 0 = 0 := by rw [hm1]; rfl
    have a1 : m1 1 = 1 / 2 := by rw [hm1]; rfl
    have a2 : m1 2 = 1 / 2 := by rw [hm1]; rfl
    rw [e2, Fin.sum_univ_three, a0, a1, a2]
    fin_cases k <;> norm_num [target, clip, atoms, hat, pos, abs_of_nonneg, abs_of_neg]

end Coax.TD
