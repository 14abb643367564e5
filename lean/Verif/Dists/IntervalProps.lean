import Verif.Dists.Interval
import Verif.Dists.CategoricalProps

/-! Property C48: the distributional projection. -/

namespace Coax.Dists

variable {n : Nat}

/-- The weights that a value `b` in `[0, n-1]` puts on the integers: `1 - |b - k|` for the neighbours. -/
noncomputable def hat (b : ℝ) (k : Int) : ℝ := max 0 (1 - |b - k|)

/-- The three terms of the projection add up to the hat function. -/
theorem three_terms (b : ℝ) (k : Int) :
    (if ⌊b⌋ = k then ((⌈b⌉ : ℝ) - b) else 0) + (if ⌈b⌉ = k then (b - ⌊b⌋) else 0) + (if ⌊b⌋ = k then (if ⌊b⌋ = ⌈b⌉ then (1 : ℝ) else 0) else 0) = hat b k := by
  have h1 := Int.floor_le b
  have h2 := Int.lt_floor_add_one b
  have h3 := Int.le_ceil b
  have h4 := Int.ceil_lt_add_one b
  unfold hat
  by_cases hint : (⌊b⌋ : ℝ) = b
  · have hc : ⌈b⌉ = ⌊b⌋ := by
      apply le_antisymm
      · rw [Int.ceil_le]; exact hint.ge
      · exact Int.floor_le_ceil b
    rw [hc]
    by_cases hk : ⌊b⌋ = k
    · subst hk
      simp [hint]
    · simp only [if_neg hk, add_zero]
      have : (1 : ℝ) ≤ |b - k| := by
        rw [← hint, ← Int.cast_sub, ← Int.cast_abs]
        have : 1 ≤ |⌊b⌋ - k| := Int.one_le_abs (sub_ne_zero.2 hk)
        exact_mod_cast this
      rw [max_eq_left (by linarith)]
  · have hlt : (⌊b⌋ : ℝ) < b := lt_of_le_of_ne h1 hint
    have hc : ⌈b⌉ = ⌊b⌋ + 1 := by
      apply le_antisymm
      · rw [Int.ceil_le]; push_cast; exact h2.le
      · exact Int.add_one_le_iff.2 (Int.lt_ceil.2 hlt)
    rw [hc]
    have hne : ¬ ⌊b⌋ = ⌊b⌋ + 1 := by omega
    simp only [if_neg hne, ite_self, add_zero]
    by_cases hk : ⌊b⌋ = k
    · subst hk
      rw [if_pos rfl, if_neg (by omega), abs_of_pos (by linarith), max_eq_right (by linarith)]
      push_cast; ring
    · by_cases hk' : ⌊b⌋ + 1 = k
      · subst hk'
        rw [if_neg hk, if_pos rfl]
        push_cast
        rw [abs_of_neg (by linarith), max_eq_right (by linarith)]; ring
      · rw [if_neg hk, if_neg hk']
        have : (1 : ℝ) ≤ |b - k| := by
          rcases lt_or_gt_of_ne hk with h | h
          · have : (⌊b⌋ : ℝ) + 2 ≤ k := by exact_mod_cast (show ⌊b⌋ + 2 ≤ k by omega)
            rw [abs_of_neg (by linarith)]; linarith
          · have : (k : ℝ) + 1 ≤ ⌊b⌋ := by exact_mod_cast (show k + 1 ≤ ⌊b⌋ by omega)
            rw [abs_of_pos (by linarith)]; linarith
        rw [max_eq_left (by linarith)]; norm_num

/-- The hat weights of `b ∈ [0, n-1]` on `0, …, n-1` sum to one, and their mean is `b`. -/
theorem hat_sums {b : ℝ} (h0 : 0 ≤ b) (h1 : b ≤ (n : ℝ) - 1) :
    ∑ k : Fin n, hat b (k.1 : Int) = 1 ∧ ∑ k : Fin n, hat b (k.1 : Int) * (k.1 : ℝ) = b := by
  have hfl : 0 ≤ ⌊b⌋ := Int.floor_nonneg.2 h0
  have hfn : ⌊b⌋ < (n : Int) := by rw [Int.floor_lt]; push_cast; linarith
  have hcl : 0 ≤ ⌈b⌉ := le_trans hfl (Int.floor_le_ceil b)
  have hcn : ⌈b⌉ < (n : Int) := by
    have : ⌈b⌉ ≤ (n : Int) - 1 := by rw [Int.ceil_le]; push_cast; exact h1
    omega
  obtain ⟨l, hl⟩ : ∃ l : Fin n, (l.1 : Int) = ⌊b⌋ := ⟨⟨⌊b⌋.toNat, by omega⟩, by simp only; omega⟩
  obtain ⟨u, hu⟩ : ∃ u : Fin n, (u.1 : Int) = ⌈b⌉ := ⟨⟨⌈b⌉.toNat, by omega⟩, by simp only; omega⟩
  have el : ∀ k : Fin n, (⌊b⌋ = (k.1 : Int)) ↔ l = k := fun k => by
    rw [← hl]; constructor
    · intro h; exact Fin.ext (by exact_mod_cast h)
    · rintro rfl; rfl
  have eu : ∀ k : Fin n, (⌈b⌉ = (k.1 : Int)) ↔ u = k := fun k => by
    rw [← hu]; constructor
    · intro h; exact Fin.ext (by exact_mod_cast h)
    · rintro rfl; rfl
  have hlR : (l.1 : ℝ) = ⌊b⌋ := by exact_mod_cast congrArg (Int.cast (R := ℝ)) hl
  have huR : (u.1 : ℝ) = ⌈b⌉ := by exact_mod_cast congrArg (Int.cast (R := ℝ)) hu
  simp only [← three_terms, el, eu, add_mul, Finset.sum_add_distrib, ite_mul, zero_mul, Finset.sum_ite_eq, Finset.mem_univ, if_true]
  by_cases hint : ⌊b⌋ = ⌈b⌉
  · have hb : (⌊b⌋ : ℝ) = b := le_antisymm (Int.floor_le b) (by rw [hint]; exact Int.le_ceil b)
    simp only [hint, if_true]
    rw [hlR, huR, hint]
    rw [hint] at hb
    rw [hb]
    constructor <;> ring
  · simp only [if_neg hint, add_zero]
    have hc : (⌈b⌉ : ℝ) = ⌊b⌋ + 1 := by
      have : ⌈b⌉ = ⌊b⌋ + 1 := by
        have a1 := Int.floor_le_ceil b
        have a2 := Int.ceil_le_floor_add_one b
        omega
      exact_mod_cast congrArg (Int.cast (R := ℝ)) this
    rw [hlR, huR, hc]
    constructor <;> ring

theorem hat_nonneg (b : ℝ) (k : Int) : 0 ≤ hat b k := le_max_left _ _

/-- The position of a value relative to the atoms. -/
noncomputable def pos (n : Nat) (low high x : ℝ) : ℝ := (x - (low + 0.5 * (high - low) / n)) / ((high - low) / n)

/-- Spacing and extreme atoms. -/
theorem atoms_facts (hn : 2 ≤ n) (low high : ℝ) :
    atoms n low high ⟨0, by omega⟩ = low + 0.5 * (high - low) / n ∧
    atoms n low high ⟨n - 1, by omega⟩ = low + 0.5 * (high - low) / n + ((n : ℝ) - 1) * ((high - low) / n) ∧
    atoms n low high ⟨min 1 (n - 1), by omega⟩ - atoms n low high ⟨0, by omega⟩ = (high - low) / n := by
  have h1 : ((n - 1 : Nat) : ℝ) = (n : ℝ) - 1 := by rw [Nat.cast_sub (by omega)]; simp
  have h2 : min 1 (n - 1) = 1 := by omega
  refine ⟨by simp [atoms], ?_, ?_⟩
  · simp only [atoms, h1]; ring
  · simp only [atoms, h2]; push_cast; ring

/-- The value that atom `j` is mapped to. -/
noncomputable def target (n : Nat) (hn : 0 < n) (low high scale shift : ℝ) (f fInv : ℝ → ℝ) (j : Fin n) : ℝ :=
  clip (f (scale * fInv (atoms n low high j) + shift)) (atoms n low high ⟨0, hn⟩) (atoms n low high ⟨n - 1, by omega⟩)

/-- The projection puts the mass of each atom on the neighbours of its target. -/
theorem project_eq (hn : 2 ≤ n) {low high : ℝ} (hlh : low < high) (p : Fin n → ℝ) (scale shift : ℝ) (f fInv : ℝ → ℝ) :
    ∃ m, project (by omega) (atoms n low high) p scale shift f fInv = some m ∧
      ∀ k : Fin n, m k = ∑ j, p j * hat (pos n low high (target n (by omega) low high scale shift f fInv j)) (k.1 : Int) := by
  have hn' : (0 : ℝ) < n := by exact_mod_cast (by omega : 0 < n)
  have hd : 0 < (high - low) / n := div_pos (by linarith) hn'
  obtain ⟨a1, a2, a3⟩ := atoms_facts hn low high
  unfold project
  simp only
  rw [if_neg (by rw [a3]; exact hd.ne')]
  refine ⟨_, rfl, fun k => ?_⟩
  rw [← Finset.sum_add_distrib, ← Finset.sum_add_distrib]
  refine Finset.sum_congr rfl (fun j _ => ?_)
  have hb : (clip (f (scale * fInv (atoms n low high j) + shift)) (atoms n low high ⟨0, by omega⟩) (atoms n low high ⟨n - 1, by omega⟩)
      - atoms n low high ⟨0, by omega⟩) / (atoms n low high ⟨min 1 (n - 1), by omega⟩ - atoms n low high ⟨0, by omega⟩)
      = pos n low high (target n (by omega) low high scale shift f fInv j) := by
    unfold pos target; rw [a3, a1]
  simp only [hb]
  rw [← three_terms]
  simp only [mul_add, mul_ite, mul_one, mul_zero]

theorem pos_range (hn : 2 ≤ n) {low high : ℝ} (hlh : low < high) (scale shift : ℝ) (f fInv : ℝ → ℝ) (j : Fin n) :
    0 ≤ pos n low high (target n (by omega) low high scale shift f fInv j) ∧ pos n low high (target n (by omega) low high scale shift f fInv j) ≤ (n : ℝ) - 1 := by
  have hn' : (0 : ℝ) < n := by exact_mod_cast (by omega : 0 < n)
  have hn1 : (0 : ℝ) ≤ (n : ℝ) - 1 := by
    have : (1 : ℝ) ≤ n := by exact_mod_cast (by omega : 1 ≤ n)
    linarith
  have hd : 0 < (high - low) / n := div_pos (by linarith) hn'
  obtain ⟨a1, a2, a3⟩ := atoms_facts hn low high
  unfold pos target clip
  rw [a1, a2]
  refine ⟨div_nonneg ?_ hd.le, ?_⟩
  · have : low + 0.5 * (high - low) / n ≤ min (max (f (scale * fInv (atoms n low high j) + shift)) (low + 0.5 * (high - low) / n))
        (low + 0.5 * (high - low) / n + ((n : ℝ) - 1) * ((high - low) / n)) :=
      le_min (le_max_right _ _) (by have := mul_nonneg hn1 hd.le; linarith)
    linarith
  · rw [div_le_iff₀ hd]
    have := min_le_right (max (f (scale * fInv (atoms n low high j) + shift)) (low + 0.5 * (high - low) / n))
        (low + 0.5 * (high - low) / n + ((n : ℝ) - 1) * ((high - low) / n))
    linarith

/-- C48.  The projected masses are non-negative, sum to the mass that was there, and their mean is that of the clipped targets. -/
theorem C48_projection (hn : 2 ≤ n) {low high : ℝ} (hlh : low < high) (p : Fin n → ℝ) (scale shift : ℝ) (f fInv : ℝ → ℝ) :
    ∃ m, project (by omega) (atoms n low high) p scale shift f fInv = some m ∧ ((∀ j, 0 ≤ p j) → ∀ k, 0 ≤ m k) ∧ ∑ k, m k = ∑ j, p j ∧
      ∑ k, m k * atoms n low high k
        = ∑ j, p j * clip (f (scale * fInv (atoms n low high j) + shift)) (atoms n low high ⟨0, by omega⟩) (atoms n low high ⟨n - 1, by omega⟩) := by
  have hn' : (0 : ℝ) < n := by exact_mod_cast (by omega : 0 < n)
  have hd : 0 < (high - low) / n := div_pos (by linarith) hn'
  obtain ⟨m, hm, hk⟩ := project_eq hn hlh p scale shift f fInv
  refine ⟨m, hm, ?_, ?_, ?_⟩
  · intro hp k
    rw [hk]
    exact Finset.sum_nonneg (fun j _ => mul_nonneg (hp j) (hat_nonneg _ _))
  · simp only [hk]
    rw [Finset.sum_comm]
    refine Finset.sum_congr rfl (fun j _ => ?_)
    obtain ⟨r0, r1⟩ := pos_range hn hlh scale shift f fInv j
    rw [← Finset.mul_sum, (hat_sums r0 r1).1, mul_one]
  · simp only [hk, Finset.sum_mul]
    rw [Finset.sum_comm]
    refine Finset.sum_congr rfl (fun j _ => ?_)
    obtain ⟨r0, r1⟩ := pos_range hn hlh scale shift f fInv j
    obtain ⟨s0, s1⟩ := hat_sums r0 r1
    have e : ∀ k : Fin n, p j * hat (pos n low high (target n (by omega) low high scale shift f fInv j)) (k.1 : Int) * atoms n low high k
        = p j * (hat (pos n low high (target n (by omega) low high scale shift f fInv j)) (k.1 : Int) * (low + 0.5 * (high - low) / n)
          + hat (pos n low high (target n (by omega) low high scale shift f fInv j)) (k.1 : Int) * (k.1 : ℝ) * ((high - low) / n)) := by
      intro k; unfold atoms; ring
    rw [Finset.sum_congr rfl (fun k _ => e k), ← Finset.mul_sum, Finset.sum_add_distrib, ← Finset.sum_mul, ← Finset.sum_mul, s0, s1]
    congr 1
    unfold pos
    rw [div_mul_cancel₀ _ hd.ne']
    unfold target
    ring

/-- C48.  If no atom leaves the range of the atoms, the mean of the projected masses is `scale·mean + shift`. -/
theorem C48_mean (hn : 2 ≤ n) {low high : ℝ} (hlh : low < high) {p : Fin n → ℝ} (hp : ∑ j, p j = 1) {scale shift : ℝ}
    (hin : ∀ j, atoms n low high ⟨0, by omega⟩ ≤ scale * atoms n low high j + shift ∧ scale * atoms n low high j + shift ≤ atoms n low high ⟨n - 1, by omega⟩) :
    ∃ m, project (by omega) (atoms n low high) p scale shift id id = some m ∧ ∑ k, m k * atoms n low high k = scale * (∑ j, p j * atoms n low high j) + shift := by
  obtain ⟨m, hm, -, -, hmean⟩ := C48_projection hn hlh p scale shift id id
  refine ⟨m, hm, ?_⟩
  rw [hmean, Finset.mul_sum]
  have : shift = ∑ j, p j * shift := by rw [← Finset.sum_mul, hp, one_mul]
  conv_rhs => rw [this]
  rw [← Finset.sum_add_distrib]
  refine Finset.sum_congr rfl (fun j _ => ?_)
  unfold clip
  rw [id, id, max_eq_left (hin j).1, min_eq_left (hin j).2]; ring

theorem floor_facts {m : Fin n → ℝ} (hm0 : ∀ k, 0 ≤ m k) (hm1 : ∑ k, m k = 1) {e : ℝ} (he : 0 ≤ e) :
    (∑ k, |max (m k) e - m k| ≤ n * e) ∧ 1 ≤ ∑ k, max (m k) e ∧ ∑ k, max (m k) e ≤ 1 + n * e := by
  have h1 : ∀ k, |max (m k) e - m k| ≤ e := by
    intro k
    rw [abs_of_nonneg (by have := le_max_left (m k) e; linarith)]
    rcases max_choice (m k) e with h | h
    · rw [h]; linarith
    · rw [h]; have := hm0 k; linarith
  refine ⟨?_, ?_, ?_⟩
  · calc _ ≤ ∑ _k : Fin n, e := Finset.sum_le_sum (fun k _ => h1 k)
      _ = n * e := by simp
  · rw [← hm1]; exact Finset.sum_le_sum (fun k _ => le_max_left _ _)
  · calc _ ≤ ∑ k, (m k + e) := Finset.sum_le_sum (fun k _ => by have := abs_le.1 (h1 k); linarith)
      _ = 1 + n * e := by rw [Finset.sum_add_distrib, hm1]; simp

/-- The probabilities of the returned logits. -/
theorem softmax_log (m : Fin n → ℝ) {e : ℝ} (he : 0 < e) (k : Fin n) :
    softmax (fun k => Real.log (max (m k) e)) k = max (m k) e / ∑ j, max (m j) e := by
  have : ∀ j, Real.exp (Real.log (max (m j) e)) = max (m j) e := fun j => Real.exp_log (lt_of_lt_of_le he (le_max_right _ _))
  unfold softmax
  simp only [this]

/-- C48.  The returned logits are those of a distribution that differs from the projection by at most `2 n·1e-16` in total (because each mass is raised to at
least `1e-16`). -/
theorem C48_output (hn : 2 ≤ n) {low high : ℝ} (hlh : low < high) (logits : Fin n → ℝ) (scale shift : ℝ) (f fInv : ℝ → ℝ) :
    ∃ m out, project (by omega) (atoms n low high) (softmax logits) scale shift f fInv = some m ∧
      affineTransform (by omega) low high logits scale shift f fInv = some out ∧ (∀ k, 0 ≤ m k) ∧ ∑ k, m k = 1 ∧
      (∀ k, 0 < softmax out k) ∧ ∑ k, softmax out k = 1 ∧ ∑ k, |softmax out k - m k| ≤ 2 * n * 1e-16 := by
  obtain ⟨m, hm, h0, h1, -⟩ := C48_projection hn hlh (softmax logits) scale shift f fInv
  have hm0 := h0 (fun j => (softmax_pos logits j).le)
  have hm1 : ∑ k, m k = 1 := by rw [h1, softmax_sum (by omega)]
  have he : (0 : ℝ) < 1e-16 := by norm_num
  obtain ⟨f1, f2, f3⟩ := floor_facts hm0 hm1 he.le
  refine ⟨m, _, hm, by unfold affineTransform; rw [hm], hm0, hm1, fun k => softmax_pos _ k, softmax_sum (by omega) _, ?_⟩
  simp only [softmax_log m he]
  set S := ∑ j, max (m j) 1e-16 with hS
  have hSpos : 0 < S := by linarith
  have hterm : ∀ k, |max (m k) 1e-16 / S - m k| ≤ |max (m k) 1e-16 - m k| + max (m k) 1e-16 * (1 - 1 / S) := by
    intro k
    have hpos : 0 ≤ max (m k) 1e-16 := le_trans he.le (le_max_right _ _)
    have h1S : 0 ≤ 1 - 1 / S := by rw [sub_nonneg, div_le_one hSpos]; exact f2
    have e : max (m k) 1e-16 / S - m k = (max (m k) 1e-16 - m k) - max (m k) 1e-16 * (1 - 1 / S) := by field_simp; ring
    rw [e]
    calc _ ≤ |max (m k) 1e-16 - m k| + |max (m k) 1e-16 * (1 - 1 / S)| := abs_sub _ _
      _ = _ := by rw [abs_of_nonneg (mul_nonneg hpos h1S)]
  calc _ ≤ ∑ k, (|max (m k) 1e-16 - m k| + max (m k) 1e-16 * (1 - 1 / S)) := Finset.sum_le_sum (fun k _ => hterm k)
    _ = ∑ k, |max (m k) 1e-16 - m k| + S * (1 - 1 / S) := by rw [Finset.sum_add_distrib, ← Finset.sum_mul]
    _ ≤ n * 1e-16 + n * 1e-16 := by
      refine add_le_add f1 ?_
      have : S * (1 - 1 / S) = S - 1 := by field_simp
      rw [this]; linarith
    _ = _ := by ring

/-- C48.  So the mean of the returned distribution is `scale·mean + shift` up to `n·1e-16` times the width of the interval, when no atom leaves the range. -/
theorem C48_output_mean (hn : 2 ≤ n) {low high : ℝ} (hlh : low < high) (logits : Fin n → ℝ) {scale shift : ℝ}
    (hin : ∀ j, atoms n low high ⟨0, by omega⟩ ≤ scale * atoms n low high j + shift ∧ scale * atoms n low high j + shift ≤ atoms n low high ⟨n - 1, by omega⟩) :
    ∃ out, affineTransform (by omega) low high logits scale shift id id = some out ∧
      |intervalMean low high out - (scale * intervalMean low high logits + shift)| ≤ n * 1e-16 * (high - low) := by
  have hn' : (0 : ℝ) < n := by exact_mod_cast (by omega : 0 < n)
  obtain ⟨m, out, h1, h2, h3, h4, -, h6, h7⟩ := C48_output hn hlh logits scale shift id id
  obtain ⟨m', h1', hmean⟩ := C48_mean hn hlh (softmax_sum (by omega) logits) hin
  rw [h1] at h1'
  cases h1'
  refine ⟨out, h2, ?_⟩
  unfold intervalMean
  rw [← hmean, ← Finset.sum_sub_distrib]
  have e : ∑ k, (softmax out k * atoms n low high k - m k * atoms n low high k)
      = ∑ k, (softmax out k - m k) * (atoms n low high k - (low + high) / 2) := by
    simp only [mul_sub, Finset.sum_sub_distrib, ← Finset.sum_mul, sub_mul]
    rw [h6, h4]; ring
  rw [e]
  have hat' : ∀ k, |atoms n low high k - (low + high) / 2| ≤ (high - low) / 2 := by
    intro k
    have hk : ((k.1 : ℝ)) + 0.5 ≤ n := by
      have : (k.1 : ℝ) + 1 ≤ n := by exact_mod_cast k.2
      linarith
    have hk0 : (0 : ℝ) ≤ k.1 := by positivity
    have hw : 0 ≤ high - low := by linarith
    unfold atoms
    have hq : 0 ≤ (k.1 + 0.5) * (high - low) / n := by positivity
    have hq' : (k.1 + 0.5) * (high - low) / n ≤ high - low := by
      rw [div_le_iff₀ hn', mul_comm]; exact mul_le_mul_of_nonneg_left hk hw
    rw [abs_le]; constructor <;> linarith
  calc _ ≤ ∑ k, |(softmax out k - m k) * (atoms n low high k - (low + high) / 2)| := Finset.abs_sum_le_sum_abs _ _
    _ ≤ ∑ k, |softmax out k - m k| * ((high - low) / 2) := Finset.sum_le_sum (fun k _ => by
        rw [abs_mul]; exact mul_le_mul_of_nonneg_left (hat' k) (abs_nonneg _))
    _ = (∑ k, |softmax out k - m k|) * ((high - low) / 2) := by rw [Finset.sum_mul]
    _ ≤ (2 * n * 1e-16) * ((high - low) / 2) := mul_le_mul_of_nonneg_right h7 (by linarith)
    _ = _ := by ring

/-- C45 for distributional value functions: with `scale = In = 0` the target does not depend on the distribution at the next state. -/
theorem C45_distributional (hn : 2 ≤ n) {low high : ℝ} (hlh : low < high) (logits logits' : Fin n → ℝ) (shift : ℝ) (f fInv : ℝ → ℝ) :
    affineTransform (by omega) low high logits 0 shift f fInv = affineTransform (by omega) low high logits' 0 shift f fInv := by
  have key : ∀ lg : Fin n → ℝ, project (by omega) (atoms n low high) (softmax lg) 0 shift f fInv
      = some (fun k => hat (pos n low high (clip (f shift) (atoms n low high ⟨0, by omega⟩) (atoms n low high ⟨n - 1, by omega⟩))) (k.1 : Int)) := by
    intro lg
    obtain ⟨m, hm, hk⟩ := project_eq hn hlh (softmax lg) 0 shift f fInv
    rw [hm]
    congr 1
    funext k
    rw [hk]
    simp only [target, zero_mul, zero_add]
    rw [← Finset.sum_mul, softmax_sum (by omega), one_mul]
  unfold affineTransform
  rw [key, key]

/-- C48.  The promise `indices_are_sorted=True` is kept: for `scale ≥ 0` and monotone transforms the lower indices (and the upper ones) increase along a row. -/
theorem C48_sorted (hn : 2 ≤ n) {low high : ℝ} (hlh : low < high) {scale : ℝ} (hs : 0 ≤ scale) (shift : ℝ) {f fInv : ℝ → ℝ} (hf : Monotone f) (hfi : Monotone fInv)
    (i j : Fin n) (hij : i ≤ j) :
    ⌊pos n low high (target n (by omega) low high scale shift f fInv i)⌋ ≤ ⌊pos n low high (target n (by omega) low high scale shift f fInv j)⌋ ∧
    ⌈pos n low high (target n (by omega) low high scale shift f fInv i)⌉ ≤ ⌈pos n low high (target n (by omega) low high scale shift f fInv j)⌉ := by
  have hn' : (0 : ℝ) < n := by exact_mod_cast (by omega : 0 < n)
  have hd : 0 < (high - low) / n := div_pos (by linarith) hn'
  have hz : atoms n low high i ≤ atoms n low high j := by
    unfold atoms
    have : (i.1 : ℝ) ≤ j.1 := by exact_mod_cast hij
    have hw : 0 ≤ high - low := by linarith
    gcongr
  have hT : target n (by omega) low high scale shift f fInv i ≤ target n (by omega) low high scale shift f fInv j := by
    unfold target clip
    exact min_le_min_right _ (max_le_max_right _ (hf (by have := mul_le_mul_of_nonneg_left (hfi hz) hs; linarith)))
  have hp : pos n low high (target n (by omega) low high scale shift f fInv i) ≤ pos n low high (target n (by omega) low high scale shift f fInv j) := by
    unfold pos
    exact div_le_div_of_nonneg_right (by linarith) hd.le
  exact ⟨Int.floor_mono hp, Int.ceil_mono hp⟩

/-- With one bin the result is NaN. -/
theorem C48_one_bin (low high : ℝ) (logits : Fin 1 → ℝ) (scale shift : ℝ) (f fInv : ℝ → ℝ) : affineTransform (by omega) low high logits scale shift f fInv = none := by
  unfold affineTransform project
  simp

/-- `preprocess_variate` gives a one-hot vector for the integers in `[low, high)` only: the upper end of the interval gives a vector of zeros. -/
theorem C48_preprocess_high {low high : ℝ} (hlh : low < high) {x : Int} (hx : (x : ℝ) = high) : intervalPreprocess n low high x = fun _ => 0 := by
  funext k
  unfold intervalPreprocess
  rw [if_neg]
  rw [hx, mul_comm, mul_div_assoc, div_self (by linarith), mul_one, Int.floor_natCast]
  have := k.2
  omega

/-- The hypotheses of C48_mean are met: three bins on `[0, 3]`, scale ½, shift ½. -/
example : ∀ j : Fin 3, atoms 3 0 3 ⟨0, by omega⟩ ≤ (1/2) * atoms 3 0 3 j + 1/2 ∧ (1/2) * atoms 3 0 3 j + 1/2 ≤ atoms 3 0 3 ⟨3 - 1, by omega⟩ := by
  intro j
  fin_cases j <;> norm_num [atoms]

end Coax.Dists
