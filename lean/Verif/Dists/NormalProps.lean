import Verif.Dists.Normal
import Mathlib.Probability.Distributions.Gaussian.Real
import Mathlib.MeasureTheory.Integral.Pi
import Mathlib.Analysis.Complex.ExponentialBounds
import Mathlib.Tactic

/-! Properties C50 and C51: the normal distribution. -/

namespace Coax.Dists

open MeasureTheory ProbabilityTheory NNReal

variable {d : Nat}

/-! ### The specification: a product of one-dimensional normal distributions -/

/-- The distribution a row of parameters describes: independent normals with means `mu` and variances `exp(logvar)`, the
log-variances clipped to the configured range. -/
noncomputable def law (c : NormalConfig d) (p : NormalParams d) : Measure (Fin d → ℝ) :=
  Measure.pi (fun i => gaussianReal (p.mu i) (Real.toNNReal (Real.exp (min (max (p.logvar i) c.clipLogvar.1) c.clipLogvar.2))))

/-- Its density. -/
noncomputable def density (c : NormalConfig d) (p : NormalParams d) (x : Fin d → ℝ) : ℝ :=
  ∏ i, gaussianPDFReal (p.mu i) (Real.toNNReal (Real.exp (min (max (p.logvar i) c.clipLogvar.1) c.clipLogvar.2))) (x i)

noncomputable instance (c : NormalConfig d) (p : NormalParams d) : IsProbabilityMeasure (law c p) := by unfold law; infer_instance

theorem coe_var (x : ℝ) : ((Real.toNNReal (Real.exp x) : ℝ≥0) : ℝ) = Real.exp x := Real.coe_toNNReal _ (Real.exp_pos x).le

theorem log_gaussian (m l x : ℝ) : Real.log (gaussianPDFReal m (Real.toNNReal (Real.exp l)) x) =
    -0.5 * (Real.log (2 * Real.pi) + l + (x - m) ^ 2 * Real.exp (-l)) := by
  have hp := Real.pi_pos
  have he := Real.exp_pos l
  rw [gaussianPDFReal_def]
  simp only [coe_var]
  rw [Real.log_mul (by positivity) (Real.exp_pos _).ne', Real.log_exp, Real.log_inv, Real.log_sqrt (by positivity),
    Real.log_mul (by positivity) he.ne', Real.log_exp, Real.exp_neg]
  field_simp
  ring

/-- C50: `log_proba` is the logarithm of the density (the source has the constant log(2π) as a rounded literal). -/
theorem C50_log_proba (c : NormalConfig d) (p : NormalParams d) (x : Fin d → ℝ) :
    normalLogProba (Real.log (2 * Real.pi)) c p x = Real.log (density c p x) := by
  unfold density
  rw [Real.log_prod (fun i _ => (gaussianPDFReal_pos _ _ _ (by simpa using Real.exp_pos _)).ne')]
  simp only [log_gaussian, normalLogProba, lv, clip]
  rw [← Finset.mul_sum, Finset.sum_add_distrib, Finset.sum_add_distrib]
  simp

/-- The literal in the source agrees with log(2π): with any constant in place of log(2π) the result moves by half the
error per dimension. -/
theorem C50_log_proba_constant (a b : ℝ) (c : NormalConfig d) (p : NormalParams d) (x : Fin d → ℝ) :
    normalLogProba a c p x - normalLogProba b c p x = -(d / 2 * (a - b)) := by
  unfold normalLogProba; ring

/-- C50: `sample` has that distribution when its random numbers are independent standard normals. -/
theorem C50_sample_law (c : NormalConfig d) (p : NormalParams d) :
    (Measure.pi (fun _ : Fin d => gaussianReal 0 1)).map (normalSample c p) = law c p := by
  have h1 : normalSample c p = fun (x : Fin d → ℝ) i => (fun y => p.mu i + Real.exp (lv c p i / 2) * y) (x i) := rfl
  have h2 : ∀ i, (gaussianReal 0 1).map (fun y => p.mu i + Real.exp (lv c p i / 2) * y) =
      gaussianReal (p.mu i) (Real.toNNReal (Real.exp (lv c p i))) := by
    intro i
    have : (fun y => p.mu i + Real.exp (lv c p i / 2) * y) = (fun y => p.mu i + y) ∘ (fun y => Real.exp (lv c p i / 2) * y) := rfl
    rw [this, ← Measure.map_map (by fun_prop) (by fun_prop), gaussianReal_map_const_mul, gaussianReal_map_const_add]
    congr 1
    · simp
    · rw [mul_one]
      apply NNReal.coe_injective
      rw [coe_var]
      change Real.exp (lv c p i / 2) ^ 2 = _
      rw [← Real.exp_nat_mul]
      congr 1
      push_cast; ring
  rw [h1]
  have := Measure.pi_map_pi (μ := fun _ : Fin d => gaussianReal 0 1) (f := fun i y => p.mu i + Real.exp (lv c p i / 2) * y)
    (fun i => by fun_prop)
  rw [this]
  unfold law
  congr 1
  funext i
  exact h2 i

theorem integrable_sq (m v : ℝ) (w : ℝ≥0) : Integrable (fun x => (x - v) ^ 2) (gaussianReal m w) := by
  have h := memLp_id_gaussianReal (μ := m) (v := w) 2
  have : MemLp (fun x : ℝ => x - v) 2 (gaussianReal m w) := by
    exact MemLp.sub (by exact_mod_cast h) (memLp_const v)
  exact this.integrable_sq

theorem integral_sq (m v : ℝ) (w : ℝ≥0) : ∫ x, (x - v) ^ 2 ∂gaussianReal m w = w + (m - v) ^ 2 := by
  have hid : Integrable (fun x : ℝ => x) (gaussianReal m w) := by
    have h := memLp_id_gaussianReal (μ := m) (v := w) 1
    exact memLp_one_iff_integrable.1 (by exact_mod_cast h)
  have hv : ∫ x, (x - m) ^ 2 ∂gaussianReal m w = w := by
    have := variance_fun_id_gaussianReal (μ := m) (v := w)
    rw [variance_eq_integral measurable_id'.aemeasurable] at this
    simpa using this
  have e : ∀ x : ℝ, (x - v) ^ 2 = (x - m) ^ 2 + (2 * (m - v) * x + (v ^ 2 - m ^ 2)) := by intro x; ring
  have h2 : ∫ x, (2 * (m - v) * x + (v ^ 2 - m ^ 2)) ∂gaussianReal m w = 2 * (m - v) * m + (v ^ 2 - m ^ 2) := by
    rw [integral_add (hid.const_mul _) (integrable_const _), integral_const_mul, integral_id_gaussianReal]
    simp
  have h3 : Integrable (fun x : ℝ => 2 * (m - v) * x + (v ^ 2 - m ^ 2)) (gaussianReal m w) := (hid.const_mul _).add (integrable_const _)
  have h4 : ∫ x, (x - v) ^ 2 ∂gaussianReal m w = ∫ x, ((x - m) ^ 2 + (2 * (m - v) * x + (v ^ 2 - m ^ 2))) ∂gaussianReal m w :=
    integral_congr_ae (Filter.Eventually.of_forall e)
  rw [h4, integral_add (integrable_sq m m w) h3, hv, h2]
  ring

/-- C50: `cross_entropy(p, q)` is the expectation of −log q under p. -/
theorem C50_cross_entropy (k : ℝ) (c : NormalConfig d) (p q : NormalParams d) :
    normalCrossEntropy k c p q = ∫ x, -normalLogProba k c q x ∂law c p := by
  have hint : ∀ i, Integrable (fun x : Fin d → ℝ => (x i - q.mu i) ^ 2 * Real.exp (-lv c q i)) (law c p) := by
    intro i
    refine Integrable.mul_const ?_ _
    unfold law
    exact integrable_comp_eval (X := fun _ : Fin d => ℝ) (i := i) (f := fun y : ℝ => (y - q.mu i) ^ 2) (integrable_sq _ _ _)
  have hval : ∀ i, ∫ x : Fin d → ℝ, (x i - q.mu i) ^ 2 * Real.exp (-lv c q i) ∂law c p =
      (Real.exp (lv c p i) + (p.mu i - q.mu i) ^ 2) * Real.exp (-lv c q i) := by
    intro i
    rw [integral_mul_const]
    congr 1
    unfold law
    rw [integral_comp_eval (X := fun _ : Fin d => ℝ) (i := i) (f := fun y : ℝ => (y - q.mu i) ^ 2) (by fun_prop), integral_sq, coe_var]
    rfl
  have e : ∀ x : Fin d → ℝ, -normalLogProba k c q x = 0.5 * (d * k + ∑ i, lv c q i) +
      0.5 * ∑ i, (x i - q.mu i) ^ 2 * Real.exp (-lv c q i) := by intro x; unfold normalLogProba; ring
  simp only [e]
  rw [integral_add (integrable_const _) ((integrable_finsetSum _ (fun i _ => hint i)).const_mul _), integral_const_mul, integral_const_mul,
    integral_finsetSum _ (fun i _ => hint i)]
  simp only [hval]
  simp [normalCrossEntropy]
  ring

theorem cross_self (k : ℝ) (c : NormalConfig d) (p : NormalParams d) : normalCrossEntropy k c p p = normalEntropy k c p := by
  unfold normalCrossEntropy normalEntropy
  have : ∀ i, (Real.exp (lv c p i) + (p.mu i - p.mu i) ^ 2) * Real.exp (-lv c p i) = 1 := by
    intro i; rw [sub_self, zero_pow (by norm_num), add_zero, ← Real.exp_add]; simp
  simp only [this]
  simp

/-- C50: `entropy(p)` is the expectation of −log p under p. -/
theorem C50_entropy (k : ℝ) (c : NormalConfig d) (p : NormalParams d) :
    normalEntropy k c p = ∫ x, -normalLogProba k c p x ∂law c p := by
  rw [← cross_self, C50_cross_entropy]

/-- C50: the KL divergence is cross-entropy minus entropy. -/
theorem C50_kl_eq (k : ℝ) (c : NormalConfig d) (p q : NormalParams d) :
    normalKL c p q = normalCrossEntropy k c p q - normalEntropy k c p := by
  unfold normalKL normalCrossEntropy normalEntropy; ring

theorem kl_terms (c : NormalConfig d) (p q : NormalParams d) : normalKL c p q = 0.5 * ∑ i,
    ((Real.exp (lv c p i - lv c q i) - 1 - (lv c p i - lv c q i)) + (p.mu i - q.mu i) ^ 2 * Real.exp (-lv c q i)) := by
  unfold normalKL
  congr 1
  have : (d : ℝ) = ∑ _i : Fin d, (1 : ℝ) := by simp
  rw [this, ← Finset.sum_sub_distrib, ← Finset.sum_add_distrib, ← Finset.sum_sub_distrib]
  apply Finset.sum_congr rfl
  intro i _
  rw [sub_eq_add_neg (lv c p i) (lv c q i), Real.exp_add]
  ring

/-- C50: the KL divergence is never negative, and it is zero exactly when the two rows describe the same distribution. -/
theorem C50_kl_nonneg (c : NormalConfig d) (p q : NormalParams d) :
    0 ≤ normalKL c p q ∧ (normalKL c p q = 0 ↔ law c p = law c q) := by
  have hterm : ∀ i, 0 ≤ (Real.exp (lv c p i - lv c q i) - 1 - (lv c p i - lv c q i)) + (p.mu i - q.mu i) ^ 2 * Real.exp (-lv c q i) := by
    intro i
    have h1 := Real.add_one_le_exp (lv c p i - lv c q i)
    have h2 : 0 ≤ (p.mu i - q.mu i) ^ 2 * Real.exp (-lv c q i) := by positivity
    linarith
  have hzero : normalKL c p q = 0 ↔ ∀ i, p.mu i = q.mu i ∧ lv c p i = lv c q i := by
    rw [kl_terms]
    constructor
    · intro h
      have h0 : ∑ i, ((Real.exp (lv c p i - lv c q i) - 1 - (lv c p i - lv c q i)) + (p.mu i - q.mu i) ^ 2 * Real.exp (-lv c q i)) = 0 := by linarith
      have := (Finset.sum_eq_zero_iff_of_nonneg (fun i _ => hterm i)).1 h0
      intro i
      have hi := this i (Finset.mem_univ i)
      have h1 := Real.add_one_le_exp (lv c p i - lv c q i)
      have h2 : 0 ≤ (p.mu i - q.mu i) ^ 2 * Real.exp (-lv c q i) := by positivity
      constructor
      · have : (p.mu i - q.mu i) ^ 2 * Real.exp (-lv c q i) = 0 := by linarith
        rcases mul_eq_zero.1 this with h | h
        · exact sub_eq_zero.1 (pow_eq_zero_iff (by norm_num) |>.1 h)
        · exact absurd h (Real.exp_pos _).ne'
      · by_contra hne
        have := Real.add_one_lt_exp (sub_ne_zero.2 hne)
        linarith
    · intro h
      simp [h]
  refine ⟨?_, ?_⟩
  · rw [kl_terms]
    exact mul_nonneg (by norm_num) (Finset.sum_nonneg (fun i _ => hterm i))
  · rw [hzero]
    constructor
    · intro h
      unfold law
      congr 1
      funext i
      have h2 : min (max (p.logvar i) c.clipLogvar.1) c.clipLogvar.2 = min (max (q.logvar i) c.clipLogvar.1) c.clipLogvar.2 := (h i).2
      rw [(h i).1, h2]
    · intro h i
      have := congrArg (fun m => m.map (Function.eval i)) h
      simp only [law] at this
      rw [(measurePreserving_eval _ i).map_eq, (measurePreserving_eval _ i).map_eq] at this
      obtain ⟨h1, h2⟩ := gaussianReal_ext_iff.1 this
      refine ⟨h1, ?_⟩
      have := congrArg (fun v : ℝ≥0 => (v : ℝ)) h2
      simp only [coe_var] at this
      exact Real.exp_injective this

/-! ### Variates and actions -/

/-- C50: the constructor accepts exactly the boxes that are not empty after clipping. -/
theorem C50_init (c : NormalConfig d) : (c.init = .ok c ↔ ∀ i, c.low i < c.high i) ∧
    (c.init = .error .assertionError ↔ ∃ i, c.high i ≤ c.low i) := by
  unfold NormalConfig.init
  split
  · rename_i h
    refine ⟨by simp [h], by simp; exact h⟩
  · rename_i h
    refine ⟨by simp [h], ?_⟩
    push Not at h
    simp [h]

/-- `x` is inside the Box of the space. -/
def InBox (c : NormalConfig d) (x : Fin d → ℝ) : Prop := ∀ i, (∀ l, c.spaceLow i = some l → l ≤ x i) ∧ (∀ h, c.spaceHigh i = some h → x i ≤ h)

/-- C50: what `postprocess_variate` returns lies inside the Box, strictly inside the clipped one. -/
theorem C50_postprocess_in_box {c : NormalConfig d} (hc : c.init = .ok c) (x : Fin d → ℝ) :
    InBox c (normalPostprocess c x) ∧ ∀ i, c.clipBox.1 < normalPostprocess c x i ∧ normalPostprocess c x i < c.clipBox.2 := by
  have h := (C50_init c).1.1 hc
  have key : ∀ i, c.low i < normalPostprocess c x i ∧ normalPostprocess c x i < c.high i := by
    intro i
    have hi := sub_pos.2 (h i)
    have h1 := Real.sigmoid_pos (clip (x i) c.clipReals.1 c.clipReals.2)
    have h2 := Real.sigmoid_lt_one (clip (x i) c.clipReals.1 c.clipReals.2)
    unfold normalPostprocess
    constructor
    · have := mul_pos hi h1; linarith
    · have := mul_lt_mul_of_pos_left h2 hi; linarith
  refine ⟨fun i => ⟨?_, ?_⟩, fun i => ⟨?_, ?_⟩⟩
  · intro l hl
    have := (key i).1
    simp only [NormalConfig.low, hl] at this
    exact (le_max_left _ _).trans this.le
  · intro u hu
    have := (key i).2
    simp only [NormalConfig.high, hu] at this
    exact this.le.trans (min_le_left _ _)
  · refine lt_of_le_of_lt ?_ (key i).1
    unfold NormalConfig.low; split
    · exact le_rfl
    · exact le_max_right _ _
  · refine lt_of_lt_of_le (key i).2 ?_
    unfold NormalConfig.high; split
    · exact le_rfl
    · exact min_le_right _ _

/-- The default clipping of the real line. -/
def DefaultReals (c : NormalConfig d) : Prop := c.clipReals = (-30, 30)

theorem sig30 : 1e-15 ≤ Real.sigmoid (-30) ∧ Real.sigmoid (-30) ≤ 1e-13 := by
  have he : Real.exp 30 = Real.exp 1 ^ 30 := by rw [← Real.exp_nat_mul]; norm_num
  have h1 : Real.exp 30 ≤ 2.7182818286 ^ 30 := by rw [he]; exact pow_le_pow_left₀ (Real.exp_pos _).le Real.exp_one_lt_d9.le _
  have h2 : 2.7182818283 ^ 30 ≤ Real.exp 30 := by rw [he]; exact pow_le_pow_left₀ (by norm_num) Real.exp_one_gt_d9.le _
  rw [Real.sigmoid_def, neg_neg]
  constructor
  · rw [le_inv_comm₀ (by norm_num) (by positivity)]
    refine le_trans (add_le_add_right h1 _) (by norm_num)
  · rw [inv_le_comm₀ (by positivity) (by norm_num)]
    refine le_trans ?_ (add_le_add_right h2 _)
    norm_num

theorem clip_id {x lo hi : ℝ} (h1 : lo ≤ x) (h2 : x ≤ hi) : clip x lo hi = x := by
  unfold clip; rw [max_eq_left h1, min_eq_left h2]

theorem logit_sigmoid (z : ℝ) : Real.log (Real.sigmoid z) - Real.log (1 - Real.sigmoid z) = z := by
  rw [← Real.sigmoid_neg, ← Real.sigmoid_mul_rexp_neg, Real.log_mul (Real.sigmoid_pos _).ne' (Real.exp_pos _).ne', Real.log_exp]
  ring

theorem clippedLogit_sigmoid {z : ℝ} (h1 : -30 ≤ z) (h2 : z ≤ 30) : clippedLogit (Real.sigmoid z) = z := by
  have a : 1e-15 ≤ Real.sigmoid z := sig30.1.trans (Real.sigmoid_le h1)
  have b : 1e-15 ≤ 1 - Real.sigmoid z := by rw [← Real.sigmoid_neg]; exact sig30.1.trans (Real.sigmoid_le (by linarith))
  have p := Real.sigmoid_pos z
  have q := Real.sigmoid_lt_one z
  unfold clippedLogit
  rw [clip_id a q.le, clip_id b (by linarith), logit_sigmoid]

/-- C50: with the default clipping, `preprocess_variate` undoes `postprocess_variate` up to that clipping. -/
theorem C50_round_trip {c : NormalConfig d} (hc : c.init = .ok c) (hr : DefaultReals c) (x : Fin d → ℝ) :
    normalPreprocess c (normalPostprocess c x) = fun i => min (max (x i) (-30)) 30 := by
  have h := (C50_init c).1.1 hc
  funext i
  have hi := sub_pos.2 (h i)
  unfold normalPreprocess normalPostprocess
  rw [hr]
  have h1 := Real.sigmoid_pos (clip (x i) (-30) 30)
  have h2 := Real.sigmoid_lt_one (clip (x i) (-30) 30)
  have hm := mul_pos hi h1
  have hn := mul_lt_mul_of_pos_left h2 hi
  dsimp only
  rw [clip_id (by linarith) (by linarith), add_sub_cancel_left, mul_div_cancel_left₀ _ hi.ne', clippedLogit_sigmoid]
  · rfl
  · exact le_min (le_max_right _ _) (by norm_num)
  · exact min_le_right _ _

theorem clippedLogit_mono {x y : ℝ} (h : x ≤ y) : clippedLogit x ≤ clippedLogit y := by
  unfold clippedLogit clip
  have hp : ∀ z : ℝ, 0 < min (max z 1e-15) 1 := fun z => lt_min (lt_of_lt_of_le (by norm_num) (le_max_right _ _)) (by norm_num)
  have a : Real.log (min (max x 1e-15) 1) ≤ Real.log (min (max y 1e-15) 1) :=
    Real.log_le_log (hp _) (min_le_min_right _ (max_le_max_right _ h))
  have b : Real.log (min (max (1 - y) 1e-15) 1) ≤ Real.log (min (max (1 - x) 1e-15) 1) :=
    Real.log_le_log (hp _) (min_le_min_right _ (max_le_max_right _ (by linarith)))
  linarith

theorem sigmoid_clippedLogit {u : ℝ} (h0 : 0 ≤ u) (h1 : u ≤ 1) :
    |Real.sigmoid (clip (clippedLogit u) (-30) 30) - u| ≤ 1e-13 := by
  have e1 : clippedLogit (Real.sigmoid (-30)) = -30 := clippedLogit_sigmoid (by norm_num) (by norm_num)
  have e2 : clippedLogit (Real.sigmoid 30) = 30 := clippedLogit_sigmoid (by norm_num) (by norm_num)
  have s2 : 1 - Real.sigmoid 30 = Real.sigmoid (-30) := (Real.sigmoid_neg 30).symm
  have hs := sig30
  rcases le_total u (Real.sigmoid (-30)) with ha | ha
  · have := clippedLogit_mono ha
    rw [e1] at this
    have : clip (clippedLogit u) (-30) 30 = -30 := by unfold clip; rw [max_eq_right this]; norm_num
    rw [this, abs_le]
    constructor <;> linarith
  · rcases le_total (Real.sigmoid 30) u with hb | hb
    · have := clippedLogit_mono hb
      rw [e2] at this
      have : clip (clippedLogit u) (-30) 30 = 30 := by
        unfold clip; rw [max_eq_left (by linarith), min_eq_right this]
      rw [this, abs_le]
      constructor <;> linarith
    · have hmem : u ∈ Set.range Real.sigmoid := by
        rw [Real.range_sigmoid]
        exact ⟨lt_of_lt_of_le (Real.sigmoid_pos _) ha, lt_of_le_of_lt hb (Real.sigmoid_lt_one _)⟩
      obtain ⟨z, rfl⟩ := hmem
      have z1 := Real.sigmoid_le_iff.1 ha
      have z2 := Real.sigmoid_le_iff.1 hb
      rw [clippedLogit_sigmoid z1 z2, clip_id z1 z2]
      norm_num

/-- C50: with the default clipping, an action that is preprocessed and postprocessed again is the action itself, up to 1e-13
of the width of the (clipped) Box. -/
theorem C50_action_round_trip {c : NormalConfig d} (hc : c.init = .ok c) (hr : DefaultReals c) (a : Fin d → ℝ)
    (ha : ∀ i, c.low i ≤ a i ∧ a i ≤ c.high i) (i : Fin d) :
    |normalPostprocess c (normalPreprocess c a) i - a i| ≤ 1e-13 * (c.high i - c.low i) := by
  have hi := sub_pos.2 ((C50_init c).1.1 hc i)
  unfold normalPreprocess normalPostprocess
  rw [hr]
  dsimp only
  rw [clip_id (ha i).1 (ha i).2]
  have hu0 : 0 ≤ (a i - c.low i) / (c.high i - c.low i) := div_nonneg (by linarith [(ha i).1]) hi.le
  have hu1 : (a i - c.low i) / (c.high i - c.low i) ≤ 1 := (div_le_one hi).2 (by linarith [(ha i).2])
  have hk := sigmoid_clippedLogit hu0 hu1
  have e : c.low i + (c.high i - c.low i) * Real.sigmoid (clip (clippedLogit ((a i - c.low i) / (c.high i - c.low i))) (-30) 30) - a i =
      (Real.sigmoid (clip (clippedLogit ((a i - c.low i) / (c.high i - c.low i))) (-30) 30) - (a i - c.low i) / (c.high i - c.low i)) *
        (c.high i - c.low i) := by
    field_simp
    ring
  rw [e, abs_mul, abs_of_pos hi]
  exact mul_le_mul_of_nonneg_right hk hi.le

/-- A configuration that meets the hypotheses: a Box with one bounded and one unbounded coordinate, default clipping. -/
noncomputable def exampleConfig : NormalConfig 2 :=
  { spaceLow := ![some (-1), none], spaceHigh := ![some 1, none], clipBox := (-256, 256), clipReals := (-30, 30), clipLogvar := (-20, 20) }

example : exampleConfig.init = .ok exampleConfig ∧ DefaultReals exampleConfig := by
  refine ⟨(C50_init _).1.2 ?_, rfl⟩
  intro i
  fin_cases i <;> norm_num [exampleConfig, NormalConfig.low, NormalConfig.high]

/-! ### C51 -/

/-- The parameters `q` describe the distribution of `scale·X + shift` for `X` distributed as `p` says. -/
def IsAffine (c : NormalConfig d) (scale shift : ℝ) (p q : NormalParams d) : Prop :=
  law c q = (law c p).map (fun x i => scale * x i + shift)

theorem law_affine (c : NormalConfig d) (p : NormalParams d) (scale shift : ℝ) : (law c p).map (fun x i => scale * x i + shift) =
    Measure.pi (fun i => gaussianReal (scale * p.mu i + shift) (Real.toNNReal (scale ^ 2 * Real.exp (lv c p i)))) := by
  have := Measure.pi_map_pi (μ := fun i : Fin d => gaussianReal (p.mu i) (Real.toNNReal (Real.exp (lv c p i))))
    (f := fun _ y => scale * y + shift) (fun i => by fun_prop)
  unfold law
  refine Eq.trans this ?_
  congr 1
  funext i
  have e : (fun y => scale * y + shift) = (fun y => y + shift) ∘ (fun y => scale * y) := rfl
  rw [e, ← Measure.map_map (by fun_prop) (by fun_prop), gaussianReal_map_const_mul, gaussianReal_map_add_const]
  congr 1
  apply NNReal.coe_injective
  rw [NNReal.coe_mul, coe_var, Real.coe_toNNReal _ (by positivity)]
  rfl

/-- C51 (partial).  Without a value transform, for `scale ≠ 0` and when the new log-variance is not clipped, the variance
that `affine_transform` returns is right and the distribution is that of `scale·X + shift` exactly when the mean is not
affected by the scale, i.e. if `scale = 1` or all means are 0.  What is missing is the general case, which is false: the mean is not
multiplied by the scale. -/
theorem C51_affine_transform_partial (c : NormalConfig d) (p : NormalParams d) {scale : ℝ} (shift : ℝ) (hs : scale ≠ 0)
    (hclip : ∀ i, c.clipLogvar.1 ≤ Real.log (scale ^ 2) + lv c p i ∧ Real.log (scale ^ 2) + lv c p i ≤ c.clipLogvar.2) :
    (∀ i, Real.exp (lv c (normalAffine c p scale shift id id) i) = scale ^ 2 * Real.exp (lv c p i)) ∧
    (IsAffine c scale shift p (normalAffine c p scale shift id id) ↔ (scale = 1 ∨ ∀ i, p.mu i = 0)) := by
  have hs2 : 0 < scale ^ 2 := by positivity
  have hvar : ∀ i, Real.exp (lv c (normalAffine c p scale shift id id) i) = scale ^ 2 * Real.exp (lv c p i) := by
    intro i
    have e : (normalAffine c p scale shift id id).logvar i = Real.log (scale ^ 2) + lv c p i := by
      simp only [normalAffine, id]
      rw [mul_comm, Real.log_mul hs2.ne' (Real.exp_pos _).ne', Real.log_exp]
    rw [lv, e, clip_id (hclip i).1 (hclip i).2, Real.exp_add, Real.exp_log hs2]
  refine ⟨hvar, ?_⟩
  unfold IsAffine
  rw [law_affine]
  constructor
  · intro h
    by_cases h1 : scale = 1
    · exact .inl h1
    · right
      intro i
      have := congrArg (fun m => m.map (Function.eval i)) h
      simp only [law] at this
      rw [(measurePreserving_eval _ i).map_eq, (measurePreserving_eval _ i).map_eq] at this
      have hm := (gaussianReal_ext_iff.1 this).1
      simp only [normalAffine, id] at hm
      have : (scale - 1) * p.mu i = 0 := by linarith
      rcases mul_eq_zero.1 this with h | h
      · exact absurd (by linarith) h1
      · exact h
  · intro h
    unfold law
    congr 1
    funext i
    have hv := hvar i
    rw [lv, clip] at hv
    rw [hv]
    congr 1
    simp only [normalAffine, id]
    rcases h with rfl | h
    · ring
    · rw [h i]; ring

/-- C51 is false: for `mu = 1`, `logvar = 0`, `scale = 2`, `shift = 0` the result has mean 1, not 2. -/
theorem C51_counterexample : ∃ (c : NormalConfig 1) (p : NormalParams 1), c.init = .ok c ∧
    ¬ IsAffine c 2 0 p (normalAffine c p 2 0 id id) ∧ (normalAffine c p 2 0 id id).mu = fun _ => 1 := by
  refine ⟨⟨fun _ => none, fun _ => none, (-256, 256), (-30, 30), (-20, 20)⟩, ⟨fun _ => 1, fun _ => 0⟩, ?_, ?_, ?_⟩
  · refine (C50_init _).1.2 ?_
    intro i
    norm_num [NormalConfig.low, NormalConfig.high]
  · intro h
    have h4 : Real.log ((2 : ℝ) ^ 2) ≤ 4 := (Real.log_le_sub_one_of_pos (by norm_num)).trans (by norm_num)
    have h0 : 0 ≤ Real.log ((2 : ℝ) ^ 2) := Real.log_nonneg (by norm_num)
    have := (C51_affine_transform_partial _ _ 0 two_ne_zero (by
      intro i
      norm_num [lv, clip] at h4 h0 ⊢
      constructor <;> linarith)).2.1 h
    rcases this with h | h
    · norm_num at h
    · exact absurd (h 0) (by norm_num)
  · funext i; simp [normalAffine]

end Coax.Dists
