import Verif.Loop.EvaluateLemmas
import Verif.Values.QuantileMinProps
import Mathlib.Topology.MetricSpace.Contracting
import Mathlib.Analysis.Calculus.LocalExtr.Basic

/-! Learning with errors that are limited, as the Huber loss does it: where the steps lead. -/

namespace Coax.Loop

open Coax.RewardTracing Coax.TD Coax.Core Coax.Values Coax.Pol Filter Topology MeasureTheory

/-! ### Limited errors -/

section Limited

variable {ι : Type _} [Fintype ι]

/-- The mean of the limited errors of the prediction `x` for targets `t` with weights `w`. -/
noncomputable def tilt (delta : ℝ) (w t : ι → ℝ) (x : ℝ) : ℝ := ∑ i, w i * limit delta (t i - x)

theorem limit_pull {delta : ℝ} (hd : 0 < delta) (x : ℝ) : limit delta x = 2 * delta * pull (1 / 2) (x / delta) := by
  unfold limit pull
  split
  · rename_i h
    have h1 : 1 ≤ x / delta := by rw [le_div_iff₀ hd]; linarith
    rw [max_eq_left (by linarith), min_eq_left h1, max_eq_right (by linarith)]
    norm_num
    ring
  · split
    · rename_i h
      have h1 : x / delta ≤ -1 := by rw [div_le_iff₀ hd]; linarith
      rw [max_eq_right (by linarith), max_eq_left (by linarith), min_eq_left (by linarith : (1 : ℝ) ≤ -(x / delta))]
      norm_num
      ring
    · rename_i h1 h2
      have h3 : x / delta ≤ 1 := by rw [div_le_iff₀ hd]; linarith
      have h4 : -1 ≤ x / delta := by rw [le_div_iff₀ hd]; linarith
      have h5 : x = delta * (x / delta) := by field_simp
      rcases le_total 0 (x / delta) with h | h
      · rw [max_eq_left h, min_eq_right h3, max_eq_right (by linarith)]
        norm_num
        linarith
      · rw [max_eq_right h, max_eq_left (by linarith), min_eq_right (by linarith : -(x / delta) ≤ 1)]
        norm_num
        linarith

theorem limit_mono {delta : ℝ} (hd : 0 < delta) : Monotone (limit delta) := by
  intro x y h
  rw [limit_pull hd, limit_pull hd]
  exact mul_le_mul_of_nonneg_left (pull_mono (by norm_num) (by norm_num) (div_le_div_of_nonneg_right h hd.le)) (by linarith)

theorem limit_continuous {delta : ℝ} (hd : 0 < delta) : Continuous (limit delta) := by
  have : limit delta = fun x => 2 * delta * pull (1 / 2) (x / delta) := funext (limit_pull hd)
  rw [this]
  exact continuous_const.mul ((pull_continuous _).comp (by fun_prop))

theorem limit_neg {delta : ℝ} (hd : 0 < delta) (x : ℝ) : limit delta (-x) = -limit delta x := by
  unfold limit
  split_ifs <;> linarith

/-- A limited error is a part of the error. -/
theorem limit_part (delta x : ℝ) (hd : 0 < delta) : (if |x| ≤ delta then 1 else delta / |x|) * x = limit delta x := by
  have := (gentle_huber hd).eq 0 (-x)
  simp only [zero_sub, neg_neg, sub_zero] at this
  rw [limit_neg hd] at this
  linarith

theorem tilt_pulls {delta : ℝ} (hd : 0 < delta) (w t : ι → ℝ) (x : ℝ) : tilt delta w t x = 2 * delta * pulls w (fun i => t i / delta) (1 / 2) (x / delta) := by
  unfold tilt pulls
  rw [Finset.mul_sum]
  refine Finset.sum_congr rfl fun i _ => ?_
  rw [limit_pull hd, sub_div]
  ring

theorem tilt_shift {delta : ℝ} (hd : 0 < delta) {w t t' : ι → ℝ} (hw : ∀ i, 0 ≤ w i) {x y : ℝ} (h : ∀ i, t i - x ≤ t' i - y) : tilt delta w t x ≤ tilt delta w t' y :=
  Finset.sum_le_sum fun i _ => mul_le_mul_of_nonneg_left (limit_mono hd (h i)) (hw i)

/-- The least and the greatest prediction with mean zero. -/
theorem tilt_balance {delta : ℝ} (hd : 0 < delta) {w t : ι → ℝ} (hw : ∀ i, 0 ≤ w i) (hpos : ∃ i, 0 < w i) :
    ∃ lo hi, tilt delta w t lo = 0 ∧ tilt delta w t hi = 0 ∧ (∀ y, tilt delta w t y ≤ 0 → lo ≤ y) ∧ ∀ y, 0 ≤ tilt delta w t y → y ≤ hi := by
  obtain ⟨lo, hi, h1, h2, h3, h4⟩ := balance (t := fun i => t i / delta) hw hpos (tau := 1 / 2) (by norm_num) (by norm_num)
  refine ⟨delta * lo, delta * hi, ?_, ?_, fun y hy => ?_, fun y hy => ?_⟩
  · rw [tilt_pulls hd, mul_div_cancel_left₀ _ hd.ne', h1, mul_zero]
  · rw [tilt_pulls hd, mul_div_cancel_left₀ _ hd.ne', h2, mul_zero]
  · rw [tilt_pulls hd] at hy
    have := h3 (y / delta) (by
      by_contra hc
      have := mul_pos (by linarith : 0 < 2 * delta) (not_le.1 hc)
      linarith)
    rw [le_div_iff₀ hd] at this
    linarith
  · rw [tilt_pulls hd] at hy
    have := h4 (y / delta) (by
      by_contra hc
      have := mul_neg_of_pos_of_neg (by linarith : 0 < 2 * delta) (not_le.1 hc)
      linarith)
    rw [div_le_iff₀ hd] at this
    linarith

/-- The expected loss is least where the limited errors have mean zero. -/
theorem tilt_least {delta : ℝ} (hd : 0 < delta) {w : ι → ℝ} (hw : ∀ i, 0 ≤ w i) (t : ι → ℝ) (x : ℝ) :
    (∀ y, ∑ i, w i * huberSpec delta (x - t i) ≤ ∑ i, w i * huberSpec delta (y - t i)) ↔ tilt delta w t x = 0 := by
  constructor
  · intro h
    have hD : HasDerivAt (fun y => ∑ i, w i * huberSpec delta (y - t i)) (∑ i, w i * limit delta (x - t i)) x := by
      refine HasDerivAt.fun_sum fun i _ => ?_
      have := (huber_deriv hd.le (t i) x).const_mul (w i)
      simpa only [huber_eq_spec] using this
    have hmin : IsLocalMin (fun y => ∑ i, w i * huberSpec delta (y - t i)) x := Eventually.of_forall h
    have := hmin.hasDerivAt_eq_zero hD
    unfold tilt
    rw [← neg_eq_zero, ← Finset.sum_neg_distrib, ← this]
    refine Finset.sum_congr rfl fun i _ => ?_
    rw [← neg_sub x, limit_neg hd]
    ring
  · intro h y
    have key : ∀ i, w i * huberSpec delta (x - t i) - w i * limit delta (t i - x) * (y - x) ≤ w i * huberSpec delta (y - t i) := by
      intro i
      have h1 := huber_tangent (y - t i) _ (limit_abs hd.le (x - t i))
      have h2 := huber_at_limit hd.le (x - t i)
      rw [← neg_sub x, limit_neg hd]
      have : huberSpec delta (x - t i) + limit delta (x - t i) * (y - x) ≤ huberSpec delta (y - t i) := by nlinarith
      have := mul_le_mul_of_nonneg_left this (hw i)
      linarith
    have := Finset.sum_le_sum fun i (_ : i ∈ Finset.univ) => key i
    rw [Finset.sum_sub_distrib, ← Finset.sum_mul] at this
    have h' : ∑ i, w i * limit delta (t i - x) = 0 := h
    rw [h'] at this
    linarith

end Limited

/-! ### Solutions -/

section Solutions

variable {X J : Type _} [Fintype J] {prob : X → J → ℝ} {gamma delta : ℝ}

/-- Tables whose entries have limited errors of mean zero for their own targets lie between a least and a greatest one. -/
theorem tilt_solutions [Fintype X] (hd : 0 < delta) (hp0 : ∀ p j, 0 ≤ prob p j) (hp1 : ∀ p, ∑ j, prob p j = 1) (h0 : 0 ≤ gamma) (h1 : gamma < 1) {Y : (X → ℝ) → X → J → ℝ}
    (hY : ∀ q q' c, 0 ≤ c → (∀ p, q p ≤ q' p + c) → ∀ p j, Y q p j ≤ Y q' p j + gamma * c) :
    ∃ lo hi : X → ℝ, (∀ p, tilt delta (prob p) (Y lo p) (lo p) = 0 ∧ ∀ y, tilt delta (prob p) (Y lo p) y ≤ 0 → lo p ≤ y) ∧ (∀ p, tilt delta (prob p) (Y hi p) (hi p) = 0 ∧ ∀ y, 0 ≤ tilt delta (prob p) (Y hi p) y → y ≤ hi p) ∧
      ∀ q, (∀ p, tilt delta (prob p) (Y q p) (q p) = 0) → ∀ p, lo p ≤ q p ∧ q p ≤ hi p := by
  have hpos : ∀ p, ∃ j, 0 < prob p j := by
    intro p
    by_contra h
    push Not at h
    have : ∑ j, prob p j ≤ 0 := Finset.sum_nonpos fun j _ => h j
    rw [hp1] at this
    linarith
  choose L H hL hH hLl hHg using fun (q : X → ℝ) p => tilt_balance (t := Y q p) hd (hp0 p) (hpos p)
  have Hstep : ∀ (q q' : X → ℝ) (c : ℝ), 0 ≤ c → (∀ p, q p ≤ q' p + c) → ∀ p y, tilt delta (prob p) (Y q p) y = 0 → y ≤ H q' p + gamma * c := by
    intro q q' c hc h p y hy
    have h2 : tilt delta (prob p) (Y q p) y ≤ tilt delta (prob p) (Y q' p) (y - gamma * c) := tilt_shift hd (hp0 p) fun j => by linarith [hY q q' c hc h p j]
    rw [hy] at h2
    linarith [hHg q' p _ h2]
  have Lstep : ∀ (q q' : X → ℝ) (c : ℝ), 0 ≤ c → (∀ p, q' p ≤ q p + c) → ∀ p y, tilt delta (prob p) (Y q p) y = 0 → L q' p - gamma * c ≤ y := by
    intro q q' c hc h p y hy
    have h2 : tilt delta (prob p) (Y q' p) (y + gamma * c) ≤ tilt delta (prob p) (Y q p) y := tilt_shift hd (hp0 p) fun j => by linarith [hY q' q c hc h p j]
    rw [hy] at h2
    linarith [hLl q' p _ h2]
  have contr : ∀ T : (X → ℝ) → X → ℝ, (∀ q q' c, 0 ≤ c → (∀ p, q p ≤ q' p + c) → ∀ p, T q p ≤ T q' p + gamma * c) → ContractingWith ⟨gamma, h0⟩ T := by
    intro T hT
    refine ⟨by exact_mod_cast h1, LipschitzWith.of_dist_le_mul fun q q' => ?_⟩
    have hdist : ∀ p, |q p - q' p| ≤ dist q q' := fun p => by rw [← Real.dist_eq]; exact dist_le_pi_dist _ _ p
    have a1 := hT q q' (dist q q') dist_nonneg fun p => by linarith [(abs_le.1 (hdist p)).2]
    have a2 := hT q' q (dist q q') dist_nonneg fun p => by linarith [(abs_le.1 (hdist p)).1]
    refine (dist_pi_le_iff (mul_nonneg h0 dist_nonneg)).2 fun p => ?_
    rw [Real.dist_eq, abs_le]
    show -(gamma * _) ≤ _ ∧ _ ≤ gamma * _
    constructor <;> linarith [a1 p, a2 p]
  have cH := contr H fun q q' c hc h p => Hstep q q' c hc h p _ (hH q p)
  have cL := contr L fun q q' c hc h p => by linarith [Lstep q' q c hc h p _ (hL q' p)]
  have flo : L (cL.fixedPoint L) = cL.fixedPoint L := cL.fixedPoint_isFixedPt
  have fhi : H (cH.fixedPoint H) = cH.fixedPoint H := cH.fixedPoint_isFixedPt
  set lo := cL.fixedPoint L
  set hi := cH.fixedPoint H
  refine ⟨lo, hi, fun p => ⟨?_, fun y hy => ?_⟩, fun p => ⟨?_, fun y hy => ?_⟩, fun q hq => ?_⟩
  · have := hL lo p; rwa [flo] at this
  · have := hLl lo p y hy; rwa [flo] at this
  · have := hH hi p; rwa [fhi] at this
  · have := hHg hi p y hy; rwa [fhi] at this
  · have hall : ∀ t : ℕ, ∀ p, lo p - gamma ^ t * (dist lo q + dist hi q) ≤ q p ∧ q p ≤ hi p + gamma ^ t * (dist lo q + dist hi q) := by
      have e1 : 0 ≤ dist lo q := dist_nonneg
      have e2 : 0 ≤ dist hi q := dist_nonneg
      intro t
      induction t with
      | zero =>
        intro p
        have d1 : |lo p - q p| ≤ dist lo q := by rw [← Real.dist_eq]; exact dist_le_pi_dist _ _ p
        have d2 : |hi p - q p| ≤ dist hi q := by rw [← Real.dist_eq]; exact dist_le_pi_dist _ _ p
        rw [pow_zero, one_mul]
        constructor <;> linarith [(abs_le.1 d1).2, (abs_le.1 d2).1]
      | succ t ih =>
        intro p
        have hc : 0 ≤ gamma ^ t * (dist lo q + dist hi q) := mul_nonneg (pow_nonneg h0 t) (by linarith)
        have a1 := Lstep q lo _ hc (fun p => by linarith [(ih p).1]) p _ (hq p)
        have a2 := Hstep q hi _ hc (fun p => by linarith [(ih p).2]) p _ (hq p)
        rw [flo] at a1; rw [fhi] at a2
        rw [pow_succ', mul_assoc]
        exact ⟨a1, a2⟩
    have lim : Tendsto (fun t : ℕ => gamma ^ t * (dist lo q + dist hi q)) atTop (𝓝 0) := by
      simpa using (tendsto_pow_atTop_nhds_zero_of_lt_one h0 h1).mul_const (dist lo q + dist hi q)
    intro p
    constructor
    · refine ge_of_tendsto' (x := atTop) (f := fun t : ℕ => q p + gamma ^ t * (dist lo q + dist hi q)) ?_ (fun t => by linarith [(hall t p).1])
      simpa using lim.const_add (q p)
    · refine ge_of_tendsto' (x := atTop) (f := fun t : ℕ => hi p + gamma ^ t * (dist lo q + dist hi q)) ?_ (fun t => (hall t p).2)
      simpa using lim.const_add (hi p)

end Solutions

/-! ### One path -/

/-- A number that is pushed down whenever it is at least `A`, with noise whose sum converges, ends up below `A`, up to any margin. -/
theorem drift_down {x b h d : ℕ → ℝ} {A eta K S eps : ℝ} (hb0 : ∀ t, 0 ≤ b t) (hbz : Tendsto b atTop (𝓝 0)) (hs : ¬ Summable b) (hx : ∀ t, x (t + 1) = x t + b t * h t + d t) (hh : ∀ t, h t ≤ K)
    (hS : Tendsto (fun t => ∑ k ∈ Finset.range t, d k) atTop (𝓝 S)) (heta : 0 < eta) (hdr : ∀ᶠ t in atTop, A ≤ x t → h t ≤ -eta) (he : 0 < eps) : ∀ᶠ t in atTop, x t ≤ A + eps := by
  let R : ℕ → ℝ := fun t => ∑ k ∈ Finset.range t, d k - S
  have hR : Tendsto R atTop (𝓝 0) := by simpa using hS.sub_const S
  let y : ℕ → ℝ := fun t => x t - R t
  have hy : ∀ t, y (t + 1) = y t + b t * h t := by
    intro t
    simp only [y, R, hx, Finset.sum_range_succ]
    ring
  have hbK : Tendsto (fun t => b t * K) atTop (𝓝 0) := by simpa using hbz.mul_const K
  obtain ⟨T, hT⟩ := eventually_atTop.1 ((hdr.and (Metric.tendsto_nhds.1 hR (eps / 4) (by linarith))).and (hbK.eventually (gt_mem_nhds (by linarith : (0 : ℝ) < eps / 4))))
  have hRt : ∀ t, T ≤ t → |R t| ≤ eps / 4 := by
    intro t ht
    have := (hT t ht).1.2
    rw [Real.dist_eq, sub_zero] at this
    exact this.le
  have down : ∀ t, T ≤ t → A + eps / 4 ≤ y t → y (t + 1) ≤ y t - eta * b t := by
    intro t ht hyt
    have h1 : A ≤ x t := by
      have := (abs_le.1 (hRt t ht)).1
      simp only [y] at hyt
      linarith
    have h2 := mul_le_mul_of_nonneg_left ((hT t ht).1.1 h1) (hb0 t)
    rw [hy]
    linarith
  have stay : ∀ t, T ≤ t → y t ≤ A + eps / 2 → y (t + 1) ≤ A + eps / 2 := by
    intro t ht hyt
    by_cases h1 : A + eps / 4 ≤ y t
    · have := down t ht h1
      have := mul_nonneg heta.le (hb0 t)
      linarith
    · have h2 := mul_le_mul_of_nonneg_left (hh t) (hb0 t)
      have h3 := (hT t ht).2
      rw [hy]
      linarith [not_le.1 h1]
  have reach : ∃ t, T ≤ t ∧ y t ≤ A + eps / 2 := by
    by_contra hc
    push Not at hc
    have hle : ∀ k, y (T + k) ≤ y T - eta * (∑ j ∈ Finset.range (T + k), b j - ∑ j ∈ Finset.range T, b j) := by
      intro k
      induction k with
      | zero => simp
      | succ k ih =>
        have h1 := down (T + k) (by omega) (by linarith [hc (T + k) (by omega)])
        rw [← Nat.add_assoc, Finset.sum_range_succ]
        linarith
    have hsum := (not_summable_iff_tendsto_nat_atTop_of_nonneg hb0).1 hs
    obtain ⟨t, h1, h2⟩ := ((hsum.eventually_ge_atTop (∑ j ∈ Finset.range T, b j + (y T - A) / eta)).and (eventually_ge_atTop T)).exists
    obtain ⟨k, rfl⟩ := Nat.exists_eq_add_of_le h2
    have h3 := hle k
    have h4 := hc (T + k) h2
    have h5 : eta * ((y T - A) / eta) = y T - A := by field_simp
    have h6 := mul_le_mul_of_nonneg_left (show (y T - A) / eta ≤ ∑ j ∈ Finset.range (T + k), b j - ∑ j ∈ Finset.range T, b j by linarith) heta.le
    rw [h5] at h6
    linarith
  obtain ⟨t0, h1, h2⟩ := reach
  have hall : ∀ k, y (t0 + k) ≤ A + eps / 2 := by
    intro k
    induction k with
    | zero => exact h2
    | succ k ih => exact stay (t0 + k) (by omega) ih
  filter_upwards [eventually_ge_atTop t0] with t ht
  obtain ⟨k, rfl⟩ := Nat.exists_eq_add_of_le ht
  have h3 := hall k
  have h4 := (abs_le.1 (hRt (t0 + k) (by omega))).2
  simp only [y] at h3
  linarith

/-- A number that is moved again and again towards numbers that end up below `B` ends up below `B`, up to any margin. -/
theorem averaging_below {x a h : ℕ → ℝ} {B eps : ℝ} (ha0 : ∀ t, 0 ≤ a t) (ha1 : ∀ t, a t ≤ 1) (hs : ¬ Summable a) (hx : ∀ t, x (t + 1) = (1 - a t) * x t + a t * h t) (hB : ∀ᶠ t in atTop, h t ≤ B) (he : 0 < eps) :
    ∀ᶠ t in atTop, x t ≤ B + eps := by
  let z : ℕ → ℝ := fun t => Nat.rec (motive := fun _ => ℝ) (x 0 - B) (fun t z => (1 - a t) * z + a t * max (h t - B) 0) t
  have hz : ∀ t, z (t + 1) = (1 - a t) * z t + a t * max (h t - B) 0 := fun t => rfl
  have hle : ∀ t, x t - B ≤ z t := by
    intro t
    induction t with
    | zero => exact le_rfl
    | succ t ih =>
      rw [hz, hx]
      have h1 := mul_le_mul_of_nonneg_left ih (sub_nonneg.2 (ha1 t))
      have h2 := mul_le_mul_of_nonneg_left (le_max_left (h t - B) 0) (ha0 t)
      linarith
  have h3 := averaging (x := z) (B := 0) (eps := eps) ha0 ha1 hs hz (hB.mono fun t ht => by rw [max_eq_right (by linarith), abs_zero]) he
  filter_upwards [h3] with t ht
  have := (abs_le.1 ht).2
  linarith [hle t]

section Paths

variable {X J : Type _} [Fintype J] {prob : X → J → ℝ} {gamma delta : ℝ}

/-- The entries come to lie between bounds that attract. -/
theorem limited_path [Finite X] (hd : 0 < delta) (hp0 : ∀ p j, 0 ≤ prob p j) (hp1 : ∀ p, ∑ j, prob p j = 1) (h0 : 0 ≤ gamma) (h1 : gamma < 1) {Y : (X → ℝ) → X → J → ℝ}
    (hY : ∀ q q' c, 0 ≤ c → (∀ p, q p ≤ q' p + c) → ∀ p j, Y q p j ≤ Y q' p j + gamma * c) {hi : X → ℝ} (hhi : ∀ p, ∀ y, 0 ≤ tilt delta (prob p) (Y hi p) y → y ≤ hi p)
    {f g b d : ℕ → X → ℝ} {tau : ℕ → ℝ} (hb0 : ∀ t p, 0 ≤ b t p) (hbz : ∀ p, Tendsto (fun t => b t p) atTop (𝓝 0)) (hbs : ∀ p, ¬ Summable fun t => b t p)
    (hf : ∀ t p, f (t + 1) p = f t p + b t p * tilt delta (prob p) (Y (g t) p) (f t p) + d t p) (hdS : ∀ p, ∃ S, Tendsto (fun t => ∑ k ∈ Finset.range t, d k p) atTop (𝓝 S))
    (ht0 : ∀ t, 0 ≤ tau t) (ht1 : ∀ t, tau t ≤ 1) (hts : ¬ Summable tau) (hg : ∀ t p, g (t + 1) p = (1 - tau t) * g t p + tau t * f (t + 1) p) {M : ℝ} (hM : ∀ t p, f t p ≤ hi p + M ∧ g t p ≤ hi p + M) {eps : ℝ} (he : 0 < eps) :
    ∀ᶠ t in atTop, ∀ p, f t p ≤ hi p + eps ∧ g t p ≤ hi p + eps := by
  have := Fintype.ofFinite X
  have hle : ∀ p (t : J → ℝ) x, tilt delta (prob p) t x ≤ delta := by
    intro p t x
    calc _ ≤ ∑ j, prob p j * delta := Finset.sum_le_sum fun j _ => mul_le_mul_of_nonneg_left (abs_le.1 (limit_abs hd.le _)).2 (hp0 p j)
      _ = delta := by rw [← Finset.sum_mul, hp1, one_mul]
  have shrink : ∀ D eps, 0 ≤ D → 0 < eps → (∀ᶠ t in atTop, ∀ p, f t p ≤ hi p + D ∧ g t p ≤ hi p + D) → ∀ᶠ t in atTop, ∀ p, f t p ≤ hi p + (gamma * D + eps) ∧ g t p ≤ hi p + (gamma * D + eps) := by
    intro D eps hD0 he hD
    have hfe : ∀ p, ∀ᶠ t in atTop, f t p ≤ hi p + (gamma * D + eps / 2) := by
      intro p
      obtain ⟨S, hS⟩ := hdS p
      have heta : tilt delta (prob p) (Y hi p) (hi p + eps / 4) < 0 := by
        by_contra hc
        have := hhi p _ (not_lt.1 hc)
        linarith
      have := drift_down (x := fun t => f t p) (A := hi p + gamma * D + eps / 4) (eta := -tilt delta (prob p) (Y hi p) (hi p + eps / 4)) (eps := eps / 4) (fun t => hb0 t p) (hbz p) (hbs p) (fun t => hf t p) (fun t => hle _ _ _) hS
        (by linarith) (hD.mono fun t ht hA => by
          rw [neg_neg]
          exact tilt_shift hd (hp0 p) fun j => by linarith [hY (g t) hi D hD0 (fun p => (ht p).2) p j]) (by linarith)
      filter_upwards [this] with t h2
      linarith
    have hge : ∀ p, ∀ᶠ t in atTop, g t p ≤ hi p + (gamma * D + eps) := by
      intro p
      have := averaging_below (x := fun t => g t p) (h := fun t => f (t + 1) p) (B := hi p + (gamma * D + eps / 2)) (eps := eps / 2) ht0 ht1 hts (fun t => hg t p) ((tendsto_add_atTop_nat 1).eventually (hfe p)) (by linarith)
      filter_upwards [this] with t h2
      linarith
    refine eventually_all.2 fun p => ?_
    filter_upwards [hfe p, hge p] with t h2 h3
    exact ⟨by linarith, h3⟩
  have geo : ∀ k : ℕ, ∀ᶠ t in atTop, ∀ p, f t p ≤ hi p + max M 1 * ((1 + gamma) / 2) ^ k ∧ g t p ≤ hi p + max M 1 * ((1 + gamma) / 2) ^ k := by
    intro k
    induction k with
    | zero =>
      refine Eventually.of_forall fun t p => ?_
      rw [pow_zero, mul_one]
      have := le_max_left M 1
      exact ⟨by linarith [(hM t p).1], by linarith [(hM t p).2]⟩
    | succ k ih =>
      have hpos : 0 < max M 1 * ((1 + gamma) / 2) ^ k := mul_pos (lt_of_lt_of_le one_pos (le_max_right _ _)) (pow_pos (by linarith) _)
      have := shrink _ ((1 - gamma) / 2 * (max M 1 * ((1 + gamma) / 2) ^ k)) hpos.le (mul_pos (by linarith) hpos) ih
      have e : gamma * (max M 1 * ((1 + gamma) / 2) ^ k) + (1 - gamma) / 2 * (max M 1 * ((1 + gamma) / 2) ^ k) = max M 1 * ((1 + gamma) / 2) ^ (k + 1) := by rw [pow_succ]; ring
      rwa [e] at this
  have hz : Tendsto (fun k : ℕ => (max M 1) * ((1 + gamma) / 2) ^ k) atTop (𝓝 0) := by
    simpa using (tendsto_pow_atTop_nhds_zero_of_lt_one (by linarith : 0 ≤ (1 + gamma) / 2) (by linarith)).const_mul (max M 1)
  obtain ⟨k, hk⟩ := (hz.eventually (gt_mem_nhds he)).exists
  filter_upwards [geo k] with t h2 p
  exact ⟨by linarith [(h2 p).1], by linarith [(h2 p).2]⟩

end Paths

/-! ### The updates -/

variable {σ J Ω : Type _} {n m : Nat} {m0 : MeasurableSpace Ω} [DecidableEq σ] [Fintype J]

theorem learnS_huber [Fintype σ] {μ : Measure Ω} [IsProbabilityMeasure μ] {ℱ : Filtration ℕ m0} {updateRule} {type1 : Bool} (hn : 0 < n) {prob : σ × Fin n → J → ℝ} {gamma delta : ℝ} (hd : 0 < delta) (h0 : 0 ≤ gamma) (h1 : gamma < 1)
    (hp0 : ∀ p j, 0 ≤ prob p j) (hp1 : ∀ p, ∑ j, prob p j = 1) {Y : (σ × Fin n → ℝ) → σ × Fin n → J → ℝ} (hY : ∀ q q' c, 0 ≤ c → (∀ p, q p ≤ q' p + c) → ∀ p j, Y q p j ≤ Y q' p j + gamma * c)
    {lo hi : σ × Fin n → ℝ} (hlo : ∀ p y, tilt delta (prob p) (Y lo p) y ≤ 0 → lo p ≤ y) (hhi : ∀ p y, 0 ≤ tilt delta (prob p) (Y hi p) y → y ≤ hi p)
    {lr tau : ℕ → ℝ} {rows : ℕ → Ω → Out σ (Fin n) ℝ} {ix : ℕ → Ω → J}
    (hat : ∀ t s a, MeasurableSet[ℱ t] {ω | (rows t ω).S = s ∧ (rows t ω).A = a}) (hw : ∀ t, Measurable[ℱ t] fun ω => (rows t ω).W) (hix : ∀ t j, MeasurableSet[ℱ (t + 1)] {ω | ix t ω = j})
    (hlaw : ∀ t j, ∀ᵐ ω ∂μ, (μ[Set.indicator {ω | ix t ω = j} (fun _ => (1 : ℝ)) | ℱ t]) ω = prob ((rows t ω).S, (rows t ω).A) j)
    (hup : ∀ θ θT t ω, ∃ B, toTBatch id (fun a : Fin n => oneHot n a) [rows t ω] = .ok B ∧ updateRule (tabular type1 θ) (tabular type1 θT) B = .ok [Y (fun p => θT p.1 p.2) ((rows t ω).S, (rows t ω).A) (ix t ω)])
    (hl : Rates μ rows lr tau) (θ0 θT0 : σ → Fin n → ℝ) :
    ∃ θ θT : ℕ → Ω → σ → Fin n → ℝ, (∀ k ω, learnS lr (huber1 delta) updateRule type1 0 (θ0, θT0) ((List.range k).map fun t => ([rows t ω], tau t)) = .ok (θ k ω, θT k ω)) ∧
      ∀ᵐ ω ∂μ, ∀ eps, 0 < eps → ∀ᶠ k in atTop, ∀ s a, (lo (s, a) - eps ≤ θ k ω s a ∧ θ k ω s a ≤ hi (s, a) + eps) ∧ lo (s, a) - eps ≤ θT k ω s a ∧ θT k ω s a ≤ hi (s, a) + eps := by
  let b : ℕ → σ × Fin n → Ω → ℝ := fun t p ω => lr t * if (rows t ω).S = p.1 ∧ (rows t ω).A = p.2 then min (max (rows t ω).W 0.1) 10 else 0
  have step : ∀ θT θ t ω, sgdUpdate (lr t) (huber1 delta) updateRule type1 θT θ [rows t ω] = .ok fun s a => θ s a + b t (s, a) ω * limit delta (Y (fun p => θT p.1 p.2) (s, a) (ix t ω) - θ s a) := by
    intro θT θ t ω
    obtain ⟨B, hB, ht⟩ := hup θ θT t ω
    rw [sgdUpdate_eq (huber1_meanOf hd.le) (gentle_huber hd) hn (List.cons_ne_nil _ _) hB (T := fun s a => Y (fun p => θT p.1 p.2) (s, a) (ix t ω)) ht (lr t)]
    congr 1
    funext s a
    rw [share_one, mul_assoc, limit_part _ _ hd]
  let next : ℕ → Ω → (σ → Fin n → ℝ) × (σ → Fin n → ℝ) → (σ → Fin n → ℝ) × (σ → Fin n → ℝ) := fun t ω x =>
    let θ' : σ → Fin n → ℝ := fun s a => x.1 s a + b t (s, a) ω * limit delta (Y (fun p => x.2 p.1 p.2) (s, a) (ix t ω) - x.1 s a)
    (θ', softTable (tau t) x.2 θ')
  let run : ℕ → Ω → (σ → Fin n → ℝ) × (σ → Fin n → ℝ) := fun k ω => Nat.rec (θ0, θT0) (fun t x => next t ω x) k
  have hrun : ∀ k ω, learnS lr (huber1 delta) updateRule type1 0 (θ0, θT0) ((List.range k).map fun t => ([rows t ω], tau t)) = .ok (run k ω) := by
    intro k ω
    induction k with
    | zero => rfl
    | succ k ih =>
      rw [List.range_succ, List.map_append, learnS_append ih]
      show learnS lr (huber1 delta) updateRule type1 _ ((run k ω).1, (run k ω).2) [([rows k ω], tau k)] = _
      rw [learnS]
      simp only [List.length_map, List.length_range, Nat.zero_add]
      rw [step]
      rfl
  refine ⟨fun k ω => (run k ω).1, fun k ω => (run k ω).2, hrun, ?_⟩
  let f : ℕ → Ω → σ × Fin n → ℝ := fun t ω p => (run t ω).1 p.1 p.2
  let g : ℕ → Ω → σ × Fin n → ℝ := fun t ω p => (run t ω).2 p.1 p.2
  let Yt : ℕ → Ω → σ × Fin n → J → ℝ := fun t ω p j => f t ω p + limit delta (Y (g t ω) p j - f t ω p)
  have hfstep : ∀ t ω p, f (t + 1) ω p = f t ω p + b t p ω * limit delta (Y (g t ω) p (ix t ω) - f t ω p) := fun t ω p => rfl
  have hgstep : ∀ t ω p, g (t + 1) ω p = (1 - tau t) * g t ω p + tau t * f (t + 1) ω p := fun t ω p => rfl
  have hb0 : ∀ t p ω, 0 ≤ b t p ω := by
    intro t p ω
    refine mul_nonneg (hl.nonneg t) ?_
    split
    · exact le_min ((by norm_num : (0 : ℝ) ≤ 0.1).trans (le_max_right _ _)) (by norm_num)
    · exact le_rfl
  have hb1 : ∀ t p ω, b t p ω ≤ 1 := by
    intro t p ω
    simp only [b]
    split
    · exact hl.le t ω
    · simp
  have hb10 : ∀ t p ω, b t p ω ≤ 10 * lr t := by
    intro t p ω
    simp only [b]
    rw [mul_comm 10]
    refine mul_le_mul_of_nonneg_left ?_ (hl.nonneg t)
    split
    · exact min_le_right _ _
    · norm_num
  have hlr : Tendsto (fun t => 10 * lr t) atTop (𝓝 0) := by
    have h2 : Tendsto (fun t => Real.sqrt (lr t ^ 2)) atTop (𝓝 0) := by simpa using hl.squares.tendsto_atTop_zero.sqrt
    have h3 : (fun t => Real.sqrt (lr t ^ 2)) = lr := funext fun t => Real.sqrt_sq (hl.nonneg t)
    rw [h3] at h2
    simpa using h2.const_mul 10
  -- bounds
  have hYabs : ∀ q M, 0 ≤ M → (∀ p, |q p| ≤ M) → ∀ p j, |Y q p j| ≤ |Y 0 p j| + gamma * M := by
    intro q M hM0 hq p j
    have a1 := hY q 0 M hM0 (fun p => by have := (abs_le.1 (hq p)).2; simpa using this) p j
    have a2 := hY 0 q M hM0 (fun p => by have := (abs_le.1 (hq p)).1; show 0 ≤ _; linarith) p j
    refine abs_le.2 ⟨?_, ?_⟩
    · linarith [neg_abs_le (Y 0 p j)]
    · linarith [le_abs_self (Y 0 p j)]
  let R : ℝ := ∑ p, ∑ j, |Y 0 p j|
  have hR : ∀ p j, |Y 0 p j| ≤ R := fun p j => (Finset.single_le_sum (f := fun j => |Y 0 p j|) (fun _ _ => abs_nonneg _) (Finset.mem_univ j)).trans
    (Finset.single_le_sum (f := fun p => ∑ j, |Y 0 p j|) (fun _ _ => Finset.sum_nonneg fun _ _ => abs_nonneg _) (Finset.mem_univ p))
  obtain ⟨C, hC⟩ := (Set.finite_range fun p : σ × Fin n => max |θ0 p.1 p.2| |θT0 p.1 p.2|).bddAbove
  have hC : ∀ p : σ × Fin n, max |θ0 p.1 p.2| |θT0 p.1 p.2| ≤ C := fun p => hC ⟨p, rfl⟩
  let M : ℝ := max (max C 0) (R / (1 - gamma))
  have hM0 : 0 ≤ M := (le_max_right C 0).trans (le_max_left _ _)
  have hMC : C ≤ M := (le_max_left C 0).trans (le_max_left _ _)
  have hMK : R + gamma * M ≤ M := by
    have h2 : R / (1 - gamma) ≤ M := le_max_right _ _
    rw [div_le_iff₀ (by linarith)] at h2
    linarith
  have hbound : ∀ t ω, (∀ p, |f t ω p| ≤ M) ∧ ∀ p, |g t ω p| ≤ M := by
    intro t ω
    induction t with
    | zero => exact ⟨fun p => ((le_max_left _ _).trans (hC p)).trans hMC, fun p => ((le_max_right _ _).trans (hC p)).trans hMC⟩
    | succ t ih =>
      have hf : ∀ p, |f (t + 1) ω p| ≤ M := by
        intro p
        let y : ℝ := Y (g t ω) p (ix t ω)
        let c : ℝ := if |y - f t ω p| ≤ delta then 1 else delta / |y - f t ω p|
        have hc0 : 0 ≤ c := (gentle_huber hd).nonneg _
        have hc1 : c ≤ 1 := (gentle_huber hd).le_one _
        have e1 : f (t + 1) ω p = (1 - b t p ω * c) * f t ω p + b t p ω * c * y := by
          rw [hfstep, ← limit_part _ _ hd]
          simp only [c, y]
          ring
        have hy : |y| ≤ M := (hYabs _ M hM0 ih.2 p _).trans ((by linarith [hR p (ix t ω)] : _ ≤ R + gamma * M).trans hMK)
        rw [e1]
        simpa using (abs_mix (z := 0) (A := M) (B := M) (mul_nonneg (hb0 t p ω) hc0) (mul_le_one₀ (hb1 t p ω) hc0 hc1) (by simpa using ih.1 p) (by simpa using hy)).trans (le_of_eq (by ring : _ = M))
      refine ⟨hf, fun p => ?_⟩
      rw [hgstep]
      simpa using (abs_mix (z := 0) (A := M) (B := M) (hl.tau_nonneg t) (hl.tau_le t) (by simpa using ih.2 p) (by simpa using hf p)).trans (le_of_eq (by ring : _ = M))
  -- measurability
  have hbm : ∀ t p, Measurable[ℱ t] (b t p) := by
    intro t p
    refine Measurable.const_mul (Measurable.ite (hat t p.1 p.2) ?_ measurable_const) _
    exact ((hw t).max measurable_const).min measurable_const
  have hYc : ∀ p j, Measurable fun q => Y q p j := by
    intro p j
    have : LipschitzWith ⟨gamma, h0⟩ fun q => Y q p j := LipschitzWith.of_dist_le_mul fun q q' => by
      have hdist : ∀ p, |q p - q' p| ≤ dist q q' := fun p => by rw [← Real.dist_eq]; exact dist_le_pi_dist _ _ p
      have a1 := hY q q' (dist q q') dist_nonneg (fun p => by linarith [(abs_le.1 (hdist p)).2]) p j
      have a2 := hY q' q (dist q q') dist_nonneg (fun p => by linarith [(abs_le.1 (hdist p)).1]) p j
      rw [Real.dist_eq, abs_le]
      show -(gamma * _) ≤ _ ∧ _ ≤ gamma * _
      constructor <;> linarith
    exact this.continuous.measurable
  have hYm : ∀ t, (∀ p, Measurable[ℱ t] fun ω => f t ω p) → (∀ p, Measurable[ℱ t] fun ω => g t ω p) → ∀ p j, Measurable[ℱ t] fun ω => Yt t ω p j := by
    intro t hf hg p j
    have h2 : Measurable[ℱ t] fun ω => g t ω := @measurable_pi_lambda _ _ _ (ℱ t) _ _ hg
    exact (hf p).add ((limit_continuous hd).measurable.comp (((hYc p j).comp h2).sub (hf p)))
  have hmove : ∀ t ω p, f (t + 1) ω p = f t ω p + b t p ω * (Yt t ω p (ix t ω) - f t ω p) := fun t ω p => by
    rw [hfstep]
    simp only [Yt, add_sub_cancel_left]
  have hmeas : ∀ t, (∀ p, Measurable[ℱ t] fun ω => f t ω p) ∧ ∀ p, Measurable[ℱ t] fun ω => g t ω p := by
    intro t
    induction t with
    | zero => exact ⟨fun p => measurable_const, fun p => measurable_const⟩
    | succ t ih =>
      have up : ∀ {F : Ω → ℝ}, Measurable[ℱ t] F → Measurable[ℱ (t + 1)] F := fun h => h.mono (ℱ.mono (by omega)) le_rfl
      have hf : ∀ p, Measurable[ℱ (t + 1)] fun ω => f (t + 1) ω p := fun p => by
        simp only [hmove]
        exact (up (ih.1 p)).add ((up (hbm t p)).mul ((target_known (F := fun j ω => Yt t ω p j) (ℱ.mono (by omega)) (fun j => hYm t ih.1 ih.2 p j) (hix t)).sub (up (ih.1 p))))
      refine ⟨hf, fun p => ?_⟩
      simp only [hgstep]
      exact ((up (ih.2 p)).const_mul _).add ((hf p).const_mul _)
  have hP : Process μ ℱ prob f g b Yt ix tau (fun t => 10 * lr t) (M + delta) := {
    prob_nonneg := hp0
    prob_total := hp1
    move := hmove
    sync := hgstep
    b_nonneg := hb0
    b_le := hb1
    b_small := hb10
    squares := by
      have : (fun t => (10 * lr t) ^ 2) = fun t => 10 ^ 2 * lr t ^ 2 := by funext t; ring
      rw [this]
      exact hl.squares.mul_left _
    b_known := hbm
    y_known := fun t p j => hYm t (hmeas t).1 (hmeas t).2 p j
    y_le := fun t ω p j => (abs_add_le _ _).trans (add_le_add ((hbound t ω).1 p) (limit_abs hd.le _))
    out_known := hix
    law := by
      intro t p j
      filter_upwards [hlaw t j] with ω h2 hne
      have : (rows t ω).S = p.1 ∧ (rows t ω).A = p.2 := by
        by_contra hc
        exact hne (by simp [b, hc])
      rw [h2, this.1, this.2]
    visits := by
      intro p
      filter_upwards [hl.visits p.1 p.2] with ω hv hsm
      refine hv (Summable.of_nonneg_of_le (fun t => ?_) (fun t => ?_) (hsm.mul_left 10))
      · split
        · exact hl.nonneg t
        · exact le_rfl
      · simp only [b]
        split
        · have h2 : (0.1 : ℝ) ≤ min (max (rows t ω).W 0.1) 10 := le_min (le_max_right _ _) (by norm_num)
          have := mul_le_mul_of_nonneg_left h2 (hl.nonneg t)
          linarith
        · simp
    tau_nonneg := hl.tau_nonneg
    tau_le := hl.tau_le
    syncs := hl.syncs }
  obtain ⟨S, hS⟩ := (Set.finite_range fun p : σ × Fin n => max |lo p| |hi p|).bddAbove
  have hS : ∀ p : σ × Fin n, max |lo p| |hi p| ≤ S := fun p => hS ⟨p, rfl⟩
  filter_upwards [ae_all_iff.2 fun p => hP.noise (by linarith) p, ae_all_iff.2 hP.visits] with ω hN hv eps he
  have hbz : ∀ p, Tendsto (fun t => b t p ω) atTop (𝓝 0) := fun p => squeeze_zero (fun t => hb0 t p ω) (fun t => hb10 t p ω) hlr
  let d : ℕ → σ × Fin n → ℝ := fun t p => b t p ω * (Yt t ω p (ix t ω) - ∑ j, prob p j * Yt t ω p j)
  have hfd : ∀ t p, f (t + 1) ω p = f t ω p + b t p ω * tilt delta (prob p) (Y (g t ω) p) (f t ω p) + d t p := by
    intro t p
    have e1 : ∑ j, prob p j * Yt t ω p j = f t ω p + tilt delta (prob p) (Y (g t ω) p) (f t ω p) := by
      simp only [Yt, mul_add, Finset.sum_add_distrib, ← Finset.sum_mul, hp1, one_mul]
      rfl
    rw [hmove]
    simp only [d]
    rw [e1]
    ring
  have upper := limited_path hd hp0 hp1 h0 h1 hY hhi (f := fun t => f t ω) (g := fun t => g t ω) (b := fun t p => b t p ω) (d := d) (fun t p => hb0 t p ω) hbz hv hfd hN hl.tau_nonneg hl.tau_le hl.syncs (fun t p => hgstep t ω p) (M := M + S)
    (fun t p => by
      have a1 := (abs_le.1 ((hbound t ω).1 p)).2
      have a2 := (abs_le.1 ((hbound t ω).2 p)).2
      have a3 := (neg_le_abs (hi p)).trans ((le_max_right _ _).trans (hS p))
      constructor <;> linarith) he
  have tilt_minus : ∀ p (t : J → ℝ) x, tilt delta (prob p) (fun j => -t j) x = -tilt delta (prob p) t (-x) := by
    intro p t x
    unfold tilt
    rw [← Finset.sum_neg_distrib]
    refine Finset.sum_congr rfl fun j _ => ?_
    rw [show -t j - x = -(t j - -x) by ring, limit_neg hd]
    ring
  have lower := limited_path (prob := prob) (Y := fun q p j => -Y (fun p => -q p) p j) hd hp0 hp1 h0 h1 (fun q q' c hc hq p j => by
      have := hY (fun p => -q' p) (fun p => -q p) c hc (fun p => by linarith [hq p]) p j
      linarith) (hi := fun p => -lo p) (fun p y hy => by
      rw [tilt_minus] at hy
      simp only [neg_neg] at hy
      have := hlo p (-y) (by show tilt delta (prob p) (Y (fun p => lo p) p) (-y) ≤ 0; linarith)
      linarith) (f := fun t p => -f t ω p) (g := fun t p => -g t ω p) (b := fun t p => b t p ω) (d := fun t p => -d t p) (fun t p => hb0 t p ω) hbz hv (fun t p => by
      rw [tilt_minus]
      simp only [neg_neg]
      rw [hfd]
      ring) (fun p => by
      obtain ⟨S, hS⟩ := hN p
      exact ⟨-S, by simpa using hS.neg⟩) hl.tau_nonneg hl.tau_le hl.syncs (fun t p => by rw [hgstep]; ring) (M := M + S)
    (fun t p => by
      have a1 := (abs_le.1 ((hbound t ω).1 p)).1
      have a2 := (abs_le.1 ((hbound t ω).2 p)).1
      have a3 := (le_abs_self (lo p)).trans ((le_max_left _ _).trans (hS p))
      constructor <;> linarith) he
  filter_upwards [upper, lower] with t h2 h3 s a
  have h4 := h2 (s, a)
  have h5 := h3 (s, a)
  exact ⟨⟨by linarith [h5.1], h4.1⟩, by linarith [h5.2], h4.2⟩

end Coax.Loop
