import Verif.Loop.TabularLemmas
import Mathlib.Probability.Martingale.Convergence
import Mathlib.MeasureTheory.Function.ConditionalExpectation.PullOut
import Mathlib.Analysis.Complex.Exponential
import Mathlib.Analysis.SpecialFunctions.Exp
import Mathlib.Topology.Algebra.InfiniteSum.Real

/-! Stochastic approximation: asynchronous iteration of a contraction with noise, decreasing steps and a lagging copy converges almost surely. -/

namespace Coax.Loop

open Filter Topology MeasureTheory

/-! ### One path -/

/-- A number that is moved again and again towards numbers of size at most `B` ends up within `B`, up to any margin. -/
theorem averaging {x a h : ℕ → ℝ} {B eps : ℝ} (ha0 : ∀ t, 0 ≤ a t) (ha1 : ∀ t, a t ≤ 1) (hs : ¬ Summable a) (hx : ∀ t, x (t + 1) = (1 - a t) * x t + a t * h t) (hB : ∀ᶠ t in atTop, |h t| ≤ B) (he : 0 < eps) :
    ∀ᶠ t in atTop, |x t| ≤ B + eps := by
  obtain ⟨T, hT⟩ := eventually_atTop.1 hB
  have hB0 : 0 ≤ B := (abs_nonneg _).trans (hT T le_rfl)
  have step : ∀ k, |x (T + k)| ≤ B + Real.exp (-(∑ j ∈ Finset.range (T + k), a j) + ∑ j ∈ Finset.range T, a j) * |x T| := by
    intro k
    induction k with
    | zero => simpa using hB0
    | succ k ih =>
      have h1 := hT (T + k) (by omega)
      have h2 : 0 ≤ 1 - a (T + k) := by have := ha1 (T + k); linarith
      have h3 : 1 - a (T + k) ≤ Real.exp (-a (T + k)) := by have := Real.add_one_le_exp (-a (T + k)); linarith
      rw [← Nat.add_assoc, hx, Finset.sum_range_succ]
      set E := Real.exp (-(∑ j ∈ Finset.range (T + k), a j) + ∑ j ∈ Finset.range T, a j) with hE
      have h4 : Real.exp (-(∑ j ∈ Finset.range (T + k), a j + a (T + k)) + ∑ j ∈ Finset.range T, a j) = E * Real.exp (-a (T + k)) := by
        rw [hE, ← Real.exp_add]
        congr 1
        ring
      rw [h4]
      have h5 : 0 ≤ E * |x T| := mul_nonneg (Real.exp_pos _).le (abs_nonneg _)
      calc |(1 - a (T + k)) * x (T + k) + a (T + k) * h (T + k)| ≤ |(1 - a (T + k)) * x (T + k)| + |a (T + k) * h (T + k)| := abs_add_le _ _
        _ = (1 - a (T + k)) * |x (T + k)| + a (T + k) * |h (T + k)| := by rw [abs_mul, abs_mul, abs_of_nonneg h2, abs_of_nonneg (ha0 _)]
        _ ≤ (1 - a (T + k)) * (B + E * |x T|) + a (T + k) * B := add_le_add (mul_le_mul_of_nonneg_left ih h2) (mul_le_mul_of_nonneg_left h1 (ha0 _))
        _ = B + (1 - a (T + k)) * (E * |x T|) := by ring
        _ ≤ B + Real.exp (-a (T + k)) * (E * |x T|) := by have := mul_le_mul_of_nonneg_right h3 h5; linarith
        _ = _ := by ring
  have hlim : Tendsto (fun t => Real.exp (-(∑ j ∈ Finset.range t, a j) + ∑ j ∈ Finset.range T, a j) * |x T|) atTop (𝓝 0) := by
    have h1 := (not_summable_iff_tendsto_nat_atTop_of_nonneg ha0).1 hs
    have h2 : Tendsto (fun t => -(∑ j ∈ Finset.range t, a j) + ∑ j ∈ Finset.range T, a j) atTop atBot := tendsto_atBot_add_const_right _ _ (tendsto_neg_atTop_atBot.comp h1)
    simpa using (Real.tendsto_exp_atBot.comp h2).mul_const |x T|
  filter_upwards [hlim.eventually (gt_mem_nhds he), eventually_ge_atTop T] with t h1 h2
  obtain ⟨k, rfl⟩ := Nat.exists_eq_add_of_le h2
  exact (step k).trans (by linarith)

/-- The same with numbers that tend to zero. -/
theorem averaging_zero {x a h : ℕ → ℝ} (ha0 : ∀ t, 0 ≤ a t) (ha1 : ∀ t, a t ≤ 1) (hs : ¬ Summable a) (hx : ∀ t, x (t + 1) = (1 - a t) * x t + a t * h t) (hh : Tendsto h atTop (𝓝 0)) : Tendsto x atTop (𝓝 0) := by
  rw [Metric.tendsto_atTop]
  intro eps he
  have h1 : ∀ᶠ t in atTop, |h t| ≤ eps / 3 := by
    filter_upwards [Metric.tendsto_nhds.1 hh (eps / 3) (by linarith)] with t ht
    rw [Real.dist_eq, sub_zero] at ht
    exact ht.le
  obtain ⟨N, hN⟩ := eventually_atTop.1 (averaging ha0 ha1 hs hx h1 (eps := eps / 3) (by linarith))
  refine ⟨N, fun t ht => ?_⟩
  rw [Real.dist_eq, sub_zero]
  have := hN t ht
  linarith

/-- Noise whose sum converges is averaged away. -/
theorem averaging_noise {x a d : ℕ → ℝ} (ha0 : ∀ t, 0 ≤ a t) (ha1 : ∀ t, a t ≤ 1) (hs : ¬ Summable a) (hx : ∀ t, x (t + 1) = (1 - a t) * x t + d t) {S : ℝ} (hS : Tendsto (fun t => ∑ k ∈ Finset.range t, d k) atTop (𝓝 S)) :
    Tendsto x atTop (𝓝 0) := by
  have hR : Tendsto (fun t => ∑ k ∈ Finset.range t, d k - S) atTop (𝓝 0) := by simpa using hS.sub_const S
  have h1 := averaging_zero (x := fun t => x t - (∑ k ∈ Finset.range t, d k - S)) (h := fun t => -(∑ k ∈ Finset.range t, d k - S)) ha0 ha1 hs (fun t => by
    rw [hx, Finset.sum_range_succ]
    ring) (by simpa using hR.neg)
  simpa using h1.add hR

variable {X : Type _}

/-- Entries of `f` are moved towards the operator `T` applied to the lagging copy `g`, with noise. -/
structure Noisy (T : (X → ℝ) → X → ℝ) (f g b d : ℕ → X → ℝ) (tau : ℕ → ℝ) : Prop where
  b_nonneg : ∀ t p, 0 ≤ b t p
  b_le : ∀ t p, b t p ≤ 1
  move : ∀ t p, f (t + 1) p = (1 - b t p) * f t p + b t p * T (g t) p + d t p
  tau_nonneg : ∀ t, 0 ≤ tau t
  tau_le : ∀ t, tau t ≤ 1
  sync : ∀ t p, g (t + 1) p = (1 - tau t) * g t p + tau t * f (t + 1) p

variable {T : (X → ℝ) → X → ℝ} {fs : X → ℝ} {gamma : ℝ} {f g b d : ℕ → X → ℝ} {tau : ℕ → ℝ}

/-- What remains of the noise. -/
def residue (b d : ℕ → X → ℝ) (p : X) (t : ℕ) : ℝ := Nat.rec 0 (fun t x => (1 - b t p) * x + d t p) t

theorem Noisy.converges_of [Finite X] (h : Noisy T f g b d tau) (hT : Attracts T fs gamma) (h0 : 0 ≤ gamma) (h1 : gamma < 1) (hb : ∀ p, ¬ Summable fun t => b t p) (ht : ¬ Summable tau)
    (hd : ∀ p, Tendsto (residue b d p) atTop (𝓝 0)) {M : ℝ} (hM : ∀ t p, |f t p - fs p| ≤ M ∧ |g t p - fs p| ≤ M) (p : X) :
    Tendsto (fun t => f t p) atTop (𝓝 (fs p)) ∧ Tendsto (fun t => g t p) atTop (𝓝 (fs p)) := by
  have shrink : ∀ D eps, 0 < eps → (∀ᶠ t in atTop, ∀ p, |f t p - fs p| ≤ D ∧ |g t p - fs p| ≤ D) → ∀ᶠ t in atTop, ∀ p, |f t p - fs p| ≤ gamma * D + eps ∧ |g t p - fs p| ≤ gamma * D + eps := by
    intro D eps he hD
    have hf : ∀ p, ∀ᶠ t in atTop, |f t p - fs p| ≤ gamma * D + eps / 2 := by
      intro p
      let N : ℕ → ℝ := residue b d p
      have hN : Tendsto N atTop (𝓝 0) := hd p
      have hy := averaging (x := fun t => f t p - fs p - N t) (h := fun t => T (g t) p - fs p) (B := gamma * D) (eps := eps / 4) (fun t => h.b_nonneg t p) (fun t => h.b_le t p) (hb p) (fun t => by
        rw [h.move, show N (t + 1) = (1 - b t p) * N t + d t p from rfl]
        ring) (hD.mono fun t ht => hT _ _ (fun p => (ht p).2) p) (by linarith)
      filter_upwards [hy, Metric.tendsto_nhds.1 hN (eps / 4) (by linarith)] with t h2 h3
      rw [Real.dist_eq, sub_zero] at h3
      have : f t p - fs p = f t p - fs p - N t + N t := by ring
      rw [this]
      have := abs_add_le (f t p - fs p - N t) (N t)
      linarith
    have hg : ∀ p, ∀ᶠ t in atTop, |g t p - fs p| ≤ gamma * D + eps := by
      intro p
      have := averaging (x := fun t => g t p - fs p) (h := fun t => f (t + 1) p - fs p) (B := gamma * D + eps / 2) (eps := eps / 2) h.tau_nonneg h.tau_le ht (fun t => by
        rw [h.sync]
        ring) ((tendsto_add_atTop_nat 1).eventually (hf p)) (by linarith)
      filter_upwards [this] with t h2
      linarith
    have := Fintype.ofFinite X
    refine eventually_all.2 fun p => ?_
    filter_upwards [hf p, hg p] with t h2 h3
    exact ⟨by linarith, h3⟩
  have geo : ∀ k : ℕ, ∀ᶠ t in atTop, ∀ p, |f t p - fs p| ≤ (max M 1) * ((1 + gamma) / 2) ^ k ∧ |g t p - fs p| ≤ (max M 1) * ((1 + gamma) / 2) ^ k := by
    intro k
    induction k with
    | zero =>
      refine Eventually.of_forall fun t p => ?_
      rw [pow_zero, mul_one]
      exact ⟨(hM t p).1.trans (le_max_left _ _), (hM t p).2.trans (le_max_left _ _)⟩
    | succ k ih =>
      have hpos : 0 < max M 1 * ((1 + gamma) / 2) ^ k := mul_pos (lt_of_lt_of_le one_pos (le_max_right _ _)) (pow_pos (by linarith) _)
      have := shrink _ ((1 - gamma) / 2 * (max M 1 * ((1 + gamma) / 2) ^ k)) (mul_pos (by linarith) hpos) ih
      have e : gamma * (max M 1 * ((1 + gamma) / 2) ^ k) + (1 - gamma) / 2 * (max M 1 * ((1 + gamma) / 2) ^ k) = max M 1 * ((1 + gamma) / 2) ^ (k + 1) := by rw [pow_succ]; ring
      rwa [e] at this
  have hz : Tendsto (fun k : ℕ => (max M 1) * ((1 + gamma) / 2) ^ k) atTop (𝓝 0) := by
    simpa using (tendsto_pow_atTop_nhds_zero_of_lt_one (by linarith : 0 ≤ (1 + gamma) / 2) (by linarith)).const_mul (max M 1)
  constructor
  · rw [Metric.tendsto_nhds]
    intro eps he
    obtain ⟨k, hk⟩ := (hz.eventually (gt_mem_nhds he)).exists
    filter_upwards [geo k] with t h2
    rw [Real.dist_eq]
    exact (h2 p).1.trans_lt hk
  · rw [Metric.tendsto_nhds]
    intro eps he
    obtain ⟨k, hk⟩ := (hz.eventually (gt_mem_nhds he)).exists
    filter_upwards [geo k] with t h2
    rw [Real.dist_eq]
    exact (h2 p).2.trans_lt hk

theorem residue_noise (hb0 : ∀ t p, 0 ≤ b t p) (hb1 : ∀ t p, b t p ≤ 1) {p : X} (hb : ¬ Summable fun t => b t p) {S : ℝ} (hd : Tendsto (fun t => ∑ k ∈ Finset.range t, d k p) atTop (𝓝 S)) : Tendsto (residue b d p) atTop (𝓝 0) :=
  averaging_noise (x := residue b d p) (fun t => hb0 t p) (fun t => hb1 t p) hb (fun _ => rfl) hd

theorem Noisy.converges [Finite X] (h : Noisy T f g b d tau) (hT : Attracts T fs gamma) (h0 : 0 ≤ gamma) (h1 : gamma < 1) (hb : ∀ p, ¬ Summable fun t => b t p) (ht : ¬ Summable tau)
    (hd : ∀ p, ∃ S, Tendsto (fun t => ∑ k ∈ Finset.range t, d k p) atTop (𝓝 S)) {M : ℝ} (hM : ∀ t p, |f t p - fs p| ≤ M ∧ |g t p - fs p| ≤ M) (p : X) :
    Tendsto (fun t => f t p) atTop (𝓝 (fs p)) ∧ Tendsto (fun t => g t p) atTop (𝓝 (fs p)) :=
  h.converges_of hT h0 h1 hb ht (fun p => let ⟨_, hS⟩ := hd p; residue_noise h.b_nonneg h.b_le (hb p) hS) hM p

/-- Errors that vanish do no harm. -/
theorem Noisy.converges_drift [Finite X] {r : ℕ → X → ℝ} (h : Noisy T f g b (fun t p => d t p + b t p * r t p) tau) (hT : Attracts T fs gamma) (h0 : 0 ≤ gamma) (h1 : gamma < 1) (hb : ∀ p, ¬ Summable fun t => b t p) (ht : ¬ Summable tau)
    (hd : ∀ p, ∃ S, Tendsto (fun t => ∑ k ∈ Finset.range t, d k p) atTop (𝓝 S)) (hr : ∀ p, Tendsto (fun t => r t p) atTop (𝓝 0)) {M : ℝ} (hM : ∀ t p, |f t p - fs p| ≤ M ∧ |g t p - fs p| ≤ M) (p : X) :
    Tendsto (fun t => f t p) atTop (𝓝 (fs p)) ∧ Tendsto (fun t => g t p) atTop (𝓝 (fs p)) := by
  refine h.converges_of hT h0 h1 hb ht (fun p => ?_) hM p
  obtain ⟨S, hS⟩ := hd p
  have h2 := residue_noise h.b_nonneg h.b_le (hb p) hS
  have h3 := averaging_zero (x := fun t => residue b (fun t p => d t p + b t p * r t p) p t - residue b d p t) (h := fun t => r t p) (fun t => h.b_nonneg t p) (fun t => h.b_le t p) (hb p) (fun t => by
    show ((1 - b t p) * residue b (fun t p => d t p + b t p * r t p) p t + (d t p + b t p * r t p)) - ((1 - b t p) * residue b d p t + d t p) = _
    ring) (hr p)
  simpa using h3.add h2

/-! ### The noise -/

variable {Ω : Type _} {m0 : MeasurableSpace Ω} {μ : Measure Ω} [IsProbabilityMeasure μ] {ℱ : Filtration ℕ m0}

/-- Bounded noise with conditional mean zero and square-summable bounds has a convergent sum, almost surely. -/
theorem noise_sum {d : ℕ → Ω → ℝ} {c : ℕ → ℝ} (hd : ∀ t, StronglyMeasurable[ℱ (t + 1)] (d t)) (hb : ∀ t ω, |d t ω| ≤ c t) (hc : Summable fun t => c t ^ 2) (hm : ∀ t, μ[d t | ℱ t] =ᵐ[μ] 0) :
    ∀ᵐ ω ∂μ, ∃ S, Tendsto (fun t => ∑ k ∈ Finset.range t, d k ω) atTop (𝓝 S) := by
  have hdi : ∀ t, Integrable (d t) μ := fun t => Integrable.of_bound ((hd t).mono (ℱ.le _)).aestronglyMeasurable (c t) (Eventually.of_forall fun ω => by rw [Real.norm_eq_abs]; exact hb t ω)
  let M : ℕ → Ω → ℝ := fun t ω => ∑ k ∈ Finset.range t, d k ω
  have hMsucc : ∀ t, M (t + 1) = M t + d t := by
    intro t
    funext ω
    show ∑ k ∈ Finset.range (t + 1), d k ω = ∑ k ∈ Finset.range t, d k ω + d t ω
    rw [Finset.sum_range_succ]
  have hMad : ∀ t, StronglyMeasurable[ℱ t] (M t) := by
    intro t
    refine Finset.stronglyMeasurable_fun_sum _ fun k hk => ?_
    exact (hd k).mono (ℱ.mono (by have := Finset.mem_range.1 hk; omega))
  have hMb : ∀ t ω, |M t ω| ≤ ∑ k ∈ Finset.range t, c k := by
    intro t ω
    exact (Finset.abs_sum_le_sum_abs _ _).trans (Finset.sum_le_sum fun k _ => hb k ω)
  have hMi : ∀ t, Integrable (M t) μ := fun t => Integrable.of_bound ((hMad t).mono (ℱ.le _)).aestronglyMeasurable _ (Eventually.of_forall fun ω => by rw [Real.norm_eq_abs]; exact hMb t ω)
  have hmart : Martingale M ℱ μ := by
    refine martingale_nat hMad hMi fun t => ?_
    rw [hMsucc]
    have h1 := condExp_add (hMi t) (hdi t) (ℱ t)
    have h2 : μ[M t | ℱ t] = M t := condExp_of_stronglyMeasurable (ℱ.le t) (hMad t) (hMi t)
    filter_upwards [h1, hm t] with ω h3 h4
    rw [h3, Pi.add_apply, h2, h4]
    simp
  -- second moments
  have hsq : ∀ t, Integrable (fun ω => M t ω ^ 2) μ := fun t =>
    Integrable.of_bound (((hMad t).mono (ℱ.le _)).pow 2).aestronglyMeasurable ((∑ k ∈ Finset.range t, c k) ^ 2) (Eventually.of_forall fun ω => by
      rw [Real.norm_eq_abs, abs_pow]
      exact pow_le_pow_left₀ (abs_nonneg _) (hMb t ω) 2)
  have hdsq : ∀ t, Integrable (fun ω => d t ω ^ 2) μ := fun t =>
    Integrable.of_bound (((hd t).mono (ℱ.le _)).pow 2).aestronglyMeasurable ((c t) ^ 2) (Eventually.of_forall fun ω => by
      rw [Real.norm_eq_abs, abs_pow]
      exact pow_le_pow_left₀ (abs_nonneg _) (hb t ω) 2)
  have hmul : ∀ t, Integrable (M t * d t) μ := fun t =>
    Integrable.of_bound (((hMad t).mono (ℱ.le _)).mul ((hd t).mono (ℱ.le _))).aestronglyMeasurable ((∑ k ∈ Finset.range t, c k) * c t) (Eventually.of_forall fun ω => by
      rw [Real.norm_eq_abs, Pi.mul_apply, abs_mul]
      exact mul_le_mul (hMb t ω) (hb t ω) (abs_nonneg _) ((abs_nonneg _).trans (hMb t ω)))
  have hcross : ∀ t, ∫ ω, M t ω * d t ω ∂μ = 0 := by
    intro t
    have h1 := condExp_mul_of_stronglyMeasurable_left (hMad t) (hmul t) (hdi t)
    have h2 : ∫ ω, (μ[M t * d t | ℱ t]) ω ∂μ = ∫ ω, (M t * d t) ω ∂μ := integral_condExp (ℱ.le t)
    have h3 : ∫ ω, (μ[M t * d t | ℱ t]) ω ∂μ = ∫ _ω, (0 : ℝ) ∂μ := by
      refine integral_congr_ae ?_
      filter_upwards [h1, hm t] with ω h4 h5
      rw [h4, Pi.mul_apply, h5]
      simp
    rw [← show ∫ ω, (M t * d t) ω ∂μ = ∫ ω, M t ω * d t ω ∂μ from rfl, ← h2, h3]
    simp
  have hvar : ∀ t, ∫ ω, M t ω ^ 2 ∂μ ≤ ∑ k ∈ Finset.range t, c k ^ 2 := by
    intro t
    induction t with
    | zero => simp [M]
    | succ t ih =>
      have e : (fun ω => M (t + 1) ω ^ 2) = fun ω => M t ω ^ 2 + 2 * (M t ω * d t ω) + d t ω ^ 2 := by
        funext ω
        rw [hMsucc, Pi.add_apply]
        ring
      have hm2 : Integrable (fun ω => 2 * (M t ω * d t ω)) μ := (hmul t).const_mul 2
      have hs2 : Integrable (fun ω => M t ω ^ 2 + 2 * (M t ω * d t ω)) μ := (hsq t).add hm2
      rw [e, integral_add hs2 (hdsq t), integral_add (hsq t) hm2, integral_const_mul, hcross, mul_zero, add_zero, Finset.sum_range_succ]
      refine add_le_add ih ?_
      have : ∫ ω, d t ω ^ 2 ∂μ ≤ ∫ _ω, c t ^ 2 ∂μ := by
        refine integral_mono (hdsq t) (integrable_const _) fun ω => ?_
        have := pow_le_pow_left₀ (abs_nonneg _) (hb t ω) 2
        rwa [sq_abs] at this
      simpa using this
  -- first moments
  have hfirst : ∀ t, eLpNorm (M t) 1 μ ≤ ((Real.toNNReal (1 + ∑' k, c k ^ 2) : NNReal) : ENNReal) := by
    intro t
    rw [eLpNorm_one_eq_lintegral_enorm, ← ofReal_integral_norm_eq_lintegral_enorm (hMi t)]
    refine ENNReal.ofReal_le_ofReal ?_
    calc ∫ ω, ‖M t ω‖ ∂μ ≤ ∫ ω, (1 + M t ω ^ 2) ∂μ := by
          refine integral_mono (hMi t).norm ((integrable_const _).add (hsq t)) fun ω => ?_
          rw [Real.norm_eq_abs]
          show |M t ω| ≤ 1 + M t ω ^ 2
          rw [← sq_abs (M t ω)]
          nlinarith [sq_nonneg (|M t ω| - 1), abs_nonneg (M t ω)]
      _ = 1 + ∫ ω, M t ω ^ 2 ∂μ := by rw [integral_add (integrable_const _) (hsq t)]; simp
      _ ≤ 1 + ∑' k, c k ^ 2 := by
          have := (hvar t).trans (hc.sum_le_tsum (Finset.range t) fun k _ => sq_nonneg _)
          linarith
  exact hmart.submartingale.exists_ae_tendsto_of_bdd hfirst

end Coax.Loop
