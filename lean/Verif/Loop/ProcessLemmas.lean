import Verif.Loop.ApproxLemmas

/-! Stochastic approximation of a fixed point: entries are moved towards random targets whose means are close to an operator that is applied to a lagging copy. -/

namespace Coax.Loop

open Filter Topology MeasureTheory

variable {X J Ω : Type _} {m0 : MeasurableSpace Ω}

/-- Entry `p` is moved by the fraction `b` towards the target for the outcome, which is drawn with the probabilities `prob p` if the entry is moved. -/
structure Process [Fintype J] (μ : Measure Ω) (ℱ : Filtration ℕ m0) (prob : X → J → ℝ) (f g : ℕ → Ω → X → ℝ) (b : ℕ → X → Ω → ℝ) (Y : ℕ → Ω → X → J → ℝ) (out : ℕ → Ω → J) (tau c : ℕ → ℝ) (B : ℝ) : Prop where
  prob_nonneg : ∀ p j, 0 ≤ prob p j
  prob_total : ∀ p, ∑ j, prob p j = 1
  move : ∀ t ω p, f (t + 1) ω p = f t ω p + b t p ω * (Y t ω p (out t ω) - f t ω p)
  sync : ∀ t ω p, g (t + 1) ω p = (1 - tau t) * g t ω p + tau t * f (t + 1) ω p
  b_nonneg : ∀ t p ω, 0 ≤ b t p ω
  b_le : ∀ t p ω, b t p ω ≤ 1
  b_small : ∀ t p ω, b t p ω ≤ c t
  squares : Summable fun t => c t ^ 2
  b_known : ∀ t p, Measurable[ℱ t] (b t p)
  y_known : ∀ t p j, Measurable[ℱ t] fun ω => Y t ω p j
  y_le : ∀ t ω p j, |Y t ω p j| ≤ B
  out_known : ∀ t j, MeasurableSet[ℱ (t + 1)] {ω | out t ω = j}
  law : ∀ t p j, ∀ᵐ ω ∂μ, b t p ω ≠ 0 → (μ[Set.indicator {ω | out t ω = j} (fun _ => (1 : ℝ)) | ℱ t]) ω = prob p j
  visits : ∀ p, ∀ᵐ ω ∂μ, ¬ Summable fun t => b t p ω
  tau_nonneg : ∀ t, 0 ≤ tau t
  tau_le : ∀ t, tau t ≤ 1
  syncs : ¬ Summable tau

variable [Fintype J] {μ : Measure Ω} {ℱ : Filtration ℕ m0} {prob : X → J → ℝ} {f g : ℕ → Ω → X → ℝ} {b : ℕ → X → Ω → ℝ} {Y : ℕ → Ω → X → J → ℝ} {out : ℕ → Ω → J} {tau c : ℕ → ℝ} {B : ℝ}

theorem target_known {F : J → Ω → ℝ} {o : Ω → J} {m1 m2 : MeasurableSpace Ω} (h12 : m1 ≤ m2) (hF : ∀ j, Measurable[m1] (F j)) (ho : ∀ j, MeasurableSet[m2] {ω | o ω = j}) : Measurable[m2] fun ω => F (o ω) ω := by
  classical
  have e1 : (fun ω => F (o ω) ω) = fun ω => ∑ j, if o ω = j then F j ω else 0 := by
    funext ω
    simp
  rw [e1]
  exact Finset.measurable_fun_sum _ fun j _ => Measurable.ite (ho j) ((hF j).mono h12 le_rfl) measurable_const

/-- Random targets minus their means, times weights that are known before, have a convergent sum, almost surely.  Also the probabilities need only be known before. -/
theorem outcome_noise_random [IsProbabilityMeasure μ] {q : ℕ → Ω → J → ℝ} {a : ℕ → Ω → ℝ} {Z : ℕ → Ω → J → ℝ} {x : ℕ → Ω → J} (hq0 : ∀ t ω j, 0 ≤ q t ω j) (hq1 : ∀ t ω, ∑ j, q t ω j = 1) (hqm : ∀ t j, Measurable[ℱ t] fun ω => q t ω j) (ha0 : ∀ t ω, 0 ≤ a t ω) (ha1 : ∀ t ω, a t ω ≤ 1) (hac : ∀ t ω, a t ω ≤ c t) (hc : Summable fun t => c t ^ 2)
    (ham : ∀ t, Measurable[ℱ t] (a t)) (hZm : ∀ t j, Measurable[ℱ t] fun ω => Z t ω j) (hZ : ∀ t ω j, |Z t ω j| ≤ B) (hx : ∀ t j, MeasurableSet[ℱ (t + 1)] {ω | x t ω = j})
    (hlaw : ∀ t j, ∀ᵐ ω ∂μ, a t ω ≠ 0 → (μ[Set.indicator {ω | x t ω = j} (fun _ => (1 : ℝ)) | ℱ t]) ω = q t ω j) (hB : 0 ≤ B) :
    ∀ᵐ ω ∂μ, ∃ S, Tendsto (fun t => ∑ k ∈ Finset.range t, a k ω * (Z k ω (x k ω) - ∑ j, q k ω j * Z k ω j)) atTop (𝓝 S) := by
  classical
  have up : ∀ {t} {F : Ω → ℝ}, Measurable[ℱ t] F → Measurable[ℱ (t + 1)] F := fun h => h.mono (ℱ.mono (by omega)) le_rfl
  have hop : ∀ t, Measurable[ℱ t] fun ω => ∑ j, q t ω j * Z t ω j := fun t => Finset.measurable_fun_sum _ fun j _ => (hqm t j).mul (hZm t j)
  have hmean : ∀ t ω, |∑ j, q t ω j * Z t ω j| ≤ B := by
    intro t ω
    calc _ ≤ ∑ j, |q t ω j * Z t ω j| := Finset.abs_sum_le_sum_abs _ _
      _ ≤ ∑ j, q t ω j * B := Finset.sum_le_sum fun j _ => by
          rw [abs_mul, abs_of_nonneg (hq0 t ω j)]
          exact mul_le_mul_of_nonneg_left (hZ _ _ _) (hq0 t ω j)
      _ = B := by rw [← Finset.sum_mul, hq1 t ω, one_mul]
  refine noise_sum (ℱ := ℱ) (c := fun t => 2 * B * c t) (fun t => ?_) (fun t ω => ?_) ?_ (fun t => ?_)
  · exact ((up (ham t)).mul ((target_known (F := fun j ω => Z t ω j) (ℱ.mono (by omega)) (fun j => hZm t j) (hx t)).sub (up (hop t)))).stronglyMeasurable
  · rw [abs_mul, abs_of_nonneg (ha0 t ω)]
    have h4 : |Z t ω (x t ω) - ∑ j, q t ω j * Z t ω j| ≤ 2 * B := (abs_sub _ _).trans (by linarith [hZ t ω (x t ω), hmean t ω])
    calc a t ω * _ ≤ c t * (2 * B) := mul_le_mul (hac t ω) h4 (abs_nonneg _) ((ha0 t ω).trans (hac t ω))
      _ = _ := by ring
  · have : (fun t => (2 * B * c t) ^ 2) = fun t => (2 * B) ^ 2 * c t ^ 2 := by funext t; ring
    rw [this]
    exact hc.mul_left _
  · let cc : J → Ω → ℝ := fun j ω => a t ω * Z t ω j
    let ind : J → Ω → ℝ := fun j => Set.indicator {ω | x t ω = j} (fun _ => (1 : ℝ))
    have hcm : ∀ j, StronglyMeasurable[ℱ t] (cc j) := fun j => ((ham t).mul (hZm t j)).stronglyMeasurable
    have hcb : ∀ j ω, ‖cc j ω‖ ≤ 1 * B := by
      intro j ω
      rw [Real.norm_eq_abs]
      simp only [cc]
      rw [abs_mul, abs_of_nonneg (ha0 t ω)]
      exact mul_le_mul (ha1 t ω) (hZ _ _ _) (abs_nonneg _) zero_le_one
    have hindi : ∀ j, Integrable (ind j) μ := fun j => (integrable_const 1).indicator (ℱ.le _ _ (hx t j))
    have hqi : ∀ j, Integrable (fun ω => q t ω j) μ := fun j => by
      refine (integrable_const (1 : ℝ)).mono' (((hqm t j).mono (ℱ.le t) le_rfl).aestronglyMeasurable) (Eventually.of_forall fun ω => ?_)
      rw [Real.norm_eq_abs, abs_of_nonneg (hq0 t ω j), ← hq1 t ω]
      exact Finset.single_le_sum (fun i _ => hq0 t ω i) (Finset.mem_univ j)
    have e1 : (fun ω => a t ω * (Z t ω (x t ω) - ∑ j, q t ω j * Z t ω j)) = ∑ j, cc j * (ind j - fun ω => q t ω j) := by
      funext ω
      simp only [cc, ind, Finset.sum_apply, Pi.mul_apply, Pi.sub_apply, Set.indicator_apply, Set.mem_ofPred_eq]
      simp only [mul_sub, Finset.sum_sub_distrib, mul_ite, mul_one, mul_zero, Finset.sum_ite_eq, Finset.mem_univ, if_true]
      congr 1
      rw [Finset.mul_sum]
      exact Finset.sum_congr rfl fun j _ => by ring
    rw [e1]
    have h2 : ∀ j, Integrable (cc j * (ind j - fun ω => q t ω j)) μ := fun j =>
      ((hindi j).sub (hqi j)).bdd_mul ((hcm j).mono (ℱ.le t)).aestronglyMeasurable (Eventually.of_forall (hcb j))
    refine (condExp_finsetSum (fun j _ => h2 j) (ℱ t)).trans ?_
    have h3 : ∀ j, μ[cc j * (ind j - fun ω => q t ω j) | ℱ t] =ᵐ[μ] 0 := by
      intro j
      have h4 := condExp_stronglyMeasurable_mul_of_bound (ℱ.le t) (hcm j) ((hindi j).sub (hqi j)) _ (Eventually.of_forall (hcb j))
      have h5 := condExp_sub (hindi j) (hqi j) (ℱ t)
      have h6 : μ[(fun ω => q t ω j) | ℱ t] = fun ω => q t ω j := condExp_of_stronglyMeasurable (ℱ.le t) (hqm t j).stronglyMeasurable (hqi j)
      filter_upwards [h4, h5, hlaw t j] with ω h7 h8 h9
      rw [h7, Pi.mul_apply, h8, Pi.sub_apply, h6]
      by_cases hp : a t ω = 0
      · have : cc j ω = 0 := by simp [cc, hp]
        rw [this]; simp
      · rw [h9 hp]; simp
    have h4 := eventually_all.2 h3
    filter_upwards [h4] with ω h5
    rw [Finset.sum_apply]
    exact Finset.sum_eq_zero fun j _ => h5 j

/-- Random targets with fixed probabilities. -/
theorem outcome_noise [IsProbabilityMeasure μ] {q : J → ℝ} {a : ℕ → Ω → ℝ} {Z : ℕ → Ω → J → ℝ} {x : ℕ → Ω → J} (hq0 : ∀ j, 0 ≤ q j) (hq1 : ∑ j, q j = 1) (ha0 : ∀ t ω, 0 ≤ a t ω) (ha1 : ∀ t ω, a t ω ≤ 1) (hac : ∀ t ω, a t ω ≤ c t) (hc : Summable fun t => c t ^ 2)
    (ham : ∀ t, Measurable[ℱ t] (a t)) (hZm : ∀ t j, Measurable[ℱ t] fun ω => Z t ω j) (hZ : ∀ t ω j, |Z t ω j| ≤ B) (hx : ∀ t j, MeasurableSet[ℱ (t + 1)] {ω | x t ω = j})
    (hlaw : ∀ t j, ∀ᵐ ω ∂μ, a t ω ≠ 0 → (μ[Set.indicator {ω | x t ω = j} (fun _ => (1 : ℝ)) | ℱ t]) ω = q j) (hB : 0 ≤ B) :
    ∀ᵐ ω ∂μ, ∃ S, Tendsto (fun t => ∑ k ∈ Finset.range t, a k ω * (Z k ω (x k ω) - ∑ j, q j * Z k ω j)) atTop (𝓝 S) :=
  outcome_noise_random (q := fun _ _ => q) (fun _ _ => hq0) (fun _ _ => hq1) (fun _ _ => measurable_const) ha0 ha1 hac hc ham hZm hZ hx hlaw hB

theorem Process.noise [IsProbabilityMeasure μ] (h : Process μ ℱ prob f g b Y out tau c B) (hB : 0 ≤ B) (p : X) :
    ∀ᵐ ω ∂μ, ∃ S, Tendsto (fun t => ∑ k ∈ Finset.range t, b k p ω * (Y k ω p (out k ω) - ∑ j, prob p j * Y k ω p j)) atTop (𝓝 S) :=
  outcome_noise (h.prob_nonneg p) (h.prob_total p) (fun t ω => h.b_nonneg t p ω) (fun t ω => h.b_le t p ω) (fun t ω => h.b_small t p ω) h.squares (fun t => h.b_known t p) (fun t j => h.y_known t p j) (fun t ω j => h.y_le t ω p j) h.out_known
    (fun t j => h.law t p j) hB

/-- Stochastic approximation: if the means of the targets come close to an operator that attracts to `fs`, then all entries converge to `fs`, almost surely. -/
theorem Process.converges [Finite X] [IsProbabilityMeasure μ] (h : Process μ ℱ prob f g b Y out tau c B) {T : (X → ℝ) → X → ℝ} {fs : X → ℝ} {gamma : ℝ} (hT : Attracts T fs gamma) (h0 : 0 ≤ gamma) (h1 : gamma < 1) (hB : 0 ≤ B)
    {M : ℝ} (hM : ∀ t ω p, |f t ω p - fs p| ≤ M ∧ |g t ω p - fs p| ≤ M) (hr : ∀ᵐ ω ∂μ, ∀ p, Tendsto (fun t => ∑ j, prob p j * Y t ω p j - T (g t ω) p) atTop (𝓝 0)) :
    ∀ᵐ ω ∂μ, ∀ p, Tendsto (fun t => f t ω p) atTop (𝓝 (fs p)) ∧ Tendsto (fun t => g t ω p) atTop (𝓝 (fs p)) := by
  have := Fintype.ofFinite X
  filter_upwards [ae_all_iff.2 fun p => h.noise hB p, ae_all_iff.2 h.visits, hr] with ω hS hv hr p
  have hN : Noisy T (fun t p => f t ω p) (fun t p => g t ω p) (fun t p => b t p ω)
      (fun t p => b t p ω * (Y t ω p (out t ω) - ∑ j, prob p j * Y t ω p j) + b t p ω * (∑ j, prob p j * Y t ω p j - T (g t ω) p)) tau := by
    refine ⟨fun t p => h.b_nonneg t p ω, fun t p => h.b_le t p ω, fun t p => ?_, h.tau_nonneg, h.tau_le, fun t p => h.sync t ω p⟩
    rw [h.move]
    ring
  exact hN.converges_drift (r := fun t p => ∑ j, prob p j * Y t ω p j - T (g t ω) p) hT h0 h1 hv h.syncs hS hr (fun t p => hM t ω p) p

/-- The lagging copy catches up, if the changes become small compared to its own rate. -/
theorem Process.catches (h : Process μ ℱ prob f g b Y out tau c B) {M : ℝ} (hf : ∀ t ω p, |f t ω p| ≤ M) (hpos : ∀ t, 0 < tau t) (hq : Tendsto (fun t => c t / tau t) atTop (𝓝 0)) (ω : Ω) (p : X) :
    Tendsto (fun t => g t ω p - f t ω p) atTop (𝓝 0) := by
  have hm : ∀ t, |f (t + 1) ω p - f t ω p| ≤ (B + M) * c t := by
    intro t
    have e : f (t + 1) ω p - f t ω p = b t p ω * (Y t ω p (out t ω) - f t ω p) := by rw [h.move]; ring
    rw [e, abs_mul, abs_of_nonneg (h.b_nonneg t p ω), mul_comm]
    have h2 : |Y t ω p (out t ω) - f t ω p| ≤ B + M := (abs_sub _ _).trans (add_le_add (h.y_le _ _ _ _) (hf _ _ _))
    exact mul_le_mul h2 (h.b_small t p ω) (h.b_nonneg t p ω) ((abs_nonneg _).trans h2)
  refine averaging_zero (a := tau) (h := fun t => -((1 - tau t) * ((f (t + 1) ω p - f t ω p) / tau t))) h.tau_nonneg h.tau_le h.syncs (fun t => ?_) ?_
  · rw [h.sync]
    have := (hpos t).ne'
    field_simp
    ring
  · have hz : Tendsto (fun t => (B + M) * (c t / tau t)) atTop (𝓝 0) := by simpa using hq.const_mul (B + M)
    refine squeeze_zero_norm (fun t => ?_) hz
    rw [Real.norm_eq_abs, abs_neg, abs_mul, abs_div, abs_of_pos (hpos t), abs_of_nonneg (by linarith [h.tau_le t])]
    have h2 : |f (t + 1) ω p - f t ω p| / tau t ≤ (B + M) * c t / tau t := div_le_div_of_nonneg_right (hm t) (hpos t).le
    rw [mul_div_assoc] at h2
    refine (mul_le_mul_of_nonneg_right (by linarith [h.tau_nonneg t] : 1 - tau t ≤ 1) (div_nonneg (abs_nonneg _) (hpos t).le)).trans ?_
    rw [one_mul]
    exact h2

end Coax.Loop
