import Verif.Core.RandomPolicy
import Verif.Dists.NormalProps
import Mathlib.MeasureTheory.Measure.Lebesgue.Basic
import Mathlib.Probability.ConditionalProbability

/-! Property C89: the log-propensities and distribution parameters of the random policy. -/

namespace Coax.Core

open MeasureTheory ProbabilityTheory

/-- The uniform distribution on a Box: Lebesgue measure, conditioned on the Box. -/
noncomputable def uniformBox {d : Nat} (low high : Fin d → ℝ) : Measure (Fin d → ℝ) := volume[|Set.Icc low high]

/-- C89, Box.  The log-propensity that is returned is the logarithm of the density of the uniform distribution on the Box: the probability of any measurable part of the
Box is the integral of `exp logp`. -/
theorem C89_box {d : Nat} {low high : Fin d → ℝ} (h : ∀ i, low i < high i) (a : Act) : ∃ logp, randomCall (.box d low high) a true = .ok (a, some logp) ∧
    IsProbabilityMeasure (uniformBox low high) ∧
    ∀ B ⊆ Set.Icc low high, MeasurableSet B → uniformBox low high B = ∫⁻ _ in B, ENNReal.ofReal (Real.exp logp) := by
  refine ⟨_, rfl, ?_, ?_⟩
  · have hv : volume (Set.Icc low high) = ENNReal.ofReal (∏ i, (high i - low i)) := by
      rw [Real.volume_Icc_pi, ENNReal.ofReal_prod_of_nonneg]
      intro i _; linarith [h i]
    refine cond_isProbabilityMeasure_of_finite ?_ ?_
    · rw [hv]
      simp only [ne_eq, ENNReal.ofReal_eq_zero, not_le]
      exact Finset.prod_pos fun i _ => by linarith [h i]
    · rw [hv]; exact ENNReal.ofReal_ne_top
  · intro B hB hm
    have hv : volume (Set.Icc low high) = ENNReal.ofReal (∏ i, (high i - low i)) := by
      rw [Real.volume_Icc_pi, ENNReal.ofReal_prod_of_nonneg]
      intro i _; linarith [h i]
    have hp : 0 < ∏ i, (high i - low i) := Finset.prod_pos fun i _ => by linarith [h i]
    rw [setLIntegral_const, uniformBox, cond_apply measurableSet_Icc, Set.inter_eq_right.2 hB, hv]
    congr 1
    rw [Real.exp_neg, Real.exp_sum, ENNReal.ofReal_inv_of_pos (Finset.prod_pos fun i _ => Real.exp_pos _)]
    rw [Finset.prod_congr rfl fun i _ => Real.exp_log (by linarith [h i] : 0 < high i - low i)]

/-- C89, Discrete: asking for the log-propensity raises `AttributeError`, for every action space of that kind. -/
theorem C89_discrete_raises (n : Nat) (a : Act) : randomCall (.discrete n) a true = .error .attributeError := by
  simp [randomCall, randomLogp, randomPolicyAttrs, Except.map]

/-- C89, Discrete: the distribution parameters are those of the uniform distribution over the `n` actions. -/
theorem C89_discrete_params {n : Nat} (hn : 0 < n) : ∃ z : Fin n → ℝ, randomDistParams (.discrete n) = .ok (.logits n z) ∧
    ∀ k, Real.exp (z k) / ∑ j, Real.exp (z j) = 1 / n := by
  refine ⟨_, rfl, fun k => by simp⟩

/-- C89, Box with integer dtype: `gymnasium` draws each entry uniformly from the `high - low + 1` integers between the bounds, so the probability of each member of
`Box(0, 9, (1,), int)` is 1/10.  The returned log-propensity says 1/9. -/
theorem C89_integer_counterexample : ∃ logp, randomCall (.intBox 1 (fun _ => 0) (fun _ => 9)) (.ints 1 fun _ => 3) true = .ok (.ints 1 fun _ => 3, some logp) ∧
    Real.exp logp = 1 / 9 ∧ (1 : ℝ) / (Finset.Icc (0 : Int) 9).card = 1 / 10 := by
  refine ⟨_, rfl, ?_, ?_⟩
  · simp [Real.exp_neg, Real.exp_log]
  · simp

/-- C89, Box: the distribution parameters are not those of the policy.  Under them (a `NormalDist` with any settings that do not clip a log-variance of 15) the
log-probability of the action 0 of `Box(-1, 1, (1,))` is less than −8, while the log-propensity is −log 2. -/
theorem C89_params_counterexample : ∃ mu logvar : Fin 1 → ℝ, randomDistParams (.box 1 (fun _ => -1) fun _ => 1) = .ok (.normal 1 mu logvar) ∧
    (∀ c : Dists.NormalConfig 1, c.clipLogvar.1 ≤ 15 → 15 ≤ c.clipLogvar.2 → Dists.normalLogProba (Real.log (2 * Real.pi)) c ⟨mu, logvar⟩ (fun _ => 0) < -8) ∧
    randomLogp (.box 1 (fun _ => -1) fun _ => 1) = .ok (-Real.log 2) ∧ -1 < -Real.log 2 := by
  refine ⟨_, _, rfl, ?_, ?_, ?_⟩
  · intro c h1 h2
    have hlv : Dists.lv c ⟨fun _ => (0 : ℝ), fun _ => 15 * 1⟩ = fun _ => 15 := by
      funext i
      simp only [Dists.lv, mul_one]
      exact Dists.clip_id h1 h2
    have hpi : 1 < Real.log (2 * Real.pi) := by
      rw [Real.lt_log_iff_exp_lt (by positivity)]
      have := Real.exp_one_lt_d9
      have := Real.two_le_pi
      linarith
    simp only [Dists.normalLogProba, hlv]
    simp
    linarith
  · simp only [randomLogp]
    norm_num
  · have := Real.log_two_lt_d9
    linarith

/-- C89, `mode` returns whatever was drawn: two calls in the same state need not agree. -/
theorem C89_mode_is_random (sp : ActSpace) (a b : Act) (h : a ≠ b) : randomMode sp a ≠ randomMode sp b := by
  simp only [randomMode, randomCall]
  intro he
  simp at he
  exact h he

/-- A Box that meets the hypothesis of `C89_box`. -/
example : ∀ i : Fin 2, (![-1, 0] : Fin 2 → ℝ) i < (![1, 5] : Fin 2 → ℝ) i := by
  intro i; fin_cases i <;> norm_num

end Coax.Core
