import Verif.RewardTracing.NStepProps
import Verif.RewardTracing.MonteCarloProps
import Verif.Core.ValuePolicyProps
import Verif.Dists.NormalProps
import Mathlib.Analysis.Real.Pi.Bounds

/-! Property C100: reward tracers accept the log-propensities that policies return. -/

namespace Coax.RewardTracing

open Coax.Dists Coax.Core MeasureTheory ProbabilityTheory

variable {σ : Type _} {d m : Nat}

/-- C100, discrete actions.  The log-propensity that a policy with discrete actions returns is never positive, so the tracers accept each step. -/
theorem C100_discrete {draw : List (Fin m) → Option (Fin m)} (hd : Draws draw) (hm : 0 < m) {tau : ℝ} (htau : 0 < tau) (u z : Fin m → ℝ) (s : σ) (r : ℝ) :
    ∃ a, (policyCall draw tau u z).1 = some a ∧ (⟨s, a, r, (policyCall draw tau u z).2, 1⟩ : Step σ (Fin m) ℝ).Valid := by
  obtain ⟨a, w, h1, h2, h3, _, h5, _⟩ := C63_log_propensity_partial hd hm htau u z
  refine ⟨a, h1, ?_, one_pos⟩
  simp only
  rw [h5]
  obtain ⟨hp, hs⟩ := C49_probabilities z
  refine Finset.sum_nonpos fun k _ => mul_nonpos_of_nonneg_of_nonpos (h2 k).le (Real.log_nonpos (hp k).le ?_)
  rw [← hs hm]
  exact Finset.single_le_sum (f := meanRow z) (fun j _ => (hp j).le) (Finset.mem_univ k)

theorem montecarlo_pop_rejects (gamma : ℝ) (s : σ) {α : Type _} (a : α) (r logp : ℝ) :
    (((MonteCarlo.init gamma).add ⟨s, a, r, logp, 1⟩ true).1.pop).2 = .error .typeError ↔ ¬ (logp ≤ 0 ∧ 0 ≤ gamma ∧ gamma ≤ 1) := by
  have hc := C21_from_single_rejects s a logp (r + gamma * 0) true gamma (some s) (some a) (some logp) (1 : ℝ) none none
  have he : (((MonteCarlo.init gamma).add ⟨s, a, r, logp, 1⟩ true).1.pop).2 = fromSingle s a logp (r + gamma * 0) true gamma (some s) (some a) (some logp) (1 : ℝ) none none := by
    simp [MonteCarlo.init, MonteCarlo.reset, MonteCarlo.add, MonteCarlo.pop, MonteCarlo.bool, MonteCarlo.len]
  rw [he]
  constructor
  · rintro h ⟨h1, h2, h3⟩
    obtain ⟨o, ho⟩ := hc.1 ⟨h1, h2, h3, fun l hl => by cases hl; exact h1, one_pos⟩
    rw [ho] at h; cases h
  · intro h
    exact hc.2 fun ⟨h1, h2, h3, _, _⟩ => h ⟨h1, h2, h3⟩

theorem nstep_pop_rejects {n : Nat} (hn : 0 < n) {gamma : ℝ} (hg : 0 ≤ gamma ∧ gamma ≤ 1) (s : σ) {α : Type _} (a : α) (r logp : ℝ) :
    (((NStep.init n gamma false).add ⟨s, a, r, logp, 1⟩ true).1.pop).2 = .error .typeError ↔ 0 < logp := by
  have hc := C21_from_single_rejects s a logp (((((List.range n).map (fun k => gamma ^ k)).zip [r]).take n).map (fun p => p.1 * p.2)).sum true (gamma ^ n) (some s) (some a) (some logp) (1 : ℝ) none none
  have he : (((NStep.init n gamma false).add ⟨s, a, r, logp, 1⟩ true).1.pop).2 =
      fromSingle s a logp (((((List.range n).map (fun k => gamma ^ k)).zip [r]).take n).map (fun p => p.1 * p.2)).sum true (gamma ^ n) (some s) (some a) (some logp) (1 : ℝ) none none := by
    simp [NStep.init, NStep.reset, NStep.add, NStep.pop, NStep.bool, NStep.len, hn.ne']
  rw [he]
  constructor
  · intro h
    by_contra hl
    obtain ⟨o, ho⟩ := hc.1 ⟨not_lt.1 hl, pow_nonneg hg.1 n, pow_le_one₀ hg.1 hg.2, fun l hl' => by cases hl'; exact not_lt.1 hl, one_pos⟩
    rw [ho] at h; cases h
  · intro h
    exact hc.2 fun h1 => absurd h1.1 (not_le.2 h)

/-- C100, continuous actions.  The log-propensities of a normal distribution are non-positive for all actions exactly if its variances are large enough: the geometric mean of the variances has to be at
least 1/(2π). -/
theorem C100_normal_partial (c : NormalConfig d) (p : NormalParams d) :
    (∀ x, normalLogProba (Real.log (2 * Real.pi)) c p x ≤ 0) ↔ 0 ≤ ∑ i, (Real.log (2 * Real.pi) + min (max (p.logvar i) c.clipLogvar.1) c.clipLogvar.2) := by
  have hs : ∑ i, (Real.log (2 * Real.pi) + min (max (p.logvar i) c.clipLogvar.1) c.clipLogvar.2) = d * Real.log (2 * Real.pi) + ∑ i, lv c p i := by
    rw [Finset.sum_add_distrib]; simp [lv, clip]
  rw [hs]
  constructor
  · intro h
    have := h p.mu
    simp only [normalLogProba, sub_self] at this
    simp at this
    linarith
  · intro h x
    have hq : 0 ≤ ∑ i, (x i - p.mu i) ^ 2 * Real.exp (-lv c p i) := Finset.sum_nonneg fun i _ => by positivity
    unfold normalLogProba
    linarith

theorem law_pos_of_open (c : NormalConfig d) (p : NormalParams d) {U : Set (Fin d → ℝ)} (hU : IsOpen U) (hne : U.Nonempty) : 0 < law c p U := by
  have : ∀ i, (gaussianReal (p.mu i) (Real.toNNReal (Real.exp (min (max (p.logvar i) c.clipLogvar.1) c.clipLogvar.2)))).IsOpenPosMeasure := fun i =>
    (gaussianReal_absolutelyContinuous' _ (by simpa using Real.exp_pos _)).isOpenPosMeasure
  unfold law
  exact hU.measure_pos _ hne

/-- C100, the negation for continuous actions.  If the variances are smaller than that, then the tracers raise `TypeError` with positive probability for an action `f x` that the policy sampled (`x` is the
variate and `f` the postprocessing); the step is lost. -/
theorem C100_normal_raises (c : NormalConfig d) (p : NormalParams d) (h : ∑ i, (Real.log (2 * Real.pi) + min (max (p.logvar i) c.clipLogvar.1) c.clipLogvar.2) < 0)
    {n : Nat} (hn : 0 < n) {gamma : ℝ} (hg : 0 ≤ gamma ∧ gamma ≤ 1) (s : σ) (r : ℝ) {α : Type _} (f : (Fin d → ℝ) → α) :
    0 < law c p {x | (((NStep.init n gamma false).add ⟨s, f x, r, normalLogProba (Real.log (2 * Real.pi)) c p x, 1⟩ true).1.pop).2 = .error .typeError ∧
      (((NStep.init n gamma false).add ⟨s, f x, r, normalLogProba (Real.log (2 * Real.pi)) c p x, 1⟩ true).1.pop).1.len = 0 ∧
      (((MonteCarlo.init gamma).add ⟨s, f x, r, normalLogProba (Real.log (2 * Real.pi)) c p x, 1⟩ true).1.pop).2 = .error .typeError ∧
      (((MonteCarlo.init gamma).add ⟨s, f x, r, normalLogProba (Real.log (2 * Real.pi)) c p x, 1⟩ true).1.pop).1.len = 0} := by
  have hset : {x | (((NStep.init n gamma false).add ⟨s, f x, r, normalLogProba (Real.log (2 * Real.pi)) c p x, 1⟩ true).1.pop).2 = .error .typeError ∧
      (((NStep.init n gamma false).add ⟨s, f x, r, normalLogProba (Real.log (2 * Real.pi)) c p x, 1⟩ true).1.pop).1.len = 0 ∧
      (((MonteCarlo.init gamma).add ⟨s, f x, r, normalLogProba (Real.log (2 * Real.pi)) c p x, 1⟩ true).1.pop).2 = .error .typeError ∧
      (((MonteCarlo.init gamma).add ⟨s, f x, r, normalLogProba (Real.log (2 * Real.pi)) c p x, 1⟩ true).1.pop).1.len = 0} =
      {x | 0 < normalLogProba (Real.log (2 * Real.pi)) c p x} := by
    ext x
    simp only [Set.mem_setOf_eq, nstep_pop_rejects hn hg, montecarlo_pop_rejects]
    constructor
    · exact fun h => h.1
    · intro h
      refine ⟨h, ?_, fun h' => absurd h'.1 (not_le.2 h), ?_⟩
      · simp [NStep.init, NStep.reset, NStep.add, NStep.pop, NStep.bool, NStep.len, hn.ne']
      · simp [MonteCarlo.init, MonteCarlo.reset, MonteCarlo.add, MonteCarlo.pop, MonteCarlo.bool, MonteCarlo.len]
  rw [hset]
  refine law_pos_of_open c p (isOpen_lt continuous_const ?_) ?_
  · unfold normalLogProba; fun_prop
  · by_contra hne
    refine absurd ((C100_normal_partial c p).1 fun x => ?_) (not_le.2 h)
    by_contra hx
    exact hne ⟨x, not_le.1 hx⟩

/-- The hypothesis is met with the default clipping of `NormalDist` and the log-variance -2 (standard deviation 0.37). -/
example : ∑ i : Fin 1, (Real.log (2 * Real.pi) + min (max ((⟨fun _ => 0, fun _ => -2⟩ : NormalParams 1).logvar i) (-20)) 20) < 0 := by
  have h1 : Real.log (2 * Real.pi) < 2 := by
    rw [Real.log_lt_iff_lt_exp (by positivity)]
    have h2 := Real.pi_lt_d2
    have h3 := Real.exp_one_gt_d9
    have h4 : Real.exp 2 = Real.exp 1 * Real.exp 1 := by rw [← Real.exp_add]; norm_num
    rw [h4]; nlinarith
  norm_num
  linarith

/-- And the condition of the positive case with the log-variance 0. -/
example : 0 ≤ ∑ i : Fin 1, (Real.log (2 * Real.pi) + min (max ((⟨fun _ => 0, fun _ => 0⟩ : NormalParams 1).logvar i) (-20)) 20) := by
  norm_num
  exact Real.log_nonneg (by have := Real.pi_gt_three; linarith)

end Coax.RewardTracing
