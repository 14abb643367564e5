import Verif.Loop.SarsaLemmas
import Mathlib.Analysis.Complex.ExponentialBounds

/-! Property C136: `Sarsa`, with actions from the policy on the values that are being learned. -/

namespace Coax.Loop

open Coax.RewardTracing Coax.TD Coax.Core Coax.Values Coax.Pol Coax.Dists Filter Topology MeasureTheory

variable {σ Ω V : Type _} {n m : Nat} {m0 : MeasurableSpace Ω}

/-! ### Specification -/

/-- Every action is chosen with at least the probability with which `EpsilonGreedy` chooses the actions that are not greedy. -/
def Policy.ExploresLike (pi : Policy σ n m) (ε : ℝ) : Prop := ∀ h s a, (ε * (1 / n) + 1e-15) / (1 + n * 1e-15) ≤ pi h s a

/-- The largest return from each state among the policies that explore this much. -/
def Mdp.BestExploring (e : Mdp σ n m) (gamma ε : ℝ) (v : σ → ℝ) : Prop := ∀ s, IsGreatest {x | ∃ pi : Policy σ n m, pi.Proper ∧ pi.ExploresLike ε ∧ e.Worth gamma 0 pi s x} (v s)

/-! ### Means under the policy -/

/-- The mean of the values of a row if the action is drawn from the epsilon-greedy policy. -/
noncomputable def epsilonMean (ε : ℝ) (row : Fin n → ℝ) : ℝ := ∑ a, meanRow (epsilonGreedyLogits ε row) a * row a

theorem epsilon_floor {ε : ℝ} (h0 : 0 ≤ ε) (h1 : ε ≤ 1) (row : Fin n → ℝ) (a : Fin n) : (ε * (1 / n) + 1e-15) / (1 + n * 1e-15) ≤ meanRow (epsilonGreedyLogits ε row) a := by
  rw [C52_probabilities h0 h1]
  refine div_le_div_of_nonneg_right ?_ (by positivity)
  unfold epsilonGreedy
  have : 0 ≤ (1 - ε) * (if a ∈ greedy row then 1 / ((greedy row).card : ℝ) else 0) := mul_nonneg (by linarith) (by split <;> positivity)
  linarith

theorem epsilonMean_close {ε : ℝ} (h0 : 0 ≤ ε) (h1 : ε ≤ 1) (hn : 0 < n) {q1 q2 : Fin n → ℝ} {M : ℝ} (hM : ∀ a, |q1 a - q2 a| ≤ M) : |epsilonMean ε q1 - epsilonMean ε q2| ≤ M := by
  have key : ∀ q1 q2 : Fin n → ℝ, (∀ a, |q1 a - q2 a| ≤ M) → epsilonMean ε q1 ≤ epsilonMean ε q2 + M := by
    intro q1 q2 hM
    have hs : ∑ a, meanRow (epsilonGreedyLogits ε q1) a = 1 := (C49_probabilities _).2 hn
    refine le_trans ?_ (add_le_add_left (epsilon_best h0 h1 hn q2 hs (epsilon_floor h0 h1 q1)) M)
    calc epsilonMean ε q1 ≤ ∑ a, (meanRow (epsilonGreedyLogits ε q1) a * q2 a + meanRow (epsilonGreedyLogits ε q1) a * M) := Finset.sum_le_sum fun a _ => by
          rw [← mul_add]
          exact mul_le_mul_of_nonneg_left (by linarith [(abs_le.1 (hM a)).2]) ((C49_probabilities _).1 a).le
      _ = _ := by rw [Finset.sum_add_distrib, ← Finset.sum_mul, hs, one_mul]
  rw [abs_le]
  have g1 := key q1 q2 hM
  have g2 := key q2 q1 fun a => by rw [abs_sub_comm]; exact hM a
  constructor <;> linarith

theorem epsilon_prob_close {ε ε' : ℝ} (h0 : 0 ≤ ε) (h1 : ε ≤ 1) (h0' : 0 ≤ ε') (h1' : ε' ≤ 1) (row : Fin n → ℝ) (a : Fin n) : |meanRow (epsilonGreedyLogits ε row) a - meanRow (epsilonGreedyLogits ε' row) a| ≤ |ε - ε'| := by
  rw [C52_probabilities h0 h1, C52_probabilities h0' h1', ← sub_div, abs_div]
  have hd : (1 : ℝ) ≤ |(1 : ℝ) + n * 1e-15| := by
    rw [abs_of_nonneg (by positivity)]
    have : (0 : ℝ) ≤ n * 1e-15 := by positivity
    linarith
  refine (div_le_self (abs_nonneg _) hd).trans ?_
  unfold epsilonGreedy
  set g : ℝ := if a ∈ greedy row then 1 / ((greedy row).card : ℝ) else 0 with hg
  have hg0 : 0 ≤ g := by rw [hg]; split <;> positivity
  have hg1 : g ≤ 1 := by
    rw [hg]; split
    · rename_i h
      have : (1 : ℝ) ≤ (greedy row).card := by exact_mod_cast Finset.card_pos.2 ⟨a, h⟩
      exact (div_le_one (by linarith)).2 this
    · exact zero_le_one
  have hn1 : (1 : ℝ) ≤ n := by exact_mod_cast a.pos
  have hn2 : (0 : ℝ) ≤ 1 / n ∧ (1 : ℝ) / n ≤ 1 := ⟨by positivity, (div_le_one (by linarith)).2 hn1⟩
  have e1 : ε * (1 / n) + (1 - ε) * g + 1e-15 - (ε' * (1 / n) + (1 - ε') * g + 1e-15) = (ε - ε') * (1 / n - g) := by ring
  rw [e1, abs_mul]
  have : |1 / (n : ℝ) - g| ≤ 1 := by rw [abs_le]; constructor <;> linarith [hn2.1, hn2.2]
  exact mul_le_of_le_one_right (abs_nonneg _) this

theorem epsilonMean_drift {ε ε' : ℝ} (h0 : 0 ≤ ε) (h1 : ε ≤ 1) (h0' : 0 ≤ ε') (h1' : ε' ≤ 1) {row : Fin n → ℝ} {B : ℝ} (hB : ∀ a, |row a| ≤ B) : |epsilonMean ε row - epsilonMean ε' row| ≤ n * (|ε - ε'| * B) := by
  unfold epsilonMean
  rw [← Finset.sum_sub_distrib]
  calc _ ≤ ∑ a, |meanRow (epsilonGreedyLogits ε row) a * row a - meanRow (epsilonGreedyLogits ε' row) a * row a| := Finset.abs_sum_le_sum_abs _ _
    _ ≤ ∑ _a : Fin n, |ε - ε'| * B := Finset.sum_le_sum fun a _ => by
        rw [← sub_mul, abs_mul]
        exact mul_le_mul (epsilon_prob_close h0 h1 h0' h1' row a) (hB a) (abs_nonneg _) (abs_nonneg _)
    _ = _ := by simp

/-- The equation of the values of the best policy that explores has a solution. -/
theorem exploring_solution [Fintype σ] {e : Mdp σ n m} (he : e.Proper) (hn : 0 < n) {gamma : ℝ} (h0 : 0 ≤ gamma) (h1 : gamma < 1) {ε : ℝ} (hε0 : 0 ≤ ε) (hε1 : ε ≤ 1) : ∃ v : σ → ℝ, ∀ s, v s = epsilonMean ε (e.back gamma v s) := by
  have hc : ContractingWith ⟨gamma, h0⟩ (fun v : σ → ℝ => fun s => epsilonMean ε (e.back gamma v s)) := by
    refine ⟨by exact_mod_cast h1, LipschitzWith.of_dist_le_mul fun v1 v2 => ?_⟩
    refine (dist_pi_le_iff (mul_nonneg h0 dist_nonneg)).2 fun s => ?_
    rw [Real.dist_eq]
    refine epsilonMean_close hε0 hε1 hn fun a => ?_
    exact back_close he h0 (fun s => by rw [← Real.dist_eq]; exact dist_le_pi_dist v1 v2 s) s a
  exact ⟨ContractingWith.fixedPoint _ hc, fun s => (congrFun hc.fixedPoint_isFixedPt s).symm⟩

/-- ... and it is what the best policy is worth, which is the epsilon-greedy one. -/
theorem exploring_best [Fintype σ] {e : Mdp σ n m} (he : e.Proper) (hn : 0 < n) {gamma : ℝ} (h0 : 0 ≤ gamma) (h1 : gamma < 1) {ε : ℝ} (hε0 : 0 ≤ ε) (hε1 : ε ≤ 1) {v : σ → ℝ} (hv : ∀ s, v s = epsilonMean ε (e.back gamma v s)) : e.BestExploring gamma ε v := by
  have hpp : (stationary (m := m) fun s => meanRow (epsilonGreedyLogits ε (e.back gamma v s))).Proper := fun _ s => ⟨fun a => ((C49_probabilities _).1 a).le, (C49_probabilities _).2 hn⟩
  intro s
  refine ⟨⟨_, hpp, fun h s a => epsilon_floor hε0 hε1 _ a, worth_eq he h0 h1 hpp (fun h s => ?_) s⟩, ?_⟩
  · rw [softValue_zero]; exact hv s
  · rintro x ⟨pi, hpi, hf, hx⟩
    have := worth_le (δ := 0) he h0 h1 le_rfl hpi (v := v) (fun h s => by
      rw [softValue_zero, add_zero, hv s]
      exact epsilon_best hε0 hε1 hn _ (hpi h s).2 (hf h s)) hx
    simpa using this

variable [DecidableEq σ]

/-! ### The properties -/

/-- **C136**, the loop of `doc/examples/stubs/sarsa.py` with a table: `Sarsa`, where the actions are drawn from the epsilon-greedy policy on the values that have been learned so far, in an environment that is connected.  Nothing raises.  There is a
largest return among the policies that explore as much as `EpsilonGreedy`.  Almost surely, if the values of `epsilon` that are used converge, then the values converge to those of such a best policy, and the return of the policy that acts comes as close
to the largest one as one likes. -/
theorem C136_sarsa [Fintype σ] [MeasurableSpace V] (hn : 0 < n) {e : Mdp σ n m} (he : e.Proper) (hc : e.Connected) {gamma : ℝ} (h0 : 0 ≤ gamma) (h1 : gamma < 1) {νV : Measure V} {env : Game σ n V} {chance : σ → Fin n → V → Fin m}
    (hg : env.Is νV e chance) {lr : ℕ → ℝ} (hl : Slow lr) {draw : List (Fin n) → Option (Fin n)} (hd : Draws draw) {tau : ℝ} (htau : 0 < tau) {epsilon : ℕ → ℝ} (hε0 : ∀ ep, 0 ≤ epsilon ep) (hε1 : ∀ ep, epsilon ep ≤ 1)
    {μ : Measure Ω} [IsProbabilityMeasure μ] {ℋ : Filtration ℕ m0} {u : ℕ → Ω → Fin n → ℝ} {v : ℕ → Ω → V} (hv : Variates μ ℋ (uniforms n) νV u v) (type1 : Bool) (s0 : σ) (θ0 : σ → Fin n → ℝ) :
    ∃ best : ℝ → σ → ℝ, (∀ ε, 0 ≤ ε → ε ≤ 1 → e.BestExploring gamma ε (best ε)) ∧ ∃ X : ℕ → Ω → Play σ n,
      (∀ k ω, Play.run lr mse1 (sarsa n) type1 (epsilonGreedyPi draw tau epsilon) env (Play.init gamma s0 θ0) ((List.range k).map fun t => (u t ω, v t ω)) = .ok (X k ω)) ∧
      (∀ k ω, (X k ω).ep ≤ (X (k + 1) ω).ep) ∧
      ∀ᵐ ω ∂μ, ∀ ε, Tendsto (fun k => epsilon (X k ω).ep) atTop (𝓝 ε) →
        (∀ s a, Tendsto (fun k => (X k ω).q s a) atTop (𝓝 (∑ j, e.prob s a j * (e.reward s a j + if e.ends s a j then 0 else gamma * best ε (e.next s a j))))) ∧
        ∀ δ, 0 < δ → ∃ K, ∀ k, K ≤ k → ∀ s, ∃ x, e.Worth gamma 0 (calls draw tau fun s => epsilonGreedyLogits (epsilon (X k ω).ep) ((X k ω).q s)) s x ∧ best ε s - δ ≤ x := by
  classical
  have hsol : ∀ ε : ℝ, ∃ w : σ → ℝ, 0 ≤ ε → ε ≤ 1 → ∀ s, w s = epsilonMean ε (e.back gamma w s) := fun ε => by
    by_cases h : 0 ≤ ε ∧ ε ≤ 1
    · obtain ⟨w, hw⟩ := exploring_solution he hn h0 h1 h.1 h.2
      exact ⟨w, fun _ _ => hw⟩
    · exact ⟨fun _ => 0, fun g0 g1 => absurd ⟨g0, g1⟩ h⟩
  choose best hbest using hsol
  have hreal : ∀ ep row a, (uniforms n).real {u | epsilonGreedyPi draw tau epsilon ep row u = some a} = meanRow (epsilonGreedyLogits (epsilon ep) row) a := by
    intro ep row a
    unfold epsilonGreedyPi policyCall
    rw [Measure.real]
    dsimp only
    rw [C62_sample_distribution hd htau _ a, ENNReal.toReal_ofReal ((C49_probabilities _).1 a).le]
  obtain ⟨X, B, hrun, hmono, hae⟩ := Play.sarsa hv hn he hc hg (tries_epsilon_greedy hn hd htau hε0 hε1) hreal (fun ep row a => ((C49_probabilities _).1 a).le) (fun ep row => (C49_probabilities _).2 hn) h0 h1 hl type1 s0 θ0
  refine ⟨best, fun ε g0 g1 => exploring_best he hn h0 h1 g0 g1 (hbest ε g0 g1), X, hrun, hmono, ?_⟩
  filter_upwards [hae] with ω ⟨f, b, d, hf, hX, hb, hsum, _, hd', hmove⟩ ε hε
  have g0 : 0 ≤ ε := ge_of_tendsto' hε fun k => hε0 _
  have g1 : ε ≤ 1 := le_of_tendsto' hε fun k => hε1 _
  have hw := hbest ε g0 g1
  set w := best ε
  have hconv : ∀ s a, Tendsto (fun k => (X k ω).q s a) atTop (𝓝 (e.back gamma w s a)) := by
    intro s a
    refine either_tendsto (x := fun t => f t s a) (fun t => (hX t).imp (fun h => by rw [h]) (fun h => by rw [h])) ?_
    let T : (σ × Fin n → ℝ) → σ × Fin n → ℝ := fun g p => e.back gamma (fun s => epsilonMean ε fun a => g (s, a)) p.1 p.2
    have hT : Attracts T (fun p => e.back gamma w p.1 p.2) gamma := by
      intro g M hM p
      have : e.back gamma w p.1 p.2 = e.back gamma (fun s => epsilonMean ε (e.back gamma w s)) p.1 p.2 := by
        congr 1
        exact funext hw
      beta_reduce
      rw [this]
      exact back_close he h0 (fun s => epsilonMean_close g0 g1 hn fun a => hM (s, a)) _ _
    obtain ⟨C, hC⟩ := bounded fun p : σ × Fin n => e.back gamma w p.1 p.2
    have hM : ∀ t (p : σ × Fin n), |f t p.1 p.2 - e.back gamma w p.1 p.2| ≤ B + C := fun t p => (abs_sub _ _).trans (add_le_add (hf t _ _) (hC p))
    let r : ℕ → σ × Fin n → ℝ := fun t p => e.back gamma (fun s => epsilonMean (epsilon (X t ω).ep) (f t s)) p.1 p.2 - e.back gamma (fun s => epsilonMean ε (f t s)) p.1 p.2
    have hr : ∀ p, Tendsto (fun t => r t p) atTop (𝓝 0) := by
      intro p
      have hz : Tendsto (fun t => gamma * (n * (|epsilon (X t ω).ep - ε| * B))) atTop (𝓝 0) := by
        have := ((tendsto_sub_nhds_zero_iff.2 hε).abs.mul_const B).const_mul (n : ℝ) |>.const_mul gamma
        simpa using this
      refine squeeze_zero_norm (fun t => ?_) hz
      exact back_close he h0 (fun s => epsilonMean_drift (hε0 _) (hε1 _) g0 g1 (hf t s)) _ _
    have hN : Noisy T (fun t p => f t p.1 p.2) (fun t p => f t p.1 p.2) b (fun t p => d t p + b t p * r t p) (fun _ => 1) := {
      b_nonneg := fun t p => (hb t p).1
      b_le := fun t p => (hb t p).2
      move := fun t p => by
        have h5 := hmove t p
        simp only [T, r]
        have e1 : e.back gamma (fun s => ∑ a, meanRow (epsilonGreedyLogits (epsilon (X t ω).ep) (f t s)) a * f t s a) p.1 p.2 = e.back gamma (fun s => epsilonMean (epsilon (X t ω).ep) (f t s)) p.1 p.2 := rfl
        rw [h5, e1]
        ring
      tau_nonneg := fun _ => zero_le_one
      tau_le := fun _ => le_rfl
      sync := fun t p => by ring }
    exact (hN.converges_drift hT h0 h1 hsum (fun h => by simpa using h.tendsto_atTop_zero) hd' hr (fun t p => ⟨hM t p, hM t p⟩) (s, a)).1
  refine ⟨hconv, fun δ hδ => ?_⟩
  have g2 : 0 < 1 - gamma := by linarith
  obtain ⟨C, hC⟩ := bounded fun p : σ × Fin n => e.back gamma w p.1 p.2
  set η : ℝ := δ * (1 - gamma) / 3 with hη
  have hη0 : 0 < η := by positivity
  have c1 : ∀ᶠ k in atTop, ∀ s a, |(X k ω).q s a - e.back gamma w s a| ≤ η := by
    refine eventually_all.2 fun s => eventually_all.2 fun a => ?_
    filter_upwards [Metric.tendsto_nhds.1 (hconv s a) η hη0] with k hk
    exact hk.le
  have c2 : ∀ᶠ k in atTop, n * (|epsilon (X k ω).ep - ε| * C) < η := by
    have : Tendsto (fun k => n * (|epsilon (X k ω).ep - ε| * C)) atTop (𝓝 0) := by
      have := ((tendsto_sub_nhds_zero_iff.2 hε).abs.mul_const C).const_mul (n : ℝ)
      simpa using this
    exact this.eventually_lt_const hη0
  obtain ⟨K, hK⟩ := eventually_atTop.1 (c1.and c2)
  refine ⟨K, fun k hk s => ?_⟩
  obtain ⟨k1, k2⟩ := hK k hk
  have hcp := calls_proper (m := m) hd hn htau fun s => epsilonGreedyLogits (epsilon (X k ω).ep) ((X k ω).q s)
  obtain ⟨x, hx⟩ := C121_value he h0 h1 0 hcp s
  refine ⟨x, hx, ?_⟩
  have := worth_ge (δ := 3 * η) he h0 h1 (by positivity) hcp (v := w) (fun h s => by
    rw [softValue_zero, calls_eq hd htau]
    show w s ≤ ∑ a, meanRow (epsilonGreedyLogits (epsilon (X k ω).ep) ((X k ω).q s)) a * e.back gamma w s a + 3 * η
    have d1 := abs_le.1 (epsilonMean_close (hε0 (X k ω).ep) (hε1 _) hn (k1 s))
    have d2 := abs_le.1 ((epsilonMean_drift (hε0 (X k ω).ep) (hε1 _) g0 g1 fun a => hC (s, a)).trans k2.le)
    have d3 : epsilonMean (epsilon (X k ω).ep) ((X k ω).q s) ≤ ∑ a, meanRow (epsilonGreedyLogits (epsilon (X k ω).ep) ((X k ω).q s)) a * e.back gamma w s a + η := by
      have hs : ∑ a, meanRow (epsilonGreedyLogits (epsilon (X k ω).ep) ((X k ω).q s)) a = 1 := (C49_probabilities _).2 hn
      calc _ ≤ ∑ a, (meanRow (epsilonGreedyLogits (epsilon (X k ω).ep) ((X k ω).q s)) a * e.back gamma w s a + meanRow (epsilonGreedyLogits (epsilon (X k ω).ep) ((X k ω).q s)) a * η) := Finset.sum_le_sum fun a _ => by
            rw [← mul_add]
            exact mul_le_mul_of_nonneg_left (by linarith [(abs_le.1 (k1 s a)).2]) ((C49_probabilities _).1 a).le
        _ = _ := by rw [Finset.sum_add_distrib, ← Finset.sum_mul, hs, one_mul]
    have d4 := hw s
    linarith [d1.1, d2.1]) hx
  have e2 : 3 * η / (1 - gamma) = δ := by
    rw [hη]; field_simp
  rw [e2] at this
  linarith

/-- **C136**, schedules of `epsilon`: if `epsilon` converges, then almost surely the values converge, to those of the best policy that explores as in the limit, or as in the episode that does not end if there is such. -/
theorem C136_schedule [Fintype σ] [MeasurableSpace V] (hn : 0 < n) {e : Mdp σ n m} (he : e.Proper) (hc : e.Connected) {gamma : ℝ} (h0 : 0 ≤ gamma) (h1 : gamma < 1) {νV : Measure V} {env : Game σ n V} {chance : σ → Fin n → V → Fin m}
    (hg : env.Is νV e chance) {lr : ℕ → ℝ} (hl : Slow lr) {draw : List (Fin n) → Option (Fin n)} (hd : Draws draw) {tau : ℝ} (htau : 0 < tau) {epsilon : ℕ → ℝ} (hε0 : ∀ ep, 0 ≤ epsilon ep) (hε1 : ∀ ep, epsilon ep ≤ 1) {ε0 : ℝ}
    (hε : Tendsto epsilon atTop (𝓝 ε0)) {μ : Measure Ω} [IsProbabilityMeasure μ] {ℋ : Filtration ℕ m0} {u : ℕ → Ω → Fin n → ℝ} {v : ℕ → Ω → V} (hv : Variates μ ℋ (uniforms n) νV u v) (type1 : Bool) (s0 : σ) (θ0 : σ → Fin n → ℝ) :
    ∃ X : ℕ → Ω → Play σ n,
      (∀ k ω, Play.run lr mse1 (sarsa n) type1 (epsilonGreedyPi draw tau epsilon) env (Play.init gamma s0 θ0) ((List.range k).map fun t => (u t ω, v t ω)) = .ok (X k ω)) ∧
      ∀ᵐ ω ∂μ, ∃ ε best, (Tendsto (fun k => (X k ω).ep) atTop atTop ∧ ε = ε0 ∨ ∃ K ep, (∀ k, K ≤ k → (X k ω).ep = ep) ∧ ε = epsilon ep) ∧ e.BestExploring gamma ε best ∧
        ∀ s a, Tendsto (fun k => (X k ω).q s a) atTop (𝓝 (∑ j, e.prob s a j * (e.reward s a j + if e.ends s a j then 0 else gamma * best (e.next s a j)))) := by
  obtain ⟨best, hbest, X, hrun, hmono, hae⟩ := C136_sarsa hn he hc h0 h1 hg hl hd htau hε0 hε1 hv type1 s0 θ0
  refine ⟨X, hrun, ?_⟩
  filter_upwards [hae] with ω hω
  have hm : Monotone fun k => (X k ω).ep := monotone_nat_of_le_succ fun k => hmono k ω
  rcases tendsto_of_monotone hm with h | ⟨ep, h⟩
  · exact ⟨ε0, best ε0, .inl ⟨h, rfl⟩, hbest _ (ge_of_tendsto' hε hε0) (le_of_tendsto' hε hε1), (hω ε0 (hε.comp h)).1⟩
  · rw [nhds_discrete, tendsto_pure] at h
    obtain ⟨K, hK⟩ := eventually_atTop.1 h
    refine ⟨epsilon ep, best (epsilon ep), .inr ⟨K, ep, hK, rfl⟩, hbest _ (hε0 _) (hε1 _), (hω (epsilon ep) ?_).1⟩
    exact tendsto_const_nhds.congr' (h.mono fun k hk => by beta_reduce; rw [hk])

omit [DecidableEq σ] in
/-- If values that are moved towards those of their own Boltzmann policies converge, then to the values of the Boltzmann policy that uses these values itself. -/
theorem own_limit [Fintype σ] (hn : 0 < n) {e : Mdp σ n m} (he : e.Proper) {gamma : ℝ} (h0 : 0 ≤ gamma) (h1 : gamma < 1) {draw : List (Fin n) → Option (Fin n)} (hd : Draws draw) {tau : ℝ} (htau : 0 < tau) {T : ℕ → ℝ}
    {x f : ℕ → σ → Fin n → ℝ} {b d : ℕ → σ × Fin n → ℝ} {B : ℝ} (hf : ∀ t s a, |f t s a| ≤ B) (hX : ∀ t, x (t + 1) = f t ∨ x (t + 1) = f (t + 1)) (hb : ∀ t p, 0 ≤ b t p ∧ b t p ≤ 1) (hsum : ∀ p, ¬ Summable fun t => b t p)
    (hbz : ∀ p, Tendsto (fun t => b t p) atTop (𝓝 0)) (hd' : ∀ p, ∃ S, Tendsto (fun t => ∑ k ∈ Finset.range t, d k p) atTop (𝓝 S))
    (hmove : ∀ t p, f (t + 1) p.1 p.2 = (1 - b t p) * f t p.1 p.2 + b t p * e.back gamma (fun s => ∑ a, meanRow (boltzmannLogits (T t) (f t s)) a * f t s a) p.1 p.2 + d t p)
    {τ : ℝ} (hτ0 : 0 < τ) {q : σ → Fin n → ℝ} (hτl : Tendsto T atTop (𝓝 τ)) (hq : ∀ s a, Tendsto (fun k => x k s a) atTop (𝓝 (q s a))) :
    ∃ w : σ → ℝ, (∀ s, e.Worth gamma 0 (calls draw tau fun s => boltzmannLogits τ (q s)) s (w s)) ∧ ∀ s a, q s a = e.back gamma w s a := by
  have hBB : ∀ t s, |∑ a, meanRow (boltzmannLogits (T t) (f t s)) a * f t s a| ≤ B := by
    intro t s
    calc _ ≤ ∑ a, |meanRow (boltzmannLogits (T t) (f t s)) a * f t s a| := Finset.abs_sum_le_sum_abs _ _
      _ ≤ ∑ a, meanRow (boltzmannLogits (T t) (f t s)) a * B := Finset.sum_le_sum fun a _ => by
          rw [abs_mul, abs_of_nonneg ((C49_probabilities _).1 a).le]
          exact mul_le_mul_of_nonneg_left (hf _ _ _) ((C49_probabilities _).1 a).le
      _ = B := by rw [← Finset.sum_mul, (C49_probabilities _).2 hn, one_mul]
  -- also the values in between converge
  have hfq : ∀ s a, Tendsto (fun t => f t s a) atTop (𝓝 (q s a)) := by
    intro s a
    have hdz : Tendsto (fun t => d t (s, a)) atTop (𝓝 0) := by
      obtain ⟨S, hS⟩ := hd' (s, a)
      have h2 := ((tendsto_add_atTop_iff_nat 1).2 hS).sub hS
      rw [sub_self] at h2
      exact h2.congr fun t => by rw [Finset.sum_range_succ]; ring
    obtain ⟨C, hC⟩ := bounded fun p : σ × Fin n => e.back gamma (fun _ => 0) p.1 p.2
    have hstep : Tendsto (fun t => f (t + 1) s a - f t s a) atTop (𝓝 0) := by
      have h2 : Tendsto (fun t => b t (s, a) * (B + (C + gamma * B)) + |d t (s, a)|) atTop (𝓝 0) := by
        simpa using ((hbz (s, a)).mul_const (B + (C + gamma * B))).add hdz.abs
      refine squeeze_zero_norm (fun t => ?_) h2
      rw [Real.norm_eq_abs]
      have h3 := hmove t (s, a)
      simp only at h3
      set m' := e.back gamma (fun s => ∑ a, meanRow (boltzmannLogits (T t) (f t s)) a * f t s a) s a with hm'
      have h4 : |m'| ≤ C + gamma * B := by
        have h5 := back_close he h0 (v := fun s => ∑ a, meanRow (boltzmannLogits (T t) (f t s)) a * f t s a) (w := fun _ => 0) (fun s => by rw [sub_zero]; exact hBB t s) s a
        rw [← hm'] at h5
        have h6 := hC (s, a)
        simp only at h6
        have h7 := abs_sub_abs_le_abs_sub m' (e.back gamma (fun _ => 0) s a)
        linarith
      have h5 : f (t + 1) s a - f t s a = b t (s, a) * (m' - f t s a) + d t (s, a) := by rw [h3]; ring
      rw [h5]
      refine (abs_add_le _ _).trans (add_le_add ?_ le_rfl)
      rw [abs_mul, abs_of_nonneg (hb t (s, a)).1]
      refine mul_le_mul_of_nonneg_left ?_ (hb t (s, a)).1
      have := abs_sub m' (f t s a)
      linarith [hf t s a]
    have h2 : Tendsto (fun t => f t s a - x (t + 1) s a) atTop (𝓝 0) := by
      refine squeeze_zero_norm (fun t => ?_) (by simpa using hstep.abs)
      rw [Real.norm_eq_abs]
      rcases hX t with h | h <;> rw [h]
      · simp
      · rw [abs_sub_comm]
    have h3 := h2.add ((tendsto_add_atTop_iff_nat 1).2 (hq s a))
    simpa using h3
  let w : σ → ℝ := fun s => ∑ a, meanRow (boltzmannLogits τ (q s)) a * q s a
  have hmean : ∀ s, Tendsto (fun t => ∑ a, meanRow (boltzmannLogits (T t) (f t s)) a * f t s a) atTop (𝓝 (w s)) := by
    intro s
    have hz : ∀ a, Tendsto (fun t => Real.exp (f t s a / T t)) atTop (𝓝 (Real.exp (q s a / τ))) := fun a => (Real.continuous_exp.tendsto _).comp ((hfq s a).div hτl hτ0.ne')
    have : Nonempty (Fin n) := ⟨⟨0, hn⟩⟩
    refine tendsto_finsetSum _ fun a _ => Tendsto.mul ((hz a).div (tendsto_finsetSum _ fun j _ => hz j) ?_) (hfq s a)
    exact (Finset.sum_pos (fun j _ => Real.exp_pos _) Finset.univ_nonempty).ne'
  have hback : ∀ p : σ × Fin n, Tendsto (fun t => e.back gamma (fun s => ∑ a, meanRow (boltzmannLogits (T t) (f t s)) a * f t s a) p.1 p.2) atTop (𝓝 (e.back gamma w p.1 p.2)) := by
    intro p
    unfold Mdp.back
    refine tendsto_finsetSum _ fun j _ => Tendsto.const_mul _ (Tendsto.const_add _ ?_)
    split
    · exact tendsto_const_nhds
    · exact (hmean _).const_mul _
  have hlim : ∀ s a, q s a = e.back gamma w s a := by
    intro s a
    obtain ⟨C, hC⟩ := bounded fun p : σ × Fin n => e.back gamma w p.1 p.2
    have hM : ∀ t (p : σ × Fin n), |f t p.1 p.2 - e.back gamma w p.1 p.2| ≤ B + C := fun t p => (abs_sub _ _).trans (add_le_add (hf t _ _) (hC p))
    let r : ℕ → σ × Fin n → ℝ := fun t p => e.back gamma (fun s => ∑ a, meanRow (boltzmannLogits (T t) (f t s)) a * f t s a) p.1 p.2 - e.back gamma w p.1 p.2
    have hN : Noisy (fun _ p => e.back gamma w p.1 p.2) (fun t (p : σ × Fin n) => f t p.1 p.2) (fun t p => f t p.1 p.2) b (fun t p => d t p + b t p * r t p) (fun _ => 1) := {
      b_nonneg := fun t p => (hb t p).1
      b_le := fun t p => (hb t p).2
      move := fun t p => by
        have h5 := hmove t p
        simp only [r]
        rw [h5]
        ring
      tau_nonneg := fun _ => zero_le_one
      tau_le := fun _ => le_rfl
      sync := fun t p => by ring }
    have h2 := (hN.converges_drift (gamma := 0) (fs := fun p => e.back gamma w p.1 p.2) (fun g M _ p => by simp) le_rfl zero_lt_one hsum (fun h => by simpa using h.tendsto_atTop_zero) hd' (fun p => by simpa using (hback p).sub_const (e.back gamma w p.1 p.2))
      (fun t p => ⟨hM t p, hM t p⟩) (s, a)).1
    exact tendsto_nhds_unique (hfq s a) h2
  refine ⟨w, fun s => ?_, hlim⟩
  rw [calls_eq hd htau]
  refine worth_eq he h0 h1 (by rw [← calls_eq hd htau]; exact calls_proper hd hn htau _) (fun h s => ?_) s
  rw [softValue_zero, ← show q s = e.back gamma w s from funext fun a => hlim s a]
  rfl

/-- **C136**, the loop of `doc/examples/frozen_lake/sarsa.py` with a table: `Sarsa` with actions from the Boltzmann policy.  If the values converge, then to the values of the Boltzmann policy that uses these values itself. -/
theorem C136_boltzmann [Fintype σ] [MeasurableSpace V] (hn : 0 < n) {e : Mdp σ n m} (he : e.Proper) (hc : e.Connected) {gamma : ℝ} (h0 : 0 ≤ gamma) (h1 : gamma < 1) {νV : Measure V} {env : Game σ n V} {chance : σ → Fin n → V → Fin m}
    (hg : env.Is νV e chance) {lr : ℕ → ℝ} (hl : Slow lr) {draw : List (Fin n) → Option (Fin n)} (hd : Draws draw) {tau : ℝ} (htau : 0 < tau) {temperature : ℕ → ℝ} {τ0 : ℝ} (hτ : 0 < τ0) (ht : ∀ ep, τ0 ≤ temperature ep)
    {μ : Measure Ω} [IsProbabilityMeasure μ] {ℋ : Filtration ℕ m0} {u : ℕ → Ω → Fin n → ℝ} {v : ℕ → Ω → V} (hv : Variates μ ℋ (uniforms n) νV u v) (type1 : Bool) (s0 : σ) (θ0 : σ → Fin n → ℝ) :
    ∃ X : ℕ → Ω → Play σ n,
      (∀ k ω, Play.run lr mse1 (sarsa n) type1 (boltzmannPi draw tau temperature) env (Play.init gamma s0 θ0) ((List.range k).map fun t => (u t ω, v t ω)) = .ok (X k ω)) ∧
      ∀ᵐ ω ∂μ, ∀ (τ : ℝ) (q : σ → Fin n → ℝ), Tendsto (fun k => temperature (X k ω).ep) atTop (𝓝 τ) → (∀ s a, Tendsto (fun k => (X k ω).q s a) atTop (𝓝 (q s a))) →
        ∃ w : σ → ℝ, (∀ s, e.Worth gamma 0 (calls draw tau fun s => boltzmannLogits τ (q s)) s (w s)) ∧ ∀ s a, q s a = ∑ j, e.prob s a j * (e.reward s a j + if e.ends s a j then 0 else gamma * w (e.next s a j)) := by
  have hreal : ∀ ep row a, (uniforms n).real {u | boltzmannPi draw tau temperature ep row u = some a} = meanRow (boltzmannLogits (temperature ep) row) a := by
    intro ep row a
    unfold boltzmannPi policyCall
    rw [Measure.real]
    dsimp only
    rw [C62_sample_distribution hd htau _ a, ENNReal.toReal_ofReal ((C49_probabilities _).1 a).le]
  obtain ⟨X, B, hrun, -, hae⟩ := Play.sarsa hv hn he hc hg (tries_boltzmann hn hd htau hτ ht) hreal (fun ep row a => ((C49_probabilities _).1 a).le) (fun ep row => (C49_probabilities _).2 hn) h0 h1 hl type1 s0 θ0
  refine ⟨X, hrun, ?_⟩
  filter_upwards [hae] with ω ⟨f, b, d, hf, hX, hb, hsum, hbz, hd', hmove⟩ τ q hτl hq
  have hτ0 : 0 < τ := hτ.trans_le (ge_of_tendsto' hτl fun k => ht _)
  exact own_limit hn he h0 h1 hd htau hf hX hb hsum hbz hd' hmove hτ0 hτl hq

/-- Stop for nothing, or get 0.2 and go on. -/
noncomputable def stopOrGo : Mdp Unit 2 1 := ⟨fun _ _ _ => 1, fun _ a _ => if a = 0 then 0 else 1 / 5, fun _ _ _ => (), fun _ a _ => a == 0⟩

omit [DecidableEq σ] in
/-- **C136**, for the Boltzmann policy the limit is not determined: there are an environment, a temperature and a discount with two different tables of values that are each the values of their own Boltzmann policy.  (For `EpsilonGreedy` this cannot happen.) -/
theorem C136_boltzmann_two {draw : List (Fin 2) → Option (Fin 2)} (hd : Draws draw) {tau : ℝ} (htau : 0 < tau) :
    stopOrGo.Proper ∧ stopOrGo.Connected ∧ ∃ q q' : Unit → Fin 2 → ℝ, q ≠ q' ∧ ∀ r, r = q ∨ r = q' →
      ∃ w : Unit → ℝ, (∀ s, stopOrGo.Worth 0.99 0 (calls draw tau fun s => boltzmannLogits 1 (r s)) s (w s)) ∧
        ∀ s a, r s a = ∑ j, stopOrGo.prob s a j * (stopOrGo.reward s a j + if stopOrGo.ends s a j then 0 else 0.99 * w (stopOrGo.next s a j)) := by
  have hproper : stopOrGo.Proper := ⟨fun _ _ _ => zero_le_one, fun _ _ => by simp [stopOrGo]⟩
  -- the value of going on
  let h : ℝ → ℝ := fun x => 0.99 * (x * (Real.exp x / (1 + Real.exp x))) + 1 / 5 - x
  have hpos : ∀ x : ℝ, (0 : ℝ) < 1 + Real.exp x := fun x => by positivity
  have hcont : Continuous h := by
    have : ∀ x : ℝ, 1 + Real.exp x ≠ 0 := fun x => (hpos x).ne'
    fun_prop (disch := assumption)
  have h0 : 0 < h 0 := by simp [h]
  have e1 := Real.exp_one_lt_d9
  have e2 := Real.exp_one_gt_d9
  have h1 : h (3 / 2) < 0 := by
    have hx : Real.exp (3 / 2) < 6 := by
      have h3 : Real.exp (3 / 2) ^ 2 = Real.exp 1 ^ 3 := by
        rw [← Real.exp_nat_mul, ← Real.exp_nat_mul]; norm_num
      have h4 : Real.exp 1 ^ 3 < 36 := by
        calc Real.exp 1 ^ 3 < 2.7182818286 ^ 3 := pow_lt_pow_left₀ e1 (Real.exp_pos _).le (by norm_num)
          _ < 36 := by norm_num
      nlinarith [Real.exp_pos (3 / 2)]
    have h5 : Real.exp (3 / 2) / (1 + Real.exp (3 / 2)) < 6 / 7 := by
      rw [div_lt_div_iff₀ (hpos _) (by norm_num)]
      linarith
    simp only [h]
    linarith
  have h2 : 0 < h 4 := by
    have hx : 40 < Real.exp 4 := by
      have h3 : Real.exp 4 = Real.exp 1 ^ 4 := by
        rw [← Real.exp_nat_mul]; norm_num
      rw [h3]
      calc (40 : ℝ) < 2.7182818283 ^ 4 := by norm_num
        _ < _ := pow_lt_pow_left₀ e2 (by norm_num) (by norm_num)
    have h5 : 40 / 41 < Real.exp 4 / (1 + Real.exp 4) := by
      rw [div_lt_div_iff₀ (by norm_num) (hpos _)]
      linarith
    simp only [h]
    linarith
  have h3 : h 100 < 0 := by
    have h5 : Real.exp 100 / (1 + Real.exp 100) < 1 := by
      rw [div_lt_one (hpos _)]
      linarith
    simp only [h]
    linarith
  obtain ⟨x, hx, hx0⟩ := intermediate_value_Icc' (by norm_num : (0 : ℝ) ≤ 3 / 2) hcont.continuousOn ⟨h1.le, h0.le⟩
  obtain ⟨y, hy, hy0⟩ := intermediate_value_Icc' (by norm_num : (4 : ℝ) ≤ 100) hcont.continuousOn ⟨h3.le, h2.le⟩
  refine ⟨hproper, fun _ _ => .refl, fun _ => ![0, x], fun _ => ![0, y], fun he => ?_, ?_⟩
  · have h4 : x = y := by simpa using congrFun (congrFun he ()) 1
    linarith [hx.2, hy.1]
  · have key : ∀ z, h z = 0 → ∃ w : Unit → ℝ, (∀ s, stopOrGo.Worth 0.99 0 (calls draw tau fun s => boltzmannLogits 1 ((fun _ => ![0, z] : Unit → Fin 2 → ℝ) s)) s (w s)) ∧
        ∀ s a, (fun _ => ![0, z] : Unit → Fin 2 → ℝ) s a = ∑ j, stopOrGo.prob s a j * (stopOrGo.reward s a j + if stopOrGo.ends s a j then 0 else 0.99 * w (stopOrGo.next s a j)) := by
      intro z hz
      have hback : ∀ s a, (fun _ => ![0, z] : Unit → Fin 2 → ℝ) s a = stopOrGo.back 0.99 (fun _ => z * (Real.exp z / (1 + Real.exp z))) s a := by
        intro s a
        have hz' : z = 1 / 5 + 0.99 * (z * (Real.exp z / (1 + Real.exp z))) := by
          have : h z = 0.99 * (z * (Real.exp z / (1 + Real.exp z))) + 1 / 5 - z := rfl
          linarith
        fin_cases a
        · simp [Mdp.back, stopOrGo]
        · simp only [Fin.mk_one, Matrix.cons_val_one, Mdp.back, stopOrGo]
          simpa using hz'
      refine ⟨fun _ => z * (Real.exp z / (1 + Real.exp z)), fun s => ?_, hback⟩
      have hp := calls_proper (m := 1) (σ := Unit) hd (by norm_num) htau fun s => boltzmannLogits 1 ((fun _ => ![0, z] : Unit → Fin 2 → ℝ) s)
      rw [calls_eq hd htau] at hp ⊢
      refine worth_eq (v := fun _ => z * (Real.exp z / (1 + Real.exp z))) (gamma := 0.99) hproper (by norm_num) (by norm_num) hp (fun _ s => ?_) s
      rw [softValue_zero, ← show (fun _ => ![0, z] : Unit → Fin 2 → ℝ) s = _ from funext fun a => hback s a]
      simp [stationary, meanRow, Dists.softmax, boltzmannLogits, Fin.sum_univ_two]
      ring
    rintro r (rfl | rfl)
    · exact key x hx0
    · exact key y hy0

/-! ### A case -/

/-- **C136**, a case: with `epsilon=0.5` the agent in `gamble` learns the values of a policy that takes the worse action with probability `p`, a little more than a quarter. -/
theorem C136_example {draw : List (Fin 2) → Option (Fin 2)} (hd : Draws draw) (θ0 : Unit → Fin 2 → ℝ) :
    ∃ (p : ℝ) (u : ℕ → (ℕ → (Fin 2 → ℝ) × Bool) → Fin 2 → ℝ) (v : ℕ → (ℕ → (Fin 2 → ℝ) × Bool) → Bool) (X : ℕ → (ℕ → (Fin 2 → ℝ) × Bool) → Play Unit 2), p = (1 / 4 + 1e-15) / (1 + 2 * 1e-15) ∧
      (∀ k ω, Play.run (fun t => 1 / ((t : ℝ) + 1)) mse1 (sarsa 2) false (epsilonGreedyPi draw 1 fun _ => 1 / 2) gambleEnv (Play.init (1 / 2) () θ0) ((List.range k).map fun t => (u t ω, v t ω)) = .ok (X k ω)) ∧
      ∀ᵐ ω ∂(Measure.infinitePi fun _ : ℕ => (uniforms 2).prod (PMF.uniformOfFintype Bool).toMeasure),
        Tendsto (fun k => (X k ω).q () 0) atTop (𝓝 (1 / 2 + 1 / 4 * ((2 - p) / (3 - p)))) ∧ Tendsto (fun k => (X k ω).q () 1) atTop (𝓝 (1 / 4 + 1 / 2 * ((2 - p) / (3 - p)))) := by
  obtain ⟨ℋ, u, v, hv⟩ := C131_variates (uniforms 2) (PMF.uniformOfFintype Bool).toMeasure
  obtain ⟨best, hbest, X, hrun, -, hconv⟩ := C136_sarsa (gamma := 1 / 2) (by norm_num) gamble_proper (fun _ _ => .refl) (by norm_num) (by norm_num) gambleEnv_is slow_harmonic hd one_pos (epsilon := fun _ => 1 / 2) (fun _ => by norm_num) (fun _ => by norm_num) hv false () θ0
  set p : ℝ := (1 / 4 + 1e-15) / (1 + 2 * 1e-15) with hp
  have hp1 : p < 1 := by rw [hp]; norm_num
  have hb0 : ∀ w : Unit → ℝ, gamble.back (1 / 2) w () 0 = 1 / 2 + 1 / 4 * w () := fun w => by
    simp [Mdp.back, gamble, Fin.sum_univ_two]; ring
  have hb1 : ∀ w : Unit → ℝ, gamble.back (1 / 2) w () 1 = 1 / 4 + 1 / 2 * w () := fun w => by
    simp [Mdp.back, gamble]
  have e1 : best (1 / 2) () = (2 - p) / (3 - p) := by
    have h2 := exploring_best gamble_proper (n := 2) (by norm_num) (gamma := 1 / 2) (by norm_num) (by norm_num) (ε := 1 / 2) (by norm_num) (by norm_num) (v := fun _ => (2 - p) / (3 - p)) (fun s => by
      have h3 : (0 : ℝ) < 3 - p := by linarith
      have h4 : (2 - p) / (3 - p) < 1 := by rw [div_lt_one h3]; linarith
      have hg : greedy (gamble.back (1 / 2) (fun _ => (2 - p) / (3 - p)) ()) = {0} := by
        ext a
        simp only [Core.greedy, Finset.mem_filter, Finset.mem_univ, true_and, Finset.mem_singleton, Fin.forall_fin_two, hb0, hb1]
        fin_cases a
        · simp only [Fin.zero_eta, hb0]
          constructor
          · intro _; trivial
          · intro _; constructor <;> linarith
        · simp only [Fin.mk_one, hb1]
          constructor
          · intro h5; linarith [h5.1]
          · intro h5; exact absurd h5 (by decide)
      rw [epsilonMean, Fin.sum_univ_two, C52_probabilities (by norm_num) (by norm_num), C52_probabilities (by norm_num) (by norm_num), epsilonGreedy, epsilonGreedy, hg, hb0, hb1]
      have e2 : ((1 : ℝ) / 2 * (1 / (2 : ℕ)) + (1 - 1 / 2) * (if (0 : Fin 2) ∈ ({0} : Finset (Fin 2)) then 1 / ((({0} : Finset (Fin 2)).card : ℕ) : ℝ) else 0) + 1e-15) / (1 + (2 : ℕ) * 1e-15) = 1 - p := by
        rw [hp]; norm_num
      have e3 : ((1 : ℝ) / 2 * (1 / (2 : ℕ)) + (1 - 1 / 2) * (if (1 : Fin 2) ∈ ({0} : Finset (Fin 2)) then 1 / ((({0} : Finset (Fin 2)).card : ℕ) : ℝ) else 0) + 1e-15) / (1 + (2 : ℕ) * 1e-15) = p := by
        rw [hp]; norm_num
      rw [e2, e3]
      field_simp
      ring)
    exact (hbest (1 / 2) (by norm_num) (by norm_num) ()).unique (h2 ())
  refine ⟨p, u, v, X, rfl, hrun, ?_⟩
  filter_upwards [hconv] with ω hω
  have h2 := (hω (1 / 2) tendsto_const_nhds).1
  rw [← e1]
  exact ⟨by rw [← hb0]; exact h2 () 0, by rw [← hb1]; exact h2 () 1⟩

end Coax.Loop
