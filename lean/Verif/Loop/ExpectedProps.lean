import Verif.Loop.ExpectedLemmas
import Verif.Loop.SarsaProps

/-! Property C138: `ExpectedSarsa` with a policy on the values that are being learned. -/

namespace Coax.Loop

open Coax.RewardTracing Coax.TD Coax.Core Coax.Values Coax.Pol Coax.Dists Filter Topology MeasureTheory

variable {σ Ω U V : Type _} {n m : Nat} {m0 : MeasurableSpace Ω}

theorem rule_expectedSarsaOf {logits : (Fin n → ℝ) → Fin n → ℝ} (hn : 0 < n) (type1 : Bool) (hc : ∀ r1 r2 : Fin n → ℝ, ∀ M, (∀ a, |r1 a - r2 a| ≤ M) → |ownMean logits r1 - ownMean logits r2| ≤ M) :
    Rule (σ := σ) (n := n) (expectedSarsaOf n logits) type1 (fun _ row x => x = ownMean logits row) where
  bootstraps θQ θT b hb := by
    rw [expectedSarsaOf_eq hn]
    exact (rule_expectedSarsa hn type1 fun s => logits (θT s)).bootstraps θQ θT b hb
  close s r1 r2 x1 x2 eps h1 h2 h := by rw [h1, h2]; exact hc _ _ _ h

variable [DecidableEq σ]

/-- **C138**, `ExpectedSarsa(q, pi)` with `pi = EpsilonGreedy(q)`, where the actions are drawn from `pi` and the probabilities in the targets are those of `pi` too, both on the values that have been learned so far, in an environment that is connected.
Nothing raises.  Almost surely the values converge to those of the best policy that explores as much as `EpsilonGreedy`, and the return of the policy that acts comes as close to the largest one as one likes. -/
theorem C138_epsilon_greedy [Fintype σ] [MeasurableSpace V] (hn : 0 < n) {e : Mdp σ n m} (he : e.Proper) (hc : e.Connected) {gamma : ℝ} (h0 : 0 ≤ gamma) (h1 : gamma < 1) {νV : Measure V} {env : Game σ n V} {chance : σ → Fin n → V → Fin m}
    (hg : env.Is νV e chance) {lr : ℕ → ℝ} (hl : Slow lr) {draw : List (Fin n) → Option (Fin n)} (hd : Draws draw) {tau : ℝ} (htau : 0 < tau) {ε : ℝ} (hε0 : 0 ≤ ε) (hε1 : ε ≤ 1)
    {μ : Measure Ω} [IsProbabilityMeasure μ] {ℋ : Filtration ℕ m0} {u : ℕ → Ω → Fin n → ℝ} {v : ℕ → Ω → V} (hv : Variates μ ℋ (uniforms n) νV u v) (type1 : Bool) (s0 : σ) (θ0 : σ → Fin n → ℝ) :
    ∃ best : σ → ℝ, e.BestExploring gamma ε best ∧ ∃ X : ℕ → Ω → Play σ n,
      (∀ k ω, Play.run lr mse1 (expectedSarsaOf n (epsilonGreedyLogits ε)) type1 (epsilonGreedyPi draw tau fun _ => ε) env (Play.init gamma s0 θ0) ((List.range k).map fun t => (u t ω, v t ω)) = .ok (X k ω)) ∧
      ∀ᵐ ω ∂μ, (∀ s a, Tendsto (fun k => (X k ω).q s a) atTop (𝓝 (∑ j, e.prob s a j * (e.reward s a j + if e.ends s a j then 0 else gamma * best (e.next s a j))))) ∧
        ∀ δ, 0 < δ → ∃ K, ∀ k, K ≤ k → ∀ s, ∃ x, e.Worth gamma 0 (calls draw tau fun s => epsilonGreedyLogits ε ((X k ω).q s)) s x ∧ best s - δ ≤ x := by
  obtain ⟨w, hw⟩ := exploring_solution he hn h0 h1 hε0 hε1
  have hsol : e.Solves gamma (fun _ row x => x = ownMean (epsilonGreedyLogits ε) row) (e.back gamma w) := ⟨w, hw, fun s a => rfl⟩
  obtain ⟨X, hrun, hae⟩ := Play.converges hv (rule_expectedSarsaOf hn type1 fun r1 r2 M hM => epsilonMean_close hε0 hε1 hn hM) hn he hc hg (tries_epsilon_greedy hn hd htau (fun _ => hε0) fun _ => hε1) h0 h1 hl hsol s0 θ0
  refine ⟨w, exploring_best he hn h0 h1 hε0 hε1 hw, X, hrun, ?_⟩
  filter_upwards [hae] with ω hconv
  refine ⟨hconv, fun δ hδ => ?_⟩
  have g2 : 0 < 1 - gamma := by linarith
  set η : ℝ := δ * (1 - gamma) / 2 with hη
  have hη0 : 0 < η := by positivity
  have c1 : ∀ᶠ k in atTop, ∀ s a, |(X k ω).q s a - e.back gamma w s a| ≤ η := by
    refine eventually_all.2 fun s => eventually_all.2 fun a => ?_
    filter_upwards [Metric.tendsto_nhds.1 (hconv s a) η hη0] with k hk
    exact hk.le
  obtain ⟨K, hK⟩ := eventually_atTop.1 c1
  refine ⟨K, fun k hk s => ?_⟩
  have k1 := hK k hk
  have hcp := calls_proper (m := m) hd hn htau fun s => epsilonGreedyLogits ε ((X k ω).q s)
  obtain ⟨x, hx⟩ := C121_value he h0 h1 0 hcp s
  refine ⟨x, hx, ?_⟩
  have := worth_ge (δ := 2 * η) he h0 h1 (by positivity) hcp (v := w) (fun h s => by
    rw [softValue_zero, calls_eq hd htau]
    show w s ≤ ∑ a, meanRow (epsilonGreedyLogits ε ((X k ω).q s)) a * e.back gamma w s a + 2 * η
    have d1 := abs_le.1 (epsilonMean_close hε0 hε1 hn (k1 s))
    have d3 : epsilonMean ε ((X k ω).q s) ≤ ∑ a, meanRow (epsilonGreedyLogits ε ((X k ω).q s)) a * e.back gamma w s a + η := by
      have hs : ∑ a, meanRow (epsilonGreedyLogits ε ((X k ω).q s)) a = 1 := (C49_probabilities _).2 hn
      calc _ ≤ ∑ a, (meanRow (epsilonGreedyLogits ε ((X k ω).q s)) a * e.back gamma w s a + meanRow (epsilonGreedyLogits ε ((X k ω).q s)) a * η) := Finset.sum_le_sum fun a _ => by
            rw [← mul_add]
            exact mul_le_mul_of_nonneg_left (by linarith [(abs_le.1 (k1 s a)).2]) ((C49_probabilities _).1 a).le
        _ = _ := by rw [Finset.sum_add_distrib, ← Finset.sum_mul, hs, one_mul]
    have d4 := hw s
    linarith [d1.1]) hx
  have e2 : 2 * η / (1 - gamma) = δ := by
    rw [hη]; field_simp
  rw [e2] at this
  linarith

/-! ### Near the optimal values -/

omit [DecidableEq σ] in
theorem back_below {e : Mdp σ n m} (he : e.Proper) {gamma : ℝ} (h0 : 0 ≤ gamma) {v w : σ → ℝ} {D : ℝ} (hD : 0 ≤ D) (h : ∀ s, v s ≤ w s + D) (s : σ) (a : Fin n) : e.back gamma v s a ≤ e.back gamma w s a + gamma * D := by
  unfold Mdp.back
  calc _ ≤ ∑ j, (e.prob s a j * (e.reward s a j + if e.ends s a j then 0 else gamma * w (e.next s a j)) + e.prob s a j * (gamma * D)) := by
        refine Finset.sum_le_sum fun j _ => ?_
        rw [← mul_add]
        refine mul_le_mul_of_nonneg_left ?_ (he.nonneg s a j)
        split
        · have : 0 ≤ gamma * D := by positivity
          linarith
        · have := mul_le_mul_of_nonneg_left (h (e.next s a j)) h0
          linarith
    _ = _ := by rw [Finset.sum_add_distrib, ← Finset.sum_mul, he.total, one_mul]

omit m0 [DecidableEq σ] in
theorem ownMean_le (hn : 0 < n) (logits : (Fin n → ℝ) → Fin n → ℝ) {row : Fin n → ℝ} {B : ℝ} (h : ∀ a, row a ≤ B) : ownMean logits row ≤ B := by
  unfold ownMean
  calc _ ≤ ∑ a, meanRow (logits row) a * B := Finset.sum_le_sum fun a _ => mul_le_mul_of_nonneg_left (h a) ((C49_probabilities _).1 a).le
    _ = B := by rw [← Finset.sum_mul, (C49_probabilities _).2 hn, one_mul]

omit [DecidableEq σ] in
/-- Values that are moved towards those of their own Boltzmann policies end up near the optimal ones. -/
theorem near_optimal [Fintype σ] (hn : 0 < n) {e : Mdp σ n m} (he : e.Proper) {gamma : ℝ} (h0 : 0 ≤ gamma) (h1 : gamma < 1) {best : σ → Fin n → ℝ} (hbest : e.Solves gamma Greedy best) {τ : ℕ → ℝ} {τ1 : ℝ} (hτ0 : ∀ t, 0 < τ t) (hτ1 : ∀ t, τ t ≤ τ1)
    {f : ℕ → σ → Fin n → ℝ} {b d : ℕ → σ × Fin n → ℝ} {B : ℝ} (hf : ∀ t s a, |f t s a| ≤ B) (hb : ∀ t p, 0 ≤ b t p ∧ b t p ≤ 1) (hsum : ∀ p, ¬ Summable fun t => b t p)
    (hd : ∀ p, ∃ S, Tendsto (fun t => ∑ k ∈ Finset.range t, d k p) atTop (𝓝 S))
    (hmove : ∀ t p, f (t + 1) p.1 p.2 = (1 - b t p) * f t p.1 p.2 + b t p * e.back gamma (fun s => ownMean (boltzmannLogits (τ t)) (f t s)) p.1 p.2 + d t p) {δ : ℝ} (hδ : 0 < δ) :
    ∀ᶠ t in atTop, ∀ s a, best s a - (gamma * (τ1 * Real.log n) / (1 - gamma) + δ) ≤ f t s a ∧ f t s a ≤ best s a + δ := by
  obtain ⟨v, hv, hback⟩ := hbest
  have hbk : ∀ p : σ × Fin n, best p.1 p.2 = e.back gamma v p.1 p.2 := fun p => hback p.1 p.2
  have hlog : 0 ≤ Real.log n := Real.log_natCast_nonneg n
  have hκ : 0 ≤ τ1 * Real.log n := mul_nonneg ((hτ0 0).le.trans (hτ1 0)) hlog
  obtain ⟨C, hC⟩ := bounded fun p : σ × Fin n => best p.1 p.2
  obtain ⟨V, hV⟩ := bounded v
  have hm : ∀ t (p : σ × Fin n), |e.back gamma (fun s => ownMean (boltzmannLogits (τ t)) (f t s)) p.1 p.2 - best p.1 p.2| ≤ gamma * (B + V) := by
    intro t p
    rw [hbk]
    exact back_close he h0 (fun s => (abs_sub _ _).trans (add_le_add (ownMean_bound hn _ (hf t s)) (hV s))) _ _
  have up := settles_below (f := fun t (p : σ × Fin n) => f t p.1 p.2) (fs := fun p => best p.1 p.2) (m := fun t p => e.back gamma (fun s => ownMean (boltzmannLogits (τ t)) (f t s)) p.1 p.2) (κ := 0) (M := B + C) (C := gamma * (B + V))
    (fun t p => (hb t p).1) (fun t p => (hb t p).2) hsum hmove hd h0 h1 le_rfl (fun t p => by have := abs_le.1 ((abs_sub _ _).trans (add_le_add (hf t p.1 p.2) (hC p))); exact this.2) (fun t p => (abs_le.1 (hm t p)).1) (fun t D hD hD' p => by
      have := back_below he h0 hD (v := fun s => ownMean (boltzmannLogits (τ t)) (f t s)) (w := v) (fun s => ownMean_le hn _ fun a => by
        have h2 := hD' (s, a)
        have h3 := (hv s).2 (Set.mem_range_self a)
        simp only at h2
        linarith) p.1 p.2
      rw [hbk]
      linarith) hδ
  have low := settles_below (f := fun t (p : σ × Fin n) => -f t p.1 p.2) (fs := fun p => -best p.1 p.2) (b := b) (d := fun t p => -d t p) (m := fun t p => -e.back gamma (fun s => ownMean (boltzmannLogits (τ t)) (f t s)) p.1 p.2) (κ := gamma * (τ1 * Real.log n)) (M := B + C) (C := gamma * (B + V))
    (fun t p => (hb t p).1) (fun t p => (hb t p).2) hsum (fun t p => by rw [hmove]; ring) (fun p => by
      obtain ⟨S, hS⟩ := hd p
      exact ⟨-S, by simpa [Finset.sum_neg_distrib] using hS.neg⟩) h0 h1 (by positivity) (fun t p => by have := abs_le.1 ((abs_sub _ _).trans (add_le_add (hf t p.1 p.2) (hC p))); linarith [this.1]) (fun t p => by linarith [(abs_le.1 (hm t p)).2]) (fun t D hD hD' p => by
      have := back_below he h0 (add_nonneg hD hκ) (v := v) (w := fun s => ownMean (boltzmannLogits (τ t)) (f t s)) (fun s => by
        obtain ⟨a, ha⟩ := (hv s).1
        have h2 := hD' (s, a)
        have h3 := boltzmann_gap hn (hτ0 t) (f t s) a
        have h4 := mul_le_mul_of_nonneg_right (hτ1 t) hlog
        simp only at h2
        unfold ownMean
        linarith) p.1 p.2
      rw [hbk]
      linarith) hδ
  filter_upwards [up, low] with t h2 h3 s a
  have h4 := h2 (s, a)
  have h5 := h3 (s, a)
  rw [zero_div] at h4
  simp only at h4 h5
  constructor <;> linarith

omit [DecidableEq σ] in
/-- The return of the Boltzmann policy on values near the optimal ones. -/
theorem near_return [Finite σ] (hn : 0 < n) {e : Mdp σ n m} (he : e.Proper) {gamma : ℝ} (h0 : 0 ≤ gamma) (h1 : gamma < 1) {best : σ → Fin n → ℝ} (hbest : e.Solves gamma Greedy best) {τ τ1 : ℝ} (hτ0 : 0 < τ) (hτ1 : τ ≤ τ1) {draw : List (Fin n) → Option (Fin n)} (hd : Draws draw)
    {tau : ℝ} (htau : 0 < tau) {q : σ → Fin n → ℝ} {δ : ℝ} (hδ : 0 < δ) (hq : ∀ s a, best s a - (gamma * (τ1 * Real.log n) / (1 - gamma) + δ) ≤ q s a ∧ q s a ≤ best s a + δ) (s : σ) :
    ∃ x, e.Worth gamma 0 (calls draw tau fun s => boltzmannLogits τ (q s)) s x ∧ ∀ (pi : Policy σ n m) y, pi.Proper → e.Worth gamma 0 pi s y → y ≤ x + (τ1 * Real.log n / (1 - gamma) + 2 * δ) / (1 - gamma) := by
  have g1 : 0 < 1 - gamma := by linarith
  have hlog : 0 ≤ Real.log n := Real.log_natCast_nonneg n
  have hκ : 0 ≤ τ1 * Real.log n := mul_nonneg (hτ0.le.trans hτ1) hlog
  have hcp := calls_proper (m := m) hd hn htau fun s => boltzmannLogits τ (q s)
  obtain ⟨x, hx⟩ := C121_value he h0 h1 0 hcp s
  obtain ⟨v, hv, hu, -⟩ := C121_optimal he h0 h1 hbest
  obtain ⟨v', hv', hb⟩ := hbest
  obtain rfl : v' = v := funext fun s => (hv' s).unique (hv s)
  have hbk : ∀ s, e.back gamma v' s = best s := fun s => funext fun a => (hb s a).symm
  refine ⟨x, hx, fun pi y hpi hy => ?_⟩
  have h2 := worth_ge (δ := τ1 * Real.log n / (1 - gamma) + 2 * δ) he h0 h1 (by positivity) hcp (v := v') (fun h s => by
    rw [softValue_zero, calls_eq hd htau, hbk]
    show v' s ≤ ∑ a, meanRow (boltzmannLogits τ (q s)) a * best s a + _
    obtain ⟨a, ha⟩ := (hv s).1
    have k1 := boltzmann_gap hn hτ0 (q s) a
    have k2 := mul_le_mul_of_nonneg_right hτ1 hlog
    have k3 : ∑ b, meanRow (boltzmannLogits τ (q s)) b * q s b ≤ ∑ b, meanRow (boltzmannLogits τ (q s)) b * best s b + δ := by
      have hs : ∑ b, meanRow (boltzmannLogits τ (q s)) b = 1 := (C49_probabilities _).2 hn
      calc _ ≤ ∑ b, (meanRow (boltzmannLogits τ (q s)) b * best s b + meanRow (boltzmannLogits τ (q s)) b * δ) := Finset.sum_le_sum fun b _ => by
            rw [← mul_add]
            exact mul_le_mul_of_nonneg_left (hq s b).2 ((C49_probabilities _).1 b).le
        _ = _ := by rw [Finset.sum_add_distrib, ← Finset.sum_mul, hs, one_mul]
    have k4 := (hq s a).1
    have k5 : gamma * (τ1 * Real.log n) / (1 - gamma) + τ1 * Real.log n = τ1 * Real.log n / (1 - gamma) := by field_simp; ring
    linarith) hx
  linarith [hu pi s y hpi hy]

/-- **C138**, the loop of `doc/examples/frozen_lake/expected_sarsa.py` with a table: `ExpectedSarsa(q, pi)` with `pi = BoltzmannPolicy(q, temperature)`, where the actions are drawn from `pi` too, in an environment that is connected.  Nothing raises.  Almost surely the
values end up, up to any margin, not above the optimal ones and at most `gamma * temperature * log n / (1 - gamma)` below them, and the return of the policy that acts is at most `temperature * log n / (1 - gamma) ^ 2` below the largest one. -/
theorem C138_boltzmann [Fintype σ] [MeasurableSpace V] (hn : 0 < n) {e : Mdp σ n m} (he : e.Proper) (hc : e.Connected) {gamma : ℝ} (h0 : 0 ≤ gamma) (h1 : gamma < 1) {νV : Measure V} {env : Game σ n V} {chance : σ → Fin n → V → Fin m}
    (hg : env.Is νV e chance) {lr : ℕ → ℝ} (hl : Slow lr) {draw : List (Fin n) → Option (Fin n)} (hd : Draws draw) {tau : ℝ} (htau : 0 < tau) {temperature : ℝ} (hτ : 0 < temperature)
    {μ : Measure Ω} [IsProbabilityMeasure μ] {ℋ : Filtration ℕ m0} {u : ℕ → Ω → Fin n → ℝ} {v : ℕ → Ω → V} (hv : Variates μ ℋ (uniforms n) νV u v) (type1 : Bool) (s0 : σ) (θ0 : σ → Fin n → ℝ) :
    ∃ best, e.Solves gamma Greedy best ∧ ∃ X : ℕ → Ω → Play σ n,
      (∀ k ω, Play.run lr mse1 (expectedSarsaOf n (boltzmannLogits temperature)) type1 (boltzmannPi draw tau fun _ => temperature) env (Play.init gamma s0 θ0) ((List.range k).map fun t => (u t ω, v t ω)) = .ok (X k ω)) ∧
      ∀ᵐ ω ∂μ, ∀ δ, 0 < δ → ∃ K, ∀ k, K ≤ k →
        (∀ s a, best s a - (gamma * (temperature * Real.log n) / (1 - gamma) + δ) ≤ (X k ω).q s a ∧ (X k ω).q s a ≤ best s a + δ) ∧
        ∀ s, ∃ x, e.Worth gamma 0 (calls draw tau fun s => boltzmannLogits temperature ((X k ω).q s)) s x ∧
          ∀ (pi : Policy σ n m) y, pi.Proper → e.Worth gamma 0 pi s y → y ≤ x + (temperature * Real.log n / (1 - gamma) + 2 * δ) / (1 - gamma) := by
  obtain ⟨best, hbest, -⟩ := mdp_solution (rule_qLearning (σ := σ) hn false) he h0 h1
  obtain ⟨X, B, hrun, -, hae⟩ := Play.expected hv hn he hc hg (tries_boltzmann hn hd htau hτ fun _ => le_rfl) (boltzmannLogits temperature) h0 h1 hl type1 s0 θ0
  refine ⟨best, hbest, X, hrun, ?_⟩
  filter_upwards [hae] with ω ⟨f, b, d, hf, hX, hb, hsum, hbz, hd', hmove⟩ δ hδ
  obtain ⟨K, hK⟩ := eventually_atTop.1 (near_optimal hn he h0 h1 hbest (τ := fun _ => temperature) (fun _ => hτ) (fun _ => le_rfl) hf hb hsum hd' hmove hδ)
  refine ⟨K + 1, fun k hk => ?_⟩
  obtain ⟨t, rfl⟩ : ∃ t, k = t + 1 := ⟨k - 1, by omega⟩
  have hq : ∀ s a, best s a - (gamma * (temperature * Real.log n) / (1 - gamma) + δ) ≤ (X (t + 1) ω).q s a ∧ (X (t + 1) ω).q s a ≤ best s a + δ := by
    rcases hX t with h | h <;> rw [h]
    · exact hK t (by omega)
    · exact hK (t + 1) (by omega)
  exact ⟨hq, near_return hn he h0 h1 hbest hτ le_rfl hd htau hδ hq⟩

/-- **C136**, `Sarsa` with actions from the Boltzmann policy on the values that have been learned so far, with temperatures between `τ0` and `τ1`.  Whether or not they converge, almost surely the values end up, up to any margin, not above the optimal ones and at most
`gamma * τ1 * log n / (1 - gamma)` below them, and the return of the policy that acts is at most `τ1 * log n / (1 - gamma) ^ 2` below the largest one. -/
theorem C136_boltzmann_near [Fintype σ] [MeasurableSpace V] (hn : 0 < n) {e : Mdp σ n m} (he : e.Proper) (hc : e.Connected) {gamma : ℝ} (h0 : 0 ≤ gamma) (h1 : gamma < 1) {νV : Measure V} {env : Game σ n V} {chance : σ → Fin n → V → Fin m}
    (hg : env.Is νV e chance) {lr : ℕ → ℝ} (hl : Slow lr) {draw : List (Fin n) → Option (Fin n)} (hd : Draws draw) {tau : ℝ} (htau : 0 < tau) {temperature : ℕ → ℝ} {τ0 τ1 : ℝ} (hτ : 0 < τ0) (ht0 : ∀ ep, τ0 ≤ temperature ep) (ht1 : ∀ ep, temperature ep ≤ τ1)
    {μ : Measure Ω} [IsProbabilityMeasure μ] {ℋ : Filtration ℕ m0} {u : ℕ → Ω → Fin n → ℝ} {v : ℕ → Ω → V} (hv : Variates μ ℋ (uniforms n) νV u v) (type1 : Bool) (s0 : σ) (θ0 : σ → Fin n → ℝ) :
    ∃ best, e.Solves gamma Greedy best ∧ ∃ X : ℕ → Ω → Play σ n,
      (∀ k ω, Play.run lr mse1 (sarsa n) type1 (boltzmannPi draw tau temperature) env (Play.init gamma s0 θ0) ((List.range k).map fun t => (u t ω, v t ω)) = .ok (X k ω)) ∧
      ∀ᵐ ω ∂μ, ∀ δ, 0 < δ → ∃ K, ∀ k, K ≤ k →
        (∀ s a, best s a - (gamma * (τ1 * Real.log n) / (1 - gamma) + δ) ≤ (X k ω).q s a ∧ (X k ω).q s a ≤ best s a + δ) ∧
        ∀ s, ∃ x, e.Worth gamma 0 (calls draw tau fun s => boltzmannLogits (temperature (X k ω).ep) ((X k ω).q s)) s x ∧
          ∀ (pi : Policy σ n m) y, pi.Proper → e.Worth gamma 0 pi s y → y ≤ x + (τ1 * Real.log n / (1 - gamma) + 2 * δ) / (1 - gamma) := by
  obtain ⟨best, hbest, -⟩ := mdp_solution (rule_qLearning (σ := σ) hn false) he h0 h1
  have hreal : ∀ ep row a, (uniforms n).real {u | boltzmannPi draw tau temperature ep row u = some a} = meanRow (boltzmannLogits (temperature ep) row) a := by
    intro ep row a
    unfold boltzmannPi policyCall
    rw [Measure.real]
    dsimp only
    rw [C62_sample_distribution hd htau _ a, ENNReal.toReal_ofReal ((C49_probabilities _).1 a).le]
  obtain ⟨X, B, hrun, -, hae⟩ := Play.sarsa hv hn he hc hg (tries_boltzmann hn hd htau hτ ht0) hreal (fun ep row a => ((C49_probabilities _).1 a).le) (fun ep row => (C49_probabilities _).2 hn) h0 h1 hl type1 s0 θ0
  refine ⟨best, hbest, X, hrun, ?_⟩
  filter_upwards [hae] with ω ⟨f, b, d, hf, hX, hb, hsum, hbz, hd', hmove⟩ δ hδ
  obtain ⟨K, hK⟩ := eventually_atTop.1 (near_optimal hn he h0 h1 hbest (τ := fun t => temperature (X t ω).ep) (fun _ => hτ.trans_le (ht0 _)) (fun _ => ht1 _) hf hb hsum hd' hmove hδ)
  refine ⟨K + 1, fun k hk => ?_⟩
  obtain ⟨t, rfl⟩ : ∃ t, k = t + 1 := ⟨k - 1, by omega⟩
  have hq : ∀ s a, best s a - (gamma * (τ1 * Real.log n) / (1 - gamma) + δ) ≤ (X (t + 1) ω).q s a ∧ (X (t + 1) ω).q s a ≤ best s a + δ := by
    rcases hX t with h | h <;> rw [h]
    · exact hK t (by omega)
    · exact hK (t + 1) (by omega)
  exact ⟨hq, near_return hn he h0 h1 hbest (hτ.trans_le (ht0 _)) (ht1 _) hd htau hδ hq⟩

/-- **C138**, the same loop: if the values converge, then to the values of the Boltzmann policy that uses these values itself. -/
theorem C138_boltzmann_limit [Fintype σ] [MeasurableSpace V] (hn : 0 < n) {e : Mdp σ n m} (he : e.Proper) (hc : e.Connected) {gamma : ℝ} (h0 : 0 ≤ gamma) (h1 : gamma < 1) {νV : Measure V} {env : Game σ n V} {chance : σ → Fin n → V → Fin m}
    (hg : env.Is νV e chance) {lr : ℕ → ℝ} (hl : Slow lr) {draw : List (Fin n) → Option (Fin n)} (hd : Draws draw) {tau : ℝ} (htau : 0 < tau) {temperature : ℝ} (hτ : 0 < temperature)
    {μ : Measure Ω} [IsProbabilityMeasure μ] {ℋ : Filtration ℕ m0} {u : ℕ → Ω → Fin n → ℝ} {v : ℕ → Ω → V} (hv : Variates μ ℋ (uniforms n) νV u v) (type1 : Bool) (s0 : σ) (θ0 : σ → Fin n → ℝ) :
    ∃ X : ℕ → Ω → Play σ n,
      (∀ k ω, Play.run lr mse1 (expectedSarsaOf n (boltzmannLogits temperature)) type1 (boltzmannPi draw tau fun _ => temperature) env (Play.init gamma s0 θ0) ((List.range k).map fun t => (u t ω, v t ω)) = .ok (X k ω)) ∧
      ∀ᵐ ω ∂μ, ∀ q : σ → Fin n → ℝ, (∀ s a, Tendsto (fun k => (X k ω).q s a) atTop (𝓝 (q s a))) →
        ∃ w : σ → ℝ, (∀ s, e.Worth gamma 0 (calls draw tau fun s => boltzmannLogits temperature (q s)) s (w s)) ∧ ∀ s a, q s a = ∑ j, e.prob s a j * (e.reward s a j + if e.ends s a j then 0 else gamma * w (e.next s a j)) := by
  obtain ⟨X, B, hrun, -, hae⟩ := Play.expected hv hn he hc hg (tries_boltzmann hn hd htau hτ fun _ => le_rfl) (boltzmannLogits temperature) h0 h1 hl type1 s0 θ0
  refine ⟨X, hrun, ?_⟩
  filter_upwards [hae] with ω ⟨f, b, d, hf, hX, hb, hsum, hbz, hd', hmove⟩ q hq
  exact own_limit hn he h0 h1 hd htau (x := fun k => (X k ω).q) (T := fun _ => temperature) hf hX hb hsum hbz hd' hmove hτ tendsto_const_nhds hq

/-- The hypotheses can be met: one state, where the first action pays 1 and ends the episode with probability a half and the second one pays 1/4, temperature 0.1; the optimal value of the first action is 2/3. -/
theorem C138_example {draw : List (Fin 2) → Option (Fin 2)} (hd : Draws draw) (θ0 : Unit → Fin 2 → ℝ) :
    ∃ (u : ℕ → (ℕ → (Fin 2 → ℝ) × Bool) → Fin 2 → ℝ) (v : ℕ → (ℕ → (Fin 2 → ℝ) × Bool) → Bool) (X : ℕ → (ℕ → (Fin 2 → ℝ) × Bool) → Play Unit 2),
      (∀ k ω, Play.run (fun t => 1 / ((t : ℝ) + 1)) mse1 (expectedSarsaOf 2 (boltzmannLogits 0.1)) false (boltzmannPi draw 1 fun _ => 0.1) gambleEnv (Play.init (1 / 2) () θ0) ((List.range k).map fun t => (u t ω, v t ω)) = .ok (X k ω)) ∧
      ∀ᵐ ω ∂(Measure.infinitePi fun _ : ℕ => (uniforms 2).prod (PMF.uniformOfFintype Bool).toMeasure), ∃ K, ∀ k, K ≤ k → 0.58 ≤ (X k ω).q () 0 ∧ (X k ω).q () 0 ≤ 0.68 := by
  obtain ⟨ℋ, u, v, hv⟩ := C131_variates (uniforms 2) (PMF.uniformOfFintype Bool).toMeasure
  obtain ⟨best, hbest, X, hrun, hae⟩ := C138_boltzmann (by norm_num) gamble_proper (fun _ _ => .refl) (gamma := 1 / 2) (by norm_num) (by norm_num) gambleEnv_is slow_harmonic hd one_pos (temperature := 0.1) (by norm_num) hv false () θ0
  refine ⟨u, v, X, hrun, ?_⟩
  have e0 : best () 0 = 2 / 3 := by
    obtain ⟨b', -, huniq⟩ := mdp_solution (rule_qLearning (σ := Unit) (n := 2) (by norm_num) false) gamble_proper (gamma := 1 / 2) (by norm_num) (by norm_num)
    have := (huniq _ hbest).trans (huniq _ gamble_solves).symm
    rw [this]
    exact if_pos rfl
  filter_upwards [hae] with ω hω
  obtain ⟨K, hK⟩ := hω 0.01 (by norm_num)
  refine ⟨K, fun k hk => ?_⟩
  have h1 := (hK k hk).1 () 0
  rw [e0] at h1
  have h2 := Real.log_two_lt_d9
  have h3 : (1 / 2 : ℝ) * (0.1 * Real.log ((2 : ℕ) : ℝ)) / (1 - 1 / 2) = 0.1 * Real.log 2 := by push_cast; ring
  rw [h3] at h1
  constructor <;> linarith [h1.1, h1.2]

end Coax.Loop
