import Verif.Loop.PlannerLemmas
import Verif.Loop.SarsaProps

/-! Property C140: `SimpleTD`, with actions from a policy that looks one step ahead with the values that are being learned. -/

namespace Coax.Loop

open Coax.RewardTracing Coax.TD Coax.Core Coax.Values Coax.Pol Coax.Dists Filter Topology MeasureTheory

variable {σ κ Ω U V : Type _} {n m : Nat} {m0 : MeasurableSpace Ω}

/-! ### Specification -/

/-- How often the actions are chosen if this function is called with random numbers. -/
noncomputable def asPolicy [MeasurableSpace U] (νU : Measure U) (f : σ → U → Option (Fin n)) : Policy σ n m := fun _ s a => νU.real {u | f s u = some a}

/-! ### Lemmas -/

theorem epsilon_real {draw : List (Fin n) → Option (Fin n)} (hd : Draws draw) {tau : ℝ} (htau : 0 < tau) (epsilon : ℕ → ℝ) (ep : ℕ) (row : Fin n → ℝ) (a : Fin n) :
    (uniforms n).real {u | epsilonGreedyPi draw tau epsilon ep row u = some a} = meanRow (epsilonGreedyLogits (epsilon ep) row) a := by
  unfold epsilonGreedyPi policyCall
  rw [Measure.real]
  dsimp only
  rw [C62_sample_distribution hd htau _ a, ENNReal.toReal_ofReal ((C49_probabilities _).1 a).le]

theorem mean_close (hn : 0 < n) (z : Fin n → ℝ) {q1 q2 : Fin n → ℝ} {M : ℝ} (hM : ∀ a, |q1 a - q2 a| ≤ M) : |∑ a, meanRow z a * q1 a - ∑ a, meanRow z a * q2 a| ≤ M := by
  rw [← Finset.sum_sub_distrib]
  calc _ ≤ ∑ a, |meanRow z a * q1 a - meanRow z a * q2 a| := Finset.abs_sum_le_sum_abs _ _
    _ ≤ ∑ a, meanRow z a * M := Finset.sum_le_sum fun a _ => by
        rw [← mul_sub, abs_mul, abs_of_nonneg ((C49_probabilities z).1 a).le]
        exact mul_le_mul_of_nonneg_left (hM a) ((C49_probabilities z).1 a).le
    _ = M := by rw [← Finset.sum_mul, (C49_probabilities z).2 hn, one_mul]

theorem lr_vanishes {lr : ℕ → ℝ} (hl : Slow lr) : Tendsto lr atTop (𝓝 0) := by
  have h3 := (Real.continuous_sqrt.tendsto 0).comp hl.squares.tendsto_atTop_zero
  rw [Real.sqrt_zero] at h3
  exact h3.congr fun t => Real.sqrt_sq (hl.nonneg t)

variable [DecidableEq σ] [DecidableEq κ] [Fintype σ] [Fintype κ]

/-! ### The properties -/

/-- **C140**, the loop of `doc/examples/cartpole/model_based.py` with a table: `SimpleTD`, where the actions are asPolicy from the epsilon-greedy policy on `SuccessorStateQ` with the values that have been learned so far, in an environment that is
connected.  Nothing raises.  Almost surely, if the values of `epsilon` that are used converge, then the values converge to the largest returns among the policies that explore as much as `EpsilonGreedy`, and the return of the policy that acts comes
as close to these as one likes.  (Missing: transition models that are learned or not exact, and initial values other than zero of the states in which episodes end, for which it is false.) -/
theorem C140_planner_partial [MeasurableSpace V] (hn : 0 < n) {e : Mdp σ n m} (he : e.Proper) (hc : e.Connected) {gamma : ℝ} (h0 : 0 ≤ gamma) (h1 : gamma < 1) {νV : Measure V} {env : Game σ n V} {chance : σ → Fin n → V → Fin m}
    (hg : env.Is νV e chance) {last : σ → Fin n → Fin m → κ} {p : Func (σ ⊕ κ → ℝ) (List ℝ) (σ ⊕ κ → ℝ)} {r : Func (σ ⊕ κ → ℝ) (List ℝ) ℝ} (hx : Exact e last p r) {lr : ℕ → ℝ} (hl : Slow lr)
    {draw : List (Fin n) → Option (Fin n)} (hd : Draws draw) {tau : ℝ} (htau : 0 < tau) {epsilon : ℕ → ℝ} (hε0 : ∀ ep, 0 ≤ epsilon ep) (hε1 : ∀ ep, epsilon ep ≤ 1)
    {μ : Measure Ω} [IsProbabilityMeasure μ] {ℋ : Filtration ℕ m0} {u : ℕ → Ω → Fin n → ℝ} {v : ℕ → Ω → V} (hv : Variates μ ℋ (uniforms n) νV u v) (s0 : σ) {θ0 : σ ⊕ κ → ℝ} (hz : ∀ k, θ0 (.inr k) = 0) :
    ∃ best : ℝ → σ → ℝ, (∀ ε, 0 ≤ ε → ε ≤ 1 → e.BestExploring gamma ε (best ε)) ∧ ∃ X : ℕ → Ω → Acting (σ ⊕ κ → ℝ) σ n,
      (∀ k ω, Acting.run (updateSimple lr mse1) (lookahead p r gamma (epsilonGreedyPi draw tau epsilon)) env (Acting.init gamma s0 θ0) ((List.range k).map fun t => (u t ω, v t ω)) = .ok (X k ω)) ∧
      (∀ k ω, (X k ω).ep ≤ (X (k + 1) ω).ep) ∧
      ∀ᵐ ω ∂μ, ∀ ε, Tendsto (fun k => epsilon (X k ω).ep) atTop (𝓝 ε) →
        (∀ s, Tendsto (fun k => (X k ω).params (.inl s)) atTop (𝓝 (best ε s))) ∧
        ∀ δ, 0 < δ → ∃ K, ∀ k, K ≤ k → ∀ s, ∃ x, e.Worth gamma 0 (asPolicy (uniforms n) (lookahead p r gamma (epsilonGreedyPi draw tau epsilon) (X k ω).ep (X k ω).params)) s x ∧ best ε s - δ ≤ x := by
  classical
  have hsol : ∀ ε : ℝ, ∃ w : σ → ℝ, 0 ≤ ε → ε ≤ 1 → ∀ s, w s = epsilonMean ε (e.back gamma w s) := fun ε => by
    by_cases h : 0 ≤ ε ∧ ε ≤ 1
    · obtain ⟨w, hw⟩ := exploring_solution he hn h0 h1 h.1 h.2
      exact ⟨w, fun _ _ => hw⟩
    · exact ⟨fun _ => 0, fun g0 g1 => absurd ⟨g0, g1⟩ h⟩
  choose best hbest using hsol
  obtain ⟨X, B, hrun, hmono, hzero, hae⟩ := Acting.plan hv hn he hc hg hx (tries_epsilon_greedy hn hd htau hε0 hε1) (epsilon_real hd htau epsilon) (fun ep row a => ((C49_probabilities _).1 a).le) (fun ep row => (C49_probabilities _).2 hn) h0 h1 hl s0 hz
  refine ⟨best, fun ε g0 g1 => exploring_best he hn h0 h1 g0 g1 (hbest ε g0 g1), X, hrun, hmono, ?_⟩
  filter_upwards [hae] with ω ⟨f, b, d, hf, hstep, hX, hb, hsum, hd', hmove⟩ ε hε
  have g0 : 0 ≤ ε := ge_of_tendsto' hε fun k => hε0 _
  have g1 : ε ≤ 1 := le_of_tendsto' hε fun k => hε1 _
  have hw := hbest ε g0 g1
  set w := best ε
  obtain ⟨C, hC⟩ := bounded fun p : σ × Fin n => e.back gamma w p.1 p.2
  obtain ⟨D, hD⟩ := bounded fun p : σ × Fin n => e.back gamma (fun _ => 0) p.1 p.2
  obtain ⟨E, hE⟩ := bounded w
  let y : ℕ → σ → ℝ := fun t s => (X t ω).params (.inl s)
  have hconv : ∀ s, Tendsto (fun k => y k s) atTop (𝓝 (w s)) := by
    intro s
    refine either_tendsto (x := fun t => f t s) (fun t => (hX t).imp (fun h => h s) (fun h => h s)) ?_
    let T : (σ → ℝ) → σ → ℝ := fun g s => epsilonMean ε (e.back gamma g s)
    have hT : Attracts T w gamma := by
      intro g M hM s
      rw [hw s]
      exact epsilonMean_close g0 g1 hn fun a => back_close he h0 hM s a
    have hM : ∀ t s, |f t s - w s| ≤ B + E := fun t s => (abs_sub _ _).trans (add_le_add (hf t _) (hE s))
    let r : ℕ → σ → ℝ := fun t s => ∑ a, meanRow (epsilonGreedyLogits (epsilon (X t ω).ep) (e.back gamma (y t) s)) a * e.back gamma (f t) s a - epsilonMean ε (e.back gamma (f t) s)
    have hr : ∀ s, Tendsto (fun t => r t s) atTop (𝓝 0) := by
      intro s
      rw [← tendsto_add_atTop_iff_nat 1]
      have hz : Tendsto (fun t => gamma * (2 * B * lr t) + gamma * (2 * B * lr t) + n * (|epsilon (X (t + 1) ω).ep - ε| * (gamma * B + D))) atTop (𝓝 0) := by
        have z1 := ((lr_vanishes hl).const_mul (2 * B)).const_mul gamma
        have z2 := (((tendsto_sub_nhds_zero_iff.2 hε).comp (tendsto_add_atTop_nat 1)).abs.mul_const (gamma * B + D)).const_mul (n : ℝ)
        simpa using (z1.add z1).add z2
      refine squeeze_zero_norm (fun t => ?_) hz
      rw [Real.norm_eq_abs]
      have hy : ∀ s, |f (t + 1) s - y (t + 1) s| ≤ 2 * B * lr t := by
        intro s
        rcases hX t with h | h
        · simp only [y, h]; exact hstep t s
        · simp only [y, h, sub_self, abs_zero]
          exact (abs_nonneg _).trans (hstep t s)
      have a1 := mean_close hn (epsilonGreedyLogits (epsilon (X (t + 1) ω).ep) (e.back gamma (y (t + 1)) s)) fun a => back_close he h0 hy s a
      have a2 := epsilonMean_close (hε0 (X (t + 1) ω).ep) (hε1 _) hn fun a => back_close he h0 (fun s => (abs_sub_comm _ _).trans_le (hy s)) s a
      have a3 := epsilonMean_drift (hε0 (X (t + 1) ω).ep) (hε1 _) g0 g1 (row := e.back gamma (f (t + 1)) s) (B := gamma * B + D) fun a => by
        have := back_close he h0 (v := f (t + 1)) (w := fun _ => 0) (M := B) (fun s => by rw [sub_zero]; exact hf _ _) s a
        have h2 := hD (s, a)
        calc _ = |(e.back gamma (f (t + 1)) s a - e.back gamma (fun _ => 0) s a) + e.back gamma (fun _ => 0) s a| := by rw [sub_add_cancel]
          _ ≤ _ := (abs_add_le _ _).trans (add_le_add this h2)
      have a4 : r (t + 1) s = (∑ a, meanRow (epsilonGreedyLogits (epsilon (X (t + 1) ω).ep) (e.back gamma (y (t + 1)) s)) a * e.back gamma (f (t + 1)) s a -
            ∑ a, meanRow (epsilonGreedyLogits (epsilon (X (t + 1) ω).ep) (e.back gamma (y (t + 1)) s)) a * e.back gamma (y (t + 1)) s a) +
          (epsilonMean (epsilon (X (t + 1) ω).ep) (e.back gamma (y (t + 1)) s) - epsilonMean (epsilon (X (t + 1) ω).ep) (e.back gamma (f (t + 1)) s)) +
          (epsilonMean (epsilon (X (t + 1) ω).ep) (e.back gamma (f (t + 1)) s) - epsilonMean ε (e.back gamma (f (t + 1)) s)) := by
        simp only [r, epsilonMean]
        ring
      rw [a4]
      exact (abs_add_le _ _).trans (add_le_add ((abs_add_le _ _).trans (add_le_add a1 a2)) a3)
    have hN : Noisy T f f b (fun t p => d t p + b t p * r t p) (fun _ => 1) := {
      b_nonneg := fun t p => (hb t p).1
      b_le := fun t p => (hb t p).2
      move := fun t p => by
        have h5 := hmove t p
        simp only [T, r, y]
        rw [h5]
        ring
      tau_nonneg := fun _ => zero_le_one
      tau_le := fun _ => le_rfl
      sync := fun t p => by ring }
    exact (hN.converges_drift hT h0 h1 hsum (fun h => by simpa using h.tendsto_atTop_zero) hd' hr (fun t p => ⟨hM t p, hM t p⟩) s).1
  refine ⟨hconv, fun δ hδ => ?_⟩
  have g2 : 0 < 1 - gamma := by linarith
  set η : ℝ := δ * (1 - gamma) / 3 with hη
  have hη0 : 0 < η := by positivity
  have c1 : ∀ᶠ k in atTop, ∀ s, |y k s - w s| ≤ η := by
    refine eventually_all.2 fun s => ?_
    filter_upwards [Metric.tendsto_nhds.1 (hconv s) η hη0] with k hk
    exact hk.le
  have c2 : ∀ᶠ k in atTop, n * (|epsilon (X k ω).ep - ε| * C) < η := by
    have : Tendsto (fun k => n * (|epsilon (X k ω).ep - ε| * C)) atTop (𝓝 0) := by
      have := ((tendsto_sub_nhds_zero_iff.2 hε).abs.mul_const C).const_mul (n : ℝ)
      simpa using this
    exact this.eventually_lt_const hη0
  obtain ⟨K, hK⟩ := eventually_atTop.1 (c1.and c2)
  refine ⟨K, fun k hk s => ?_⟩
  obtain ⟨k1, k2⟩ := hK k hk
  have hpol : asPolicy (m := m) (uniforms n) (lookahead p r gamma (epsilonGreedyPi draw tau epsilon) (X k ω).ep (X k ω).params) = stationary fun s => meanRow (epsilonGreedyLogits (epsilon (X k ω).ep) (e.back gamma (y k) s)) := by
    funext h s a
    unfold asPolicy stationary
    simp only [lookahead_eq hn hx, seen_zero e last gamma (hzero k ω)]
    exact epsilon_real hd htau epsilon _ _ a
  rw [hpol]
  have hcp : (stationary (m := m) fun s => meanRow (epsilonGreedyLogits (epsilon (X k ω).ep) (e.back gamma (y k) s))).Proper := fun _ s => ⟨fun a => ((C49_probabilities _).1 a).le, (C49_probabilities _).2 hn⟩
  obtain ⟨x, hx⟩ := C121_value he h0 h1 0 hcp s
  refine ⟨x, hx, ?_⟩
  have := worth_ge (δ := 3 * η) he h0 h1 (by positivity) hcp (v := w) (fun h s => by
    rw [softValue_zero]
    show w s ≤ ∑ a, meanRow (epsilonGreedyLogits (epsilon (X k ω).ep) (e.back gamma (y k) s)) a * e.back gamma w s a + 3 * η
    have k3 : ∀ a, |e.back gamma (y k) s a - e.back gamma w s a| ≤ η := fun a => (back_close he h0 k1 s a).trans (mul_le_of_le_one_left hη0.le h1.le)
    have d1 := abs_le.1 (epsilonMean_close (hε0 (X k ω).ep) (hε1 _) hn k3)
    have d2 := abs_le.1 ((epsilonMean_drift (hε0 (X k ω).ep) (hε1 _) g0 g1 fun a => hC (s, a)).trans k2.le)
    have d3 := abs_le.1 (mean_close hn (epsilonGreedyLogits (epsilon (X k ω).ep) (e.back gamma (y k) s)) k3)
    have d4 := hw s
    have d5 : epsilonMean (epsilon (X k ω).ep) (e.back gamma (y k) s) = ∑ a, meanRow (epsilonGreedyLogits (epsilon (X k ω).ep) (e.back gamma (y k) s)) a * e.back gamma (y k) s a := rfl
    linarith [d1.1, d2.1, d3.2]) hx
  have e2 : 3 * η / (1 - gamma) = δ := by
    rw [hη]; field_simp
  rw [e2] at this
  linarith

/-! ### Values of the states in which episodes end -/

/-- One state; the first action ends the episode with the reward 0, the second gives the reward 1 and the episode goes on. -/
def quit : Mdp Unit 2 1 := ⟨fun _ _ _ => 1, fun _ a _ => if a = 0 then 0 else 1, fun _ _ _ => (), fun _ a _ => a == 0⟩

/-- This environment. -/
def quitEnv : Game Unit 2 Unit := ⟨fun _ a _ => ((), if a = 0 then 0 else 1, a == 0), fun _ => ()⟩

/-- A transition model for it, of type 2 ... -/
def quitP : Func (Unit ⊕ Unit → ℝ) (List ℝ) (Unit ⊕ Unit → ℝ) := .type2 fun S => S.map fun _ => (List.range 2).map fun a => oneHotState (if a = 0 then .inr () else .inl ())

/-- ... and a reward function. -/
def quitR : Func (Unit ⊕ Unit → ℝ) (List ℝ) ℝ := .type2 fun S => S.map fun _ => (List.range 2).map fun a => if a = 0 then 0 else 1

theorem quit_proper : quit.Proper := ⟨fun _ _ _ => zero_le_one, fun _ _ => by simp [quit]⟩

theorem quit_is : quitEnv.Is (Measure.dirac ()) quit (fun _ _ _ => 0) where
  measurable _ _ _ := Set.Countable.measurableSet (Set.to_countable _)
  law _ a j := by
    have : {v : Unit | (0 : Fin 1) = j} = Set.univ := by ext; simp [Subsingleton.elim j 0]
    rw [this]
    simp [quit]
  reward _ _ _ := rfl
  ends _ _ _ := rfl
  next _ _ _ := by simp [quitEnv, quit]

theorem quit_exact : Exact quit (fun _ _ _ => ()) quitP quitR where
  p := ⟨_, .type2 _ (fun _ => rfl), fun s a => by fin_cases a <;> simp [quit]⟩
  r := ⟨_, .type2 _ (fun _ => rfl), fun s a => by fin_cases a <;> simp [quit]⟩

theorem quit_best {gamma : ℝ} (h0 : 0 ≤ gamma) (h1 : gamma < 1) {best : Unit → ℝ} (hb : quit.BestExploring gamma 0 best) : 1 / 2 ≤ best () := by
  let pi : Policy Unit 2 1 := stationary fun _ a => if a = 0 then 1e-15 / (1 + 2 * 1e-15) else (1 + 1e-15) / (1 + 2 * 1e-15)
  have hp : pi.Proper := fun _ s => ⟨fun a => by simp only [pi, stationary]; split <;> positivity, by simp only [pi, stationary, Fin.sum_univ_two]; norm_num⟩
  obtain ⟨x, hx⟩ := C121_value quit_proper h0 h1 0 hp ()
  have h2 : x ≤ best () := (hb ()).2 ⟨pi, hp, fun h s a => by simp only [pi, stationary]; split <;> norm_num, hx⟩
  have h3 := worth_ge (δ := 0) quit_proper h0 h1 le_rfl hp (v := fun _ => 1 / 2) (fun h s => by
    rw [softValue_zero, Fin.sum_univ_two]
    simp only [pi, stationary, Mdp.back, quit]
    norm_num
    nlinarith) hx
  simp only [zero_div, add_zero] at h3
  linarith

/-- The claim of C140 is false if the state in which an episode has ended has a value: `SuccessorStateQ` adds it to the value of actions that end the episode, and no update ever changes it.  Here this state has the value `(M + 1) / gamma` with
`M = 1 / (1 - gamma)`, and the other state any value up to `M`.  Then at all times, whatever the learning rates and random numbers are, the policy that acts (with `epsilon = 0` as in the example) ends the episode at once and is worth almost nothing,
while there are policies that explore as much and are worth at least 1/2. -/
theorem C140_terminal_counterexample {gamma : ℝ} (h0 : 0 < gamma) (h1 : gamma < 1) {lr : ℕ → ℝ} (l0 : ∀ k, 0 ≤ lr k) (l1 : ∀ k, lr k ≤ 1) {draw : List (Fin 2) → Option (Fin 2)} (hd : Draws draw) {tau : ℝ} (htau : 0 < tau)
    {θ0 : Unit ⊕ Unit → ℝ} (hin : θ0 (.inl ()) ≤ 1 / (1 - gamma)) (hend : θ0 (.inr ()) = (1 / (1 - gamma) + 1) / gamma) (ws : ℕ → (Fin 2 → ℝ) × Unit) (k : ℕ) :
    ∃ X, Acting.run (updateSimple lr mse1) (lookahead quitP quitR gamma (epsilonGreedyPi draw tau fun _ => 0)) quitEnv (Acting.init gamma () θ0) ((List.range k).map ws) = .ok X ∧
      (∀ x, quit.Worth gamma 0 (asPolicy (uniforms 2) (lookahead quitP quitR gamma (epsilonGreedyPi draw tau fun _ => 0) X.ep X.params)) () x → x ≤ 2e-15) ∧
      ∃ best, quit.BestExploring gamma 0 best ∧ 1 / 2 ≤ best () := by
  have g1 : 0 < 1 - gamma := by linarith
  set M := 1 / (1 - gamma) with hM
  have hMe : 1 + gamma * M = M := by rw [hM]; field_simp; ring
  have hM1 : 1 ≤ M := by rw [hM, le_div_iff₀ g1]; linarith
  have hlook : ∀ ep (θ : Unit ⊕ Unit → ℝ) s u, lookahead quitP quitR gamma (epsilonGreedyPi draw tau fun _ => 0) ep θ s u = epsilonGreedyPi draw tau (fun _ => 0) ep (quit.seen (fun _ _ _ => ()) gamma θ s) u := fun ep θ s u =>
    lookahead_eq (by norm_num) quit_exact gamma _ ep θ s u
  have hacc : Accepts (σ := Unit) (updateSimple (n := 2) lr mse1) gamma fun R (θ : Unit ⊕ Unit → ℝ) => R ≤ 1 → θ (.inl ()) ≤ M ∧ θ (.inr ()) = (M + 1) / gamma := by
    intro k x y d hw θ
    refine ⟨_, updateSimple_eq lr gamma k x y d hw θ, fun R hR hP hR1 => ⟨?_, ?_⟩⟩
    · obtain ⟨p1, p2⟩ := hP hR1
      unfold simpleMove
      rw [if_pos rfl]
      have hT : (x.r + if d then 0 else gamma * θ (.inl y.s)) ≤ M := by
        have h2 : x.r ≤ 1 := (le_abs_self _).trans (hR.trans hR1)
        split
        · linarith
        · have := mul_le_mul_of_nonneg_left p1 h0.le
          rw [show y.s = () from rfl]
          linarith
      have a1 := mul_le_mul_of_nonneg_left hT (l0 k)
      have a2 := mul_le_mul_of_nonneg_left p1 (sub_nonneg.2 (l1 k))
      linarith
    · unfold simpleMove
      rw [if_neg (by simp), (hP hR1).2]
      ring
  choose A hA using (tries_epsilon_greedy (n := 2) (by norm_num) hd htau (epsilon := fun _ => 0) (fun _ => le_rfl) (fun _ => zero_le_one)).answers
  have ok := fun k => Acting.path_ok (pi := lookahead quitP quitR gamma (epsilonGreedyPi draw tau fun _ => 0)) (A := fun ep θ s u => A ep (quit.seen (fun _ _ _ => ()) gamma θ s) u) hacc h0.le h1.le (fun ep θ s u => by rw [hlook]; exact hA _ _ _) quitEnv () θ0 ws k
  refine ⟨Acting.path (updateSimple lr mse1) (lookahead quitP quitR gamma (epsilonGreedyPi draw tau fun _ => 0)) quitEnv (Acting.init gamma () θ0) ws k, ?_, fun x hx => ?_, ?_⟩
  · induction k with
    | zero => rfl
    | succ k ih =>
      rw [List.range_succ, List.map_append, List.map_singleton, Acting.run_append ih]
      exact (ok k).2.1
  · obtain ⟨p1, p2⟩ := (ok k).2.2 1 (fun s a v => by simp only [quitEnv]; split <;> simp) (fun _ => ⟨hin, hend⟩) le_rfl
    set Y := Acting.path (updateSimple lr mse1) (lookahead quitP quitR gamma (epsilonGreedyPi draw tau fun _ => 0)) quitEnv (Acting.init gamma () θ0) ws k
    have hs0 : quit.seen (fun _ _ _ => ()) gamma Y.params () 0 = M + 1 := by
      simp only [Mdp.seen, quit]
      simp [p2]
      field_simp
    have hs1 : quit.seen (fun _ _ _ => ()) gamma Y.params () 1 ≤ M := by
      simp only [Mdp.seen, quit]
      simp
      have := mul_le_mul_of_nonneg_left p1 h0.le
      linarith
    have hgr : (1 : Fin 2) ∉ Core.greedy (quit.seen (fun _ _ _ => ()) gamma Y.params ()) := by
      simp only [Core.greedy, Finset.mem_filter, Finset.mem_univ, true_and, not_forall, not_le]
      exact ⟨0, by rw [hs0]; linarith⟩
    have hpol : asPolicy (m := 1) (uniforms 2) (lookahead quitP quitR gamma (epsilonGreedyPi draw tau fun _ => 0) Y.ep Y.params) = stationary fun s => meanRow (epsilonGreedyLogits 0 (quit.seen (fun _ _ _ => ()) gamma Y.params s)) := by
      funext h s a
      unfold asPolicy stationary
      simp only [hlook]
      exact epsilon_real hd htau (fun _ => 0) _ _ a
    rw [hpol] at hx
    have hcp : (stationary (m := 1) fun s => meanRow (epsilonGreedyLogits 0 (quit.seen (fun _ _ _ => ()) gamma Y.params s))).Proper := fun _ s => ⟨fun a => ((C49_probabilities _).1 a).le, (C49_probabilities _).2 (by norm_num)⟩
    have := worth_le (δ := 0) quit_proper h0.le h1 le_rfl hcp (v := fun _ => 2e-15) (fun h s => by
      rw [softValue_zero, Fin.sum_univ_two]
      simp only [stationary]
      rw [C52_probabilities le_rfl zero_le_one, C52_probabilities le_rfl zero_le_one]
      unfold epsilonGreedy
      rw [if_neg hgr]
      simp only [Mdp.back, quit]
      norm_num
      nlinarith) hx
    simpa using this
  · obtain ⟨best, hb⟩ := exploring_solution (e := quit) quit_proper (by norm_num) h0.le h1 le_rfl zero_le_one
    have := exploring_best (e := quit) quit_proper (by norm_num) h0.le h1 le_rfl zero_le_one hb
    exact ⟨best, this, quit_best h0.le h1 this⟩

/-- **C140**, a case: in the same environment with the value 0 for the state in which an episode has ended, and the value 100 for the other one, the values converge to the best ones. -/
theorem C140_example {gamma : ℝ} (h0 : 0 ≤ gamma) (h1 : gamma < 1) {draw : List (Fin 2) → Option (Fin 2)} (hd : Draws draw) {tau : ℝ} (htau : 0 < tau) :
    ∃ (best : ℝ) (u : ℕ → (ℕ → (Fin 2 → ℝ) × Unit) → Fin 2 → ℝ) (v : ℕ → (ℕ → (Fin 2 → ℝ) × Unit) → Unit) (X : ℕ → (ℕ → (Fin 2 → ℝ) × Unit) → Acting (Unit ⊕ Unit → ℝ) Unit 2), 1 / 2 ≤ best ∧
      (∀ k ω, Acting.run (updateSimple (fun t => 1 / ((t : ℝ) + 1)) mse1) (lookahead quitP quitR gamma (epsilonGreedyPi draw tau fun _ => 0)) quitEnv (Acting.init gamma () (Sum.elim (fun _ => 100) fun _ => 0)) ((List.range k).map fun t => (u t ω, v t ω)) = .ok (X k ω)) ∧
      ∀ᵐ ω ∂(Measure.infinitePi fun _ : ℕ => (uniforms 2).prod (Measure.dirac ())), Tendsto (fun k => (X k ω).params (.inl ())) atTop (𝓝 best) := by
  obtain ⟨ℋ, u, v, hv⟩ := C131_variates (uniforms 2) (Measure.dirac ())
  obtain ⟨best, hbest, X, hrun, -, hconv⟩ := C140_planner_partial (by norm_num) quit_proper (fun _ _ => .refl) h0 h1 quit_is quit_exact slow_harmonic hd htau (epsilon := fun _ => 0) (fun _ => le_rfl) (fun _ => zero_le_one) hv ()
    (θ0 := Sum.elim (fun _ => 100) fun _ => 0) (fun _ => rfl)
  refine ⟨best 0 (), u, v, X, quit_best h0 h1 (hbest 0 le_rfl zero_le_one), hrun, ?_⟩
  filter_upwards [hconv] with ω hω
  exact (hω 0 tendsto_const_nhds).1 ()

end Coax.Loop
