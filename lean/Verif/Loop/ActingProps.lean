import Verif.Loop.ActingLemmas

/-! Property C139: an agent with a target network that acts with the values it is learning learns the optimal values. -/

namespace Coax.Loop

open Coax.RewardTracing Coax.TD Coax.Core Coax.Values Coax.Pol Coax.Dists Filter Topology MeasureTheory

variable {σ U V : Type _} {n m : Nat}

section

variable [DecidableEq σ]

/-- An update of `q` and its target network with a transition of weight 1 does not raise, and keeps values within a bound, if the value with which the target is bootstrapped is bounded by values of `q` and `q_targ`. -/
theorem accepts_updateT (hn : 0 < n) {gamma : ℝ} (h0 : 0 ≤ gamma) {lr : ℕ → ℝ} (l0 : ∀ k, 0 ≤ lr k) (l1 : ∀ k, lr k ≤ 1) {tau : ℝ} (t0 : 0 ≤ tau) (t1 : tau ≤ 1) {updateRule} {type1 : Bool} {val : (σ → Fin n → ℝ) → (σ → Fin n → ℝ) → σ → ℝ}
    (hb : ∀ θQ θT b, WellFormed b → Bootstraps id id b (fun s x => x = val θQ θT s) (updateRule (tabular type1 θQ) (tabular type1 θT) b)) {c : ℝ}
    (hval : ∀ θQ θT s B, (∀ a, |θQ s a| ≤ B) → (∀ a, |θT s a| ≤ B) → |val θQ θT s| ≤ c + B) (B : ℝ) :
    Accepts (updateT lr tau mse1 updateRule type1) gamma fun R θ => R + gamma * (c + B) ≤ B ∧ (∀ s a, |θ.1 s a| ≤ B) ∧ ∀ s a, |θ.2 s a| ≤ B := by
  intro k x y d hw θ
  set o := rowOf gamma x y d with ho
  obtain ⟨G, h1, h2, h3⟩ := hb θ.1 θ.2 ⟨[o.Rn], [o.In], [if d then x.s else y.s], [oneHot n (if d then x.a else y.a : Fin n)]⟩ ⟨rfl, rfl⟩
  have hbatch : toTBatch id (fun a : Fin n => oneHot n a) [o] = .ok ⟨[o.Rn], [o.In], [if d then x.s else y.s], [oneHot n (if d then x.a else y.a : Fin n)]⟩ := batch_one rfl rfl
  obtain ⟨z, hz, hG⟩ := h3 0 _ _ _ rfl rfl rfl
  have hG' : G = [o].map fun o => o.Rn + o.In * val θ.1 θ.2 (if d then x.s else y.s) := by
    match G, h2, hG with
    | [g], _, hG =>
      have : g = o.Rn + o.In * z := by simpa using hG
      simp [this, hz]
  rw [hG'] at h1
  have hup := sgdUpdate_rows (type1 := type1) mse1_meanOf hn (by simp) hbatch h1 (lr k)
  set θ' : σ → Fin n → ℝ := fun s a => θ.1 s a - lr k * (([o].map fun o' => if s = o'.S ∧ a = o'.A then weight o' * ((θ.1 s a) - (o'.Rn + o'.In * val θ.1 θ.2 (if d then x.s else y.s))) else 0).sum / ([o] : List (Out σ (Fin n) ℝ)).length) with hθ'
  refine ⟨(θ', softTable tau θ.2 θ'), ?_, ?_⟩
  · unfold updateT
    rw [hup]
  · rintro R hR ⟨hB, hQ, hT⟩
    have hB' : ∀ s a, |θ' s a| ≤ B := by
      intro s a
      have hB0 : 0 ≤ B := (abs_nonneg _).trans (hQ s a)
      simp only [hθ', List.map_cons, List.map_nil, List.sum_cons, List.sum_nil, add_zero, List.length_singleton, Nat.cast_one, div_one]
      split
      · have hwt : weight o = 1 := by
          simp only [ho, weight, rowOf, hw]
          norm_num
        rw [hwt, one_mul]
        set T : ℝ := o.Rn + o.In * val θ.1 θ.2 (if d then x.s else y.s) with hTdef
        have hTB : |T| ≤ B := by
          have hT' : T = x.r + (gamma * (1 - if d then 1 else 0)) * val θ.1 θ.2 (if d then x.s else y.s) := rfl
          rw [hT']
          refine (abs_add_le _ _).trans (le_trans (add_le_add hR ?_) hB)
          rw [abs_mul]
          refine mul_le_mul ?_ (hval _ _ _ _ (fun a => hQ _ a) fun a => hT _ a) (abs_nonneg _) h0
          cases d <;> simp [abs_of_nonneg h0, h0]
        have e : θ.1 s a - lr k * (θ.1 s a - T) = (1 - lr k) * θ.1 s a + lr k * T := by ring
        rw [e]
        refine (abs_add_le _ _).trans ?_
        rw [abs_mul, abs_mul, abs_of_nonneg (l0 k), abs_of_nonneg (sub_nonneg.2 (l1 k))]
        have g1 := mul_le_mul_of_nonneg_left (hQ s a) (sub_nonneg.2 (l1 k))
        have g2 := mul_le_mul_of_nonneg_left hTB (l0 k)
        linarith
      · simpa using hQ s a
    refine ⟨hB, hB', fun s a => ?_⟩
    show |(1 - tau) * θ.2 s a + tau * θ' s a| ≤ B
    refine (abs_add_le _ _).trans ?_
    rw [abs_mul, abs_mul, abs_of_nonneg t0, abs_of_nonneg (sub_nonneg.2 t1)]
    have g1 := mul_le_mul_of_nonneg_left (hT s a) (sub_nonneg.2 t1)
    have g2 := mul_le_mul_of_nonneg_left (hB' s a) t0
    linarith

/-- What is learned online from steps that explore is learned by the agent that acts. -/
theorem acting_converges {Ω : Type} {m0 : MeasurableSpace Ω} [Fintype σ] [MeasurableSpace U] [MeasurableSpace V] {μ : Measure Ω} [IsProbabilityMeasure μ] {ℋ : Filtration ℕ m0} {νU : Measure U} {νV : Measure V} {u : ℕ → Ω → U} {v : ℕ → Ω → V}
    (hv : Variates μ ℋ νU νV u v) (hn : 0 < n) {e : Mdp σ n m} (hc : e.Connected) {env : Game σ n V} {chance : σ → Fin n → V → Fin m} (hg : env.Is νV e chance) {pi : ℕ → (Fin n → ℝ) → U → Option (Fin n)} (hpi : Tries νU pi)
    {gamma : ℝ} (h0 : 0 ≤ gamma) (h1 : gamma < 1) {lr : ℕ → ℝ} (hl : Slow lr) {tau : ℝ} (t0 : 0 ≤ tau) (t1 : tau ≤ 1) {updateRule} {type1 : Bool} {val : (σ → Fin n → ℝ) → (σ → Fin n → ℝ) → σ → ℝ}
    (hb : ∀ θQ θT b, WellFormed b → Bootstraps id id b (fun s x => x = val θQ θT s) (updateRule (tabular type1 θQ) (tabular type1 θT) b)) {c : ℝ}
    (hval : ∀ θQ θT s B, (∀ a, |θQ s a| ≤ B) → (∀ a, |θT s a| ≤ B) → |val θQ θT s| ≤ c + B) (s0 : σ) (θ0 θT0 : σ → Fin n → ℝ) {best : σ → Fin n → ℝ}
    (learns : ∀ {xs : ℕ → Ω → Step σ (Fin n) ℝ} {out : ℕ → Ω → Fin m}, Explorer e μ ℋ xs out lr → ∃ θ θT : ℕ → Ω → σ → Fin n → ℝ,
      (∀ k ω, ∃ t c, onlineT lr tau mse1 updateRule type1 (NStep.init 1 gamma false, (θ0, θT0), 0) ((List.range k).map fun t => (xs t ω, e.ends (xs t ω).s (xs t ω).a (out t ω))) = .ok (t, (θ k ω, θT k ω), c)) ∧
      ∀ᵐ ω ∂μ, ∀ s a, Tendsto (fun k => θ k ω s a) atTop (𝓝 (best s a)) ∧ Tendsto (fun k => θT k ω s a) atTop (𝓝 (best s a))) :
    ∃ X : ℕ → Ω → Acting ((σ → Fin n → ℝ) × (σ → Fin n → ℝ)) σ n,
      (∀ k ω, Acting.run (updateT lr tau mse1 updateRule type1) (onQ pi) env (Acting.init gamma s0 (θ0, θT0)) ((List.range k).map fun t => (u t ω, v t ω)) = .ok (X k ω)) ∧
      ∀ᵐ ω ∂μ, ∀ s a, Tendsto (fun k => (X k ω).params.1 s a) atTop (𝓝 (best s a)) ∧ Tendsto (fun k => (X k ω).params.2 s a) atTop (𝓝 (best s a)) := by
  choose A hA using hpi.answers
  obtain ⟨R, hR⟩ := bounded fun p : σ × Fin n × Fin m => e.reward p.1 p.2.1 p.2.2
  obtain ⟨T, hT⟩ := bounded fun p : σ × Fin n => θ0 p.1 p.2
  obtain ⟨T', hT'⟩ := bounded fun p : σ × Fin n => θT0 p.1 p.2
  have g1 : 0 < 1 - gamma := by linarith
  set B : ℝ := max (max T T') ((R + gamma * c) / (1 - gamma)) with hB
  have hBB : R + gamma * (c + B) ≤ B := by
    have h2 := (div_le_iff₀ g1).1 (le_max_right (max T T') ((R + gamma * c) / (1 - gamma)))
    rw [← hB] at h2
    linarith
  obtain ⟨X, xs, out, hrun, hsteps, hs, hnext, ha, hon, hep, hw, -, hbound⟩ := Acting.steps (pi := onQ pi) (A := fun ep θ s u => A ep (θ.1 s) u) hv (accepts_updateT hn h0 hl.nonneg hl.le t0 t1 hb hval B) hg
    (fun ep θ s a => hpi.measurable _ _ _) (fun ep θ s u => hA _ _ _) h0 h1.le s0 (θ0, θT0)
  have hXB := hbound R (fun s a j => hR (s, a, j)) ⟨hBB, fun s a => (hT (s, a)).trans ((le_max_left _ _).trans (le_max_left _ _)), fun s a => (hT' (s, a)).trans ((le_max_right _ _).trans (le_max_left _ _))⟩
  obtain ⟨eps, heps, hexp⟩ := hpi.explores B
  have hx : Explorer e μ ℋ xs out lr := {
    steps := hsteps
    explores := by
      refine ⟨eps, heps, fun t a => ?_⟩
      filter_upwards [ha t a] with ω h4
      rw [h4]
      exact hexp _ _ _ fun b => (hXB t ω).2.1 _ b
    connected := hc
    reset := hnext
    schedule := ⟨hl.nonneg, fun t ω => by
      rw [hw]
      have : min (max (1 : ℝ) 0.1) 10 = 1 := by norm_num
      rw [this, mul_one]; exact hl.le t, hl.squares⟩
    infinite := hl.infinite
    slow := hl.slow }
  obtain ⟨θ, θT, hrun', hconv⟩ := learns hx
  refine ⟨X, hrun, ?_⟩
  filter_upwards [hconv] with ω h2 s a
  have e1 : ∀ k, (X k ω).params = (θ k ω, θT k ω) := by
    intro k
    obtain ⟨t, c, h3⟩ := hrun' k ω
    have h4 := hon k ω
    rw [show onlineU (updateT lr tau mse1 updateRule type1) = onlineT lr tau mse1 updateRule type1 from rfl, h3] at h4
    exact (congrArg (fun p => p.2.1) (Except.ok.inj h4)).symm
  simp only [e1]
  exact h2 s a

theorem tieMean_bound (hn : 0 < n) (x : Nat → ℝ) {y : Nat → ℝ} {B : ℝ} (hy : ∀ a < n, |y a| ≤ B) : |tieMean n x y| ≤ B := by
  have := tieMean_near hn x y (fun _ => 0) (D := B) fun a ha => by rw [sub_zero]; exact hy a ha
  simpa [tieMean] using this

/-- The updaters for which the loop is considered. -/
def PlainOrDouble (rule : QFn (σ → Fin n → ℝ) σ (List ℝ) → QFn (σ → Fin n → ℝ) σ (List ℝ) → TBatch σ (List ℝ) → Except Err (List ℝ)) : Prop := rule = qLearning n ∨ rule = doubleQLearning n

theorem learner_converges {Ω : Type} {m0 : MeasurableSpace Ω} [Fintype σ] [MeasurableSpace U] [MeasurableSpace V] {μ : Measure Ω} [IsProbabilityMeasure μ] {ℋ : Filtration ℕ m0} {νU : Measure U} {νV : Measure V} {u : ℕ → Ω → U} {v : ℕ → Ω → V}
    (hv : Variates μ ℋ νU νV u v) (hn : 0 < n) {e : Mdp σ n m} (he : e.Proper) (hc : e.Connected) {env : Game σ n V} {chance : σ → Fin n → V → Fin m} (hg : env.Is νV e chance) {pi : ℕ → (Fin n → ℝ) → U → Option (Fin n)} (hpi : Tries νU pi)
    {gamma : ℝ} (h0 : 0 ≤ gamma) (h1 : gamma < 1) {lr : ℕ → ℝ} (hl : Slow lr) {tau : ℝ} (t0 : 0 < tau) (t1 : tau ≤ 1) {rule} (hr : PlainOrDouble (σ := σ) (n := n) rule) (type1 : Bool) {best : σ → Fin n → ℝ} (hbest : e.Solves gamma Greedy best) (s0 : σ)
    (θ0 θT0 : σ → Fin n → ℝ) :
    ∃ X : ℕ → Ω → Acting ((σ → Fin n → ℝ) × (σ → Fin n → ℝ)) σ n,
      (∀ k ω, Acting.run (updateT lr tau mse1 rule type1) (onQ pi) env (Acting.init gamma s0 (θ0, θT0)) ((List.range k).map fun t => (u t ω, v t ω)) = .ok (X k ω)) ∧
      ∀ᵐ ω ∂μ, ∀ s a, Tendsto (fun k => (X k ω).params.1 s a) atTop (𝓝 (best s a)) ∧ Tendsto (fun k => (X k ω).params.2 s a) atTop (𝓝 (best s a)) := by
  rcases hr with rfl | rfl
  · have hr := rule_qLearning (σ := σ) (n := n) hn type1
    choose val hval using hr.value
    refine acting_converges (c := 0) (val := fun _ θT s => val s (θT s)) hv hn hc hg hpi h0 h1 hl t0.le t1 (fun θQ θT b hb => Bootstraps.imp (hr.bootstraps θQ θT b hb) fun s x h => hr.unique h (hval _ _)) ?_ s0 θ0 θT0 ?_
    · intro _ θT s B _ hT
      have h2 : Greedy s (fun _ : Fin n => (0 : ℝ)) 0 := ⟨⟨⟨0, hn⟩, rfl⟩, by rintro _ ⟨a, rfl⟩; exact le_rfl⟩
      have h3 := hr.close s (θT s) (fun _ => 0) _ _ B (hval s _) h2 fun a => by simpa using hT a
      simpa using h3
    · intro xs out hx
      exact onlineT_of_learnS (dn := fun t ω => e.ends (xs t ω).s (xs t ω).a (out t ω)) h0 h1.le hx.steps.logp hx.steps.w (learnS_converges hr hn he h0 h1 (hx.steps.samples gamma) (hx.rates gamma t0 t1) hbest θ0 θT0)
  · refine acting_converges (c := 0) (val := fun θQ θT s => tieMean n (ext θT s) (ext θQ s)) hv hn hc hg hpi h0 h1 hl t0.le t1 (fun θQ θT b hb => double_targets hn type1 θQ θT hb) ?_ s0 θ0 θT0 ?_
    · intro θQ θT s B hQ _
      rw [zero_add]
      refine tieMean_bound hn _ fun a ha => ?_
      simpa [ext, ha] using hQ ⟨a, ha⟩
    · intro xs out hx
      exact C127_online_double_q_learning hn he h0 h1 hx t0 t1 hbest type1 θ0 θT0

/-- **C139**, the loop of `doc/examples/frozen_lake/double_qlearning.py` with tables: actions are drawn from the Boltzmann policy on the values that have been learned so far, `q_targ` follows `q` with a constant rate, and the updater is
`DoubleQLearning` or `QLearning`.  Nothing raises.  Almost surely the values of `q` and of `q_targ` converge to the solution of the Bellman equation, and from some step on the mode of the policy is optimal. -/
theorem C139_boltzmann {Ω : Type} {m0 : MeasurableSpace Ω} [Fintype σ] [MeasurableSpace V] (hn : 0 < n) {e : Mdp σ n m} (he : e.Proper) (hc : e.Connected) {gamma : ℝ} (h0 : 0 ≤ gamma) (h1 : gamma < 1) {νV : Measure V} {env : Game σ n V}
    {chance : σ → Fin n → V → Fin m} (hg : env.Is νV e chance) {lr : ℕ → ℝ} (hl : Slow lr) {draw : List (Fin n) → Option (Fin n)} (hd : Draws draw) {gumbel : ℝ} (hgumbel : 0 < gumbel) {temperature : ℕ → ℝ} {τ : ℝ} (hτ : 0 < τ) (ht : ∀ ep, τ ≤ temperature ep)
    {tau : ℝ} (t0 : 0 < tau) (t1 : tau ≤ 1) {μ : Measure Ω} [IsProbabilityMeasure μ] {ℋ : Filtration ℕ m0} {u : ℕ → Ω → Fin n → ℝ} {v : ℕ → Ω → V} (hv : Variates μ ℋ (uniforms n) νV u v)
    {rule} (hr : PlainOrDouble (σ := σ) (n := n) rule) (type1 : Bool) (s0 : σ) (θ0 θT0 : σ → Fin n → ℝ) :
    ∃ best, e.Solves gamma Greedy best ∧ ∃ X : ℕ → Ω → Acting ((σ → Fin n → ℝ) × (σ → Fin n → ℝ)) σ n,
      (∀ k ω, Acting.run (updateT lr tau mse1 rule type1) (onQ (boltzmannPi draw gumbel temperature)) env (Acting.init gamma s0 (θ0, θT0)) ((List.range k).map fun t => (u t ω, v t ω)) = .ok (X k ω)) ∧
      ∀ᵐ ω ∂μ, (∀ s a, Tendsto (fun k => (X k ω).params.1 s a) atTop (𝓝 (best s a)) ∧ Tendsto (fun k => (X k ω).params.2 s a) atTop (𝓝 (best s a))) ∧
        ∀ τ', 0 < τ' → ∃ K, ∀ k, K ≤ k → ∀ s, ∃ x, e.Worth gamma 0 (always fun s => policyMode draw gumbel (boltzmannLogits τ' ((X k ω).params.1 s))) s x ∧ ∀ (pi : Policy σ n m) y, pi.Proper → e.Worth gamma 0 pi s y → y ≤ x := by
  obtain ⟨best, hbest, -⟩ := mdp_solution (rule_qLearning (σ := σ) hn false) he h0 h1
  obtain ⟨X, hrun, hconv⟩ := learner_converges hv hn he hc hg (tries_boltzmann hn hd hgumbel hτ ht) h0 h1 hl t0 t1 hr type1 hbest s0 θ0 θT0
  refine ⟨best, hbest, X, hrun, ?_⟩
  filter_upwards [hconv] with ω hω
  refine ⟨hω, fun τ' g0 => ?_⟩
  obtain ⟨K, hK⟩ := Play.eventually_optimal (ε := 0) (X := fun k => Play.init gamma s0 (X k ω).params.1) he hn h0 h1 hbest (fun s a => (hω s a).1) hd hgumbel le_rfl zero_lt_one g0
  exact ⟨K, fun k hk s => (hK k hk s).imp fun x h => ⟨h.2.1, h.2.2⟩⟩

/-- **C139** with actions from the epsilon-greedy policy, with any schedule of `epsilon`: the policy that acts is in the end worth as much as any other, up to what it explores. -/
theorem C139_epsilon_greedy {Ω : Type} {m0 : MeasurableSpace Ω} [Fintype σ] [MeasurableSpace V] (hn : 0 < n) {e : Mdp σ n m} (he : e.Proper) (hc : e.Connected) {gamma : ℝ} (h0 : 0 ≤ gamma) (h1 : gamma < 1) {νV : Measure V} {env : Game σ n V}
    {chance : σ → Fin n → V → Fin m} (hg : env.Is νV e chance) {lr : ℕ → ℝ} (hl : Slow lr) {draw : List (Fin n) → Option (Fin n)} (hd : Draws draw) {gumbel : ℝ} (hgumbel : 0 < gumbel) {epsilon : ℕ → ℝ} (hε0 : ∀ ep, 0 ≤ epsilon ep)
    (hε1 : ∀ ep, epsilon ep ≤ 1) {tau : ℝ} (t0 : 0 < tau) (t1 : tau ≤ 1) {μ : Measure Ω} [IsProbabilityMeasure μ] {ℋ : Filtration ℕ m0} {u : ℕ → Ω → Fin n → ℝ} {v : ℕ → Ω → V} (hv : Variates μ ℋ (uniforms n) νV u v)
    {rule} (hr : PlainOrDouble (σ := σ) (n := n) rule) (type1 : Bool) (s0 : σ) (θ0 θT0 : σ → Fin n → ℝ) :
    ∃ best, e.Solves gamma Greedy best ∧ ∃ X : ℕ → Ω → Acting ((σ → Fin n → ℝ) × (σ → Fin n → ℝ)) σ n,
      (∀ k ω, Acting.run (updateT lr tau mse1 rule type1) (onQ (epsilonGreedyPi draw gumbel epsilon)) env (Acting.init gamma s0 (θ0, θT0)) ((List.range k).map fun t => (u t ω, v t ω)) = .ok (X k ω)) ∧
      ∀ᵐ ω ∂μ, (∀ s a, Tendsto (fun k => (X k ω).params.1 s a) atTop (𝓝 (best s a)) ∧ Tendsto (fun k => (X k ω).params.2 s a) atTop (𝓝 (best s a))) ∧
        ∀ δ w, 0 < δ → (∀ s a b, best s a - best s b ≤ w) → ∃ K, ∀ k, K ≤ k → ∀ s, ∃ x, e.Worth gamma 0 (calls draw gumbel fun s => epsilonGreedyLogits (epsilon (X k ω).ep) ((X k ω).params.1 s)) s x ∧
          ∀ (pi : Policy σ n m) y, pi.Proper → e.Worth gamma 0 pi s y → y ≤ x + (2 * δ + (epsilon (X k ω).ep + n * 1e-15) * w) / (1 - gamma) := by
  obtain ⟨best, hbest, -⟩ := mdp_solution (rule_qLearning (σ := σ) hn false) he h0 h1
  obtain ⟨X, hrun, hconv⟩ := learner_converges hv hn he hc hg (tries_epsilon_greedy hn hd hgumbel hε0 hε1) h0 h1 hl t0 t1 hr type1 hbest s0 θ0 θT0
  refine ⟨best, hbest, X, hrun, ?_⟩
  filter_upwards [hconv] with ω hω
  refine ⟨hω, fun δ w hδ hw => ?_⟩
  have hclose : ∀ᶠ k in atTop, ∀ s a, |(X k ω).params.1 s a - best s a| ≤ δ := by
    refine eventually_all.2 fun s => eventually_all.2 fun a => ?_
    filter_upwards [Metric.tendsto_nhds.1 (hω s a).1 δ hδ] with k hk
    exact hk.le
  obtain ⟨K, hK⟩ := eventually_atTop.1 hclose
  exact ⟨K, fun k hk s => C121_epsilon_loss he hn h0 h1 hbest (hε0 _) (hε1 _) (hK k hk) hw hd hgumbel s⟩

end

/-! ### A case -/

/-- **C139**, a case: the agent in `gamble` with `DoubleQLearning`, a Boltzmann policy with temperature 1/10 and a target network with the rate 1/10, as in the example, learns that the first action is worth 2/3 and the second 7/12. -/
theorem C139_example {draw : List (Fin 2) → Option (Fin 2)} (hd : Draws draw) (θ0 : Unit → Fin 2 → ℝ) :
    ∃ (u : ℕ → (ℕ → (Fin 2 → ℝ) × Bool) → Fin 2 → ℝ) (v : ℕ → (ℕ → (Fin 2 → ℝ) × Bool) → Bool) (X : ℕ → (ℕ → (Fin 2 → ℝ) × Bool) → Acting ((Unit → Fin 2 → ℝ) × (Unit → Fin 2 → ℝ)) Unit 2),
      (∀ k ω, Acting.run (updateT (fun t => 1 / ((t : ℝ) + 1)) (1 / 10) mse1 (doubleQLearning 2) true) (onQ (boltzmannPi draw 1 fun _ => 1 / 10)) gambleEnv (Acting.init (1 / 2) () (θ0, θ0)) ((List.range k).map fun t => (u t ω, v t ω)) = .ok (X k ω)) ∧
      ∀ᵐ ω ∂(Measure.infinitePi fun _ : ℕ => (uniforms 2).prod (PMF.uniformOfFintype Bool).toMeasure), Tendsto (fun k => (X k ω).params.1 () 0) atTop (𝓝 (2 / 3)) ∧ Tendsto (fun k => (X k ω).params.2 () 1) atTop (𝓝 (7 / 12)) := by
  obtain ⟨ℋ, u, v, hv⟩ := C131_variates (uniforms 2) (PMF.uniformOfFintype Bool).toMeasure
  obtain ⟨X, hrun, hconv⟩ := learner_converges hv (by norm_num) gamble_proper (fun _ _ => .refl) gambleEnv_is (tries_boltzmann (by norm_num) hd one_pos (temperature := fun _ => 1 / 10) (τ := 1 / 10) (by norm_num) (fun _ => le_rfl))
    (by norm_num) (by norm_num) slow_harmonic (tau := 1 / 10) (by norm_num) (by norm_num) (Or.inr rfl) true gamble_solves () θ0 θ0
  refine ⟨u, v, X, hrun, ?_⟩
  filter_upwards [hconv] with ω hω
  exact ⟨by simpa using (hω () 0).1, by simpa using (hω () 1).2⟩

end Coax.Loop
