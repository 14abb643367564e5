import Verif.Loop.LookaheadLemmas

/-!
Properties C134 and C135: what is learned in the online loop with an `NStep` tracer that looks several steps ahead.
-/

namespace Coax.Loop

open Coax.RewardTracing Coax.TD Coax.Core Coax.Values Coax.Pol Filter Topology MeasureTheory

variable {σ : Type _} {n m : Nat} {Ω : Type _} {m0 : MeasurableSpace Ω}

/-! ### Specification -/

/-- The expected reward of the action and of the `N - 1` actions of the policy `pi` that follow, and of the value `v` of the state where the agent is then. -/
def Mdp.Ahead (e : Mdp σ n m) (gamma : ℝ) (pi : σ → Fin n → ℝ) (v : σ → ℝ) : ℕ → σ → Fin n → ℝ
  | 0, s, _ => v s
  | N + 1, s, a => ∑ j, e.prob s a j * (e.reward s a j + if e.ends s a j then 0 else gamma * ∑ b, pi (e.next s a j) b * e.Ahead gamma pi v N (e.next s a j) b)

/-- The Bellman equation for `N` steps: after the first action `N - 1` actions of `pi` follow, and only the value of the state that is then reached is computed with `boot`. -/
def Mdp.SolvesAhead (e : Mdp σ n m) (gamma : ℝ) (pi : σ → Fin n → ℝ) (boot : σ → (Fin n → ℝ) → ℝ → Prop) (N : ℕ) (q : σ → Fin n → ℝ) : Prop :=
  ∃ v : σ → ℝ, (∀ s, boot s (q s) (v s)) ∧ ∀ s a, q s a = e.Ahead gamma pi v N s a

/-! ### The path of states and actions -/

/-- The reward of an outcome. -/
def Mdp.rewardNext (e : Mdp σ n m) (p : σ × Fin n) (j : Fin m × Option (Fin n)) : ℝ := e.reward p.1 p.2 j.1

/-- Whether an outcome ends the episode. -/
def Mdp.stopNext (e : Mdp σ n m) (p : σ × Fin n) (j : Fin m × Option (Fin n)) : Bool := e.ends p.1 p.2 j.1

/-- The next state and action. -/
def Mdp.cellNext (e : Mdp σ n m) (p : σ × Fin n) (j : Fin m × Option (Fin n)) : σ × Fin n := (e.next p.1 p.2 j.1, j.2.getD p.2)

theorem chainOp_next (e : Mdp σ n m) (gamma : ℝ) {pi : σ → Fin n → ℝ} (hpi : ∀ s, (∀ a, 0 ≤ pi s a) ∧ ∑ a, pi s a = 1) (w : σ × Fin n → ℝ) (p : σ × Fin n) :
    chainOp (e.nextProb pi) e.rewardNext e.stopNext e.cellNext gamma w p = ∑ j, e.prob p.1 p.2 j * (e.reward p.1 p.2 j + if e.ends p.1 p.2 j then 0 else gamma * ∑ b, pi (e.next p.1 p.2 j) b * w (e.next p.1 p.2 j, b)) := by
  unfold chainOp
  rw [sum_next e (fun s => (hpi s).2)]
  refine Finset.sum_congr rfl fun j _ => ?_
  congr 1
  unfold Mdp.rewardNext Mdp.stopNext Mdp.cellNext
  simp only
  cases e.ends p.1 p.2 j with
  | true => simp
  | false =>
    simp only [Bool.false_eq_true, if_false, Option.getD_some, mul_add, Finset.sum_add_distrib, ← Finset.sum_mul, (hpi _).2, one_mul, Finset.mul_sum]
    congr 1
    exact Finset.sum_congr rfl fun b _ => by ring

theorem chainOp_ahead (e : Mdp σ n m) (gamma : ℝ) {pi : σ → Fin n → ℝ} (hpi : ∀ s, (∀ a, 0 ≤ pi s a) ∧ ∑ a, pi s a = 1) (v : σ → ℝ) (N : ℕ) (p : σ × Fin n) :
    (chainOp (e.nextProb pi) e.rewardNext e.stopNext e.cellNext gamma)^[N] (fun p => v p.1) p = e.Ahead gamma pi v N p.1 p.2 := by
  induction N generalizing p with
  | zero => rfl
  | succ N ih =>
    rw [Function.iterate_succ_apply', chainOp_next e gamma hpi, Mdp.Ahead]
    simp only [ih]

section

variable [Fintype σ]

/-- The states and actions of an agent that obeys a policy. -/
theorem Steps.chain {pi : σ → Fin n → ℝ} {μ : Measure Ω} [IsProbabilityMeasure μ] {ℋ : Filtration ℕ m0} {e : Mdp σ n m} {xs : ℕ → Ω → Step σ (Fin n) ℝ} {out : ℕ → Ω → Fin m} (h : Steps e μ ℋ xs out) (hobey : Obeys pi μ ℋ xs) (gamma : ℝ) :
    Chain μ (sub2 ℋ 1) (e.nextProb pi) e.stopNext e.cellNext (fun t ω => ((xs t ω).s, (xs t ω).a)) (e.outNext (fun t ω => rowOf gamma (xs t ω) (xs (t + 1) ω) (e.ends (xs t ω).s (xs t ω).a (out t ω))) out) := by
  obtain ⟨h2, h3⟩ := (h.follows hobey gamma).outNext (h.samples gamma)
  refine ⟨fun t p => ?_, h2, h3, fun t ω hs => ?_⟩
  · have := (h.samples gamma).at_known t p.1 p.2
    have e1 : {ω | ((xs t ω).s, (xs t ω).a) = p} = {ω | (xs t ω).s = p.1 ∧ (xs t ω).a = p.2} := by
      ext ω
      simp [Prod.ext_iff]
    rw [e1]
    exact this
  · have hs : e.ends (xs t ω).s (xs t ω).a (out t ω) = false := hs
    refine Prod.ext (h.next t ω hs) ?_
    simp [Mdp.cellNext, Mdp.outNext, rowOf, hs]

variable [DecidableEq σ]

omit [Fintype σ] [DecidableEq σ] in
/-- The value of the state that is reached, unless the episode has ended. -/
theorem rowN_rule {updateRule} {type1 : Bool} {boot : σ → (Fin n → ℝ) → ℝ → Prop} (hr : Rule updateRule type1 boot) {val : σ → (Fin n → ℝ) → ℝ} (hval : ∀ s row, boot s row (val s row)) (gamma : ℝ) (N : ℕ) (xs : ℕ → Step σ (Fin n) ℝ) (dn : ℕ → Bool) (t : ℕ)
    (θ θT : σ → Fin n → ℝ) : ∃ B, toTBatch id (fun a : Fin n => oneHot n a) [rowN gamma N xs dn t] = .ok B ∧
      updateRule (tabular type1 θ) (tabular type1 θT) B = .ok [returnN gamma xs dn N t + gamma ^ N * (1 - if endsN dn N t then 1 else 0) * val (xs (t + N)).s (θT (xs (t + N)).s)] := by
  obtain ⟨B, h1, h2⟩ := rule_rows hr hval (rows := [rowN gamma N xs dn t]) (fun o ho => by rw [List.mem_singleton.1 ho]; exact ⟨rfl, rfl⟩) θ θT
  refine ⟨B, h1, h2.trans ?_⟩
  simp only [List.map_cons, List.map_nil]
  congr 2
  unfold rowN
  simp only [Option.elim_some]
  cases endsN dn N t <;> simp

omit [Fintype σ] [DecidableEq σ] in
theorem sarsa_rowN (hn : 0 < n) (type1 : Bool) (gamma : ℝ) (N : ℕ) (xs : ℕ → Step σ (Fin n) ℝ) (dn : ℕ → Bool) (t : ℕ) (θ θT : σ → Fin n → ℝ) : ∃ B, toTBatch id (fun a : Fin n => oneHot n a) [rowN gamma N xs dn t] = .ok B ∧
      sarsa n (tabular type1 θ) (tabular type1 θT) B = .ok [returnN gamma xs dn N t + gamma ^ N * (1 - if endsN dn N t then 1 else 0) * θT (xs (t + N)).s (xs (t + N)).a] := by
  refine ⟨_, batch_one rfl rfl, ?_⟩
  unfold sarsa tabular
  simp only
  generalize hs : (if endsN dn N t then (xs t).s else (xs (t + N)).s) = s
  generalize ha : (if endsN dn N t then (xs t).a else (xs (t + N)).a) = a
  have h := (C55_agree hn (table_computes type1 θT) [s]).2 [(a : Nat)] (by simp) (by simp)
  rw [show [oneHot n (a : Nat)] = List.map (oneHot n) [(a : Nat)] from rfl, h]
  simp only [List.zipWith_cons_cons, List.zipWith_nil_left, ext_apply]
  unfold backup
  rw [if_pos ⟨rfl, rfl⟩]
  simp only [List.zip_cons_cons, List.zip_nil_left, List.zipWith_cons_cons, List.zipWith_nil_left, id]
  congr 2
  unfold rowN
  simp only
  rw [← hs, ← ha]
  cases endsN dn N t <;> simp

omit [Fintype σ] [DecidableEq σ] in
theorem simple_rowN (gamma : ℝ) (N : ℕ) (xs : ℕ → Step σ (Fin n) ℝ) (dn : ℕ → Bool) (t : ℕ) (θ θT : σ → Fin 1 → ℝ) : ∃ B, toTBatch id (fun a : Fin 1 => oneHot 1 a) [forget (rowN gamma N xs dn t)] = .ok B ∧
      simpleRule (tabular true θ) (tabular true θT) B = .ok [returnN gamma xs dn N t + gamma ^ N * (1 - if endsN dn N t then 1 else 0) * θT (xs (t + N)).s 0] := by
  refine ⟨_, batch_one (o := forget (rowN gamma N xs dn t)) (a := 0) rfl rfl, ?_⟩
  unfold simpleRule simpleTD tabularV backup
  simp only [List.map_cons, List.map_nil]
  rw [if_pos ⟨rfl, rfl⟩]
  simp only [List.zip_cons_cons, List.zip_nil_left, List.zipWith_cons_cons, List.zipWith_nil_left, id]
  congr 2
  unfold forget rowN ofQ
  simp only
  cases endsN dn N t <;> simp [tabular]

/-- An update rule of which the targets bootstrap with `boot` learns the solution of the Bellman equation for `N` steps. -/
theorem online_ahead (hn : 0 < n) {updateRule} {type1 : Bool} {boot : σ → (Fin n → ℝ) → ℝ → Prop} (hr : Rule updateRule type1 boot) {e : Mdp σ n m} (he : e.Proper) {gamma : ℝ} (h0 : 0 ≤ gamma) (h1 : gamma < 1) {N : ℕ} (hN : 0 < N)
    {pi : σ → Fin n → ℝ} (hpi : ∀ s, (∀ a, 0 ≤ pi s a) ∧ ∑ a, pi s a = 1) {μ : Measure Ω} [IsProbabilityMeasure μ] {ℋ : Filtration ℕ m0} {lr : ℕ → ℝ} {xs : ℕ → Ω → Step σ (Fin n) ℝ} {out : ℕ → Ω → Fin m} (hx : Explorer e μ ℋ xs out lr)
    (hanti : Antitone lr) (hobey : Obeys pi μ ℋ xs) {tau : ℝ} (ht0 : 0 < tau) (ht1 : tau ≤ 1) {best : σ → Fin n → ℝ} (hbest : e.SolvesAhead gamma pi boot N best) (θ0 θT0 : σ → Fin n → ℝ) :
    ∃ θ θT : ℕ → Ω → σ → Fin n → ℝ,
      (∀ k ω, ∃ t c, onlineT lr tau mse1 updateRule type1 (NStep.init N gamma false, (θ0, θT0), 0) ((List.range k).map fun t => (xs t ω, e.ends (xs t ω).s (xs t ω).a (out t ω))) = .ok (t, (θ k ω, θT k ω), c)) ∧
      ∀ᵐ ω ∂μ, ∀ s a, Tendsto (fun k => θ k ω s a) atTop (𝓝 (best s a)) ∧ Tendsto (fun k => θT k ω s a) atTop (𝓝 (best s a)) := by
  choose val hval using hr.value
  obtain ⟨v, hv, hb⟩ := hbest
  have hv' : v = fun s => val s (best s) := funext fun s => hr.unique (hv s) (hval _ _)
  have hrates := hx.rates gamma ht0 ht1
  refine onlineT_of_rowN (dn := fun t ω => e.ends (xs t ω).s (xs t ω).a (out t ω)) h0 h1.le hN hx.steps.logp hx.steps.w ?_
  refine learnS_lookahead (rows := fun t ω => rowN gamma N (fun t => xs t ω) (fun t => e.ends (xs t ω).s (xs t ω).a (out t ω)) t) (boot := fun q p => val p.1 fun b => q (p.1, b)) hn h0 h1 hN (nextProb_nonneg he hpi) (nextProb_total he hpi)
    (hx.steps.chain hobey gamma) hx.steps.w_known (fun q1 q2 M hM p => hr.close p.1 _ _ _ _ M (hval _ _) (hval _ _) fun a => hM _) (rew := e.rewardNext) (fun θ θT t ω => ?_)
    ⟨hrates.nonneg, hrates.le, hrates.squares, hrates.visits, hrates.tau_nonneg, hrates.tau_le, hrates.syncs⟩ hanti (fun p => ?_) θ0 θT0
  · obtain ⟨B, h2, h3⟩ := rowN_rule hr hval gamma N (fun t => xs t ω) (fun t => e.ends (xs t ω).s (xs t ω).a (out t ω)) t θ θT
    refine ⟨B, h2, h3.trans ?_⟩
    have := pathRet_rowN (gamma := gamma) (rew := e.rewardNext) (stop := e.stopNext) (z := fun t => ((xs t ω).s, (xs t ω).a)) (x := fun t => e.outNext (fun t ω => rowOf gamma (xs t ω) (xs (t + 1) ω) (e.ends (xs t ω).s (xs t ω).a (out t ω))) out t ω)
      (xs := fun t => xs t ω) (dn := fun t => e.ends (xs t ω).s (xs t ω).a (out t ω)) (fun t => hx.steps.reward t ω) (fun t => rfl) (fun p => val p.1 (θT p.1)) N t
    rw [← this]
    rfl
  · have := chainOp_ahead e gamma hpi v N p
    rw [← hb, hv'] at this
    exact this

omit [DecidableEq σ] in
/-- The Bellman equation for `N` steps has exactly one solution. -/
theorem ahead_solution {updateRule} {type1 : Bool} {boot : σ → (Fin n → ℝ) → ℝ → Prop} (hr : Rule updateRule type1 boot) {e : Mdp σ n m} (he : e.Proper) {gamma : ℝ} (h0 : 0 ≤ gamma) (h1 : gamma < 1) {N : ℕ} (hN : 0 < N)
    {pi : σ → Fin n → ℝ} (hpi : ∀ s, (∀ a, 0 ≤ pi s a) ∧ ∑ a, pi s a = 1) : ∃! q, e.SolvesAhead gamma pi boot N q := by
  choose val hval using hr.value
  let T : (σ × Fin n → ℝ) → σ × Fin n → ℝ := fun q => (chainOp (e.nextProb pi) e.rewardNext e.stopNext e.cellNext gamma)^[N] fun p => val p.1 fun b => q (p.1, b)
  have hgN : gamma ^ N ≤ gamma := pow_le_of_le_one h0 h1.le hN.ne'
  have hc : ContractingWith ⟨gamma, h0⟩ T := by
    refine ⟨by exact_mod_cast h1, LipschitzWith.of_dist_le_mul fun q1 q2 => ?_⟩
    refine (dist_pi_le_iff (mul_nonneg h0 dist_nonneg)).2 fun p => ?_
    rw [Real.dist_eq]
    refine (chainOp_iterate_close (M := dist q1 q2) h0 (nextProb_nonneg he hpi) (nextProb_total he hpi) (fun p => ?_) N p).trans (mul_le_mul_of_nonneg_right hgN dist_nonneg)
    exact hr.close p.1 _ _ _ _ _ (hval _ _) (hval _ _) fun a => by rw [← Real.dist_eq]; exact dist_le_pi_dist q1 q2 _
  have iff : ∀ q : σ → Fin n → ℝ, e.SolvesAhead gamma pi boot N q ↔ Function.IsFixedPt T fun p => q p.1 p.2 := by
    intro q
    constructor
    · rintro ⟨v, hv, hq⟩
      have hv' : v = fun s => val s (q s) := funext fun s => hr.unique (hv s) (hval _ _)
      funext p
      have := chainOp_ahead e gamma hpi v N p
      rw [← hq, hv'] at this
      exact this
    · intro h
      exact ⟨fun s => val s (q s), fun s => hval _ _, fun s a => (congrFun h (s, a)).symm.trans (chainOp_ahead e gamma hpi (fun s => val s (q s)) N (s, a))⟩
  let q0 := ContractingWith.fixedPoint _ hc
  refine ⟨fun s a => q0 (s, a), (iff _).2 hc.fixedPoint_isFixedPt, fun q hq => ?_⟩
  have := hc.fixedPoint_unique ((iff q).1 hq)
  funext s a
  exact congrFun this (s, a)

/-! ### The values of the policy -/

omit [Fintype σ] [DecidableEq σ] in
theorem ahead_back {e : Mdp σ n m} {gamma : ℝ} {pi : σ → Fin n → ℝ} (hpi : ∀ s, (∀ a, 0 ≤ pi s a) ∧ ∑ a, pi s a = 1) {v : σ → ℝ} (hv : ∀ s, v s = ∑ a, pi s a * e.back gamma v s a) {N : ℕ} (hN : 0 < N) (s : σ) (a : Fin n) :
    e.Ahead gamma pi v N s a = e.back gamma v s a := by
  induction N generalizing s a with
  | zero => omega
  | succ N ih =>
    rw [Mdp.Ahead, Mdp.back]
    refine Finset.sum_congr rfl fun j _ => ?_
    congr 3
    congr 1
    rcases Nat.eq_zero_or_pos N with rfl | hN
    · simp only [Mdp.Ahead, ← Finset.sum_mul, (hpi _).2, one_mul]
    · simp only [ih hN, ← hv]

/-- **C134** for `Sarsa`: in the online loop with an `NStep` tracer that looks any number of steps ahead, and a target network, the params converge almost surely to the expected returns of the policy that chooses the actions: the same
values as with one step.  Nothing raises. -/
theorem C134_sarsa (hn : 0 < n) {e : Mdp σ n m} (he : e.Proper) {gamma : ℝ} (h0 : 0 ≤ gamma) (h1 : gamma < 1) {N : ℕ} (hN : 0 < N) {pi : σ → Fin n → ℝ} (hpi : ∀ s, (∀ a, 0 ≤ pi s a) ∧ ∑ a, pi s a = 1) {μ : Measure Ω} [IsProbabilityMeasure μ]
    {ℋ : Filtration ℕ m0} {lr : ℕ → ℝ} {xs : ℕ → Ω → Step σ (Fin n) ℝ} {out : ℕ → Ω → Fin m} (hx : Explorer e μ ℋ xs out lr) (hanti : Antitone lr) (hobey : Obeys pi μ ℋ xs) {tau : ℝ} (ht0 : 0 < tau) (ht1 : tau ≤ 1) {v : σ → ℝ}
    (hv : ∀ s, e.Worth gamma 0 (stationary pi) s (v s)) (type1 : Bool) (θ0 θT0 : σ → Fin n → ℝ) :
    ∃ θ θT : ℕ → Ω → σ → Fin n → ℝ,
      (∀ k ω, ∃ t c, onlineT lr tau mse1 (sarsa n) type1 (NStep.init N gamma false, (θ0, θT0), 0) ((List.range k).map fun t => (xs t ω, e.ends (xs t ω).s (xs t ω).a (out t ω))) = .ok (t, (θ k ω, θT k ω), c)) ∧
      ∀ᵐ ω ∂μ, ∀ s a, Tendsto (fun k => θ k ω s a) atTop (𝓝 (∑ j, e.prob s a j * (e.reward s a j + if e.ends s a j then 0 else gamma * v (e.next s a j)))) ∧
        Tendsto (fun k => θT k ω s a) atTop (𝓝 (∑ j, e.prob s a j * (e.reward s a j + if e.ends s a j then 0 else gamma * v (e.next s a j)))) := by
  obtain ⟨v', hv', hvb⟩ := policy_solution he h0 h1 hpi
  obtain rfl : v' = v := funext fun s => tendsto_nhds_unique (hv' s) (hv s)
  have hrates := hx.rates gamma ht0 ht1
  refine onlineT_of_rowN (best := fun s a => e.back gamma v' s a) (dn := fun t ω => e.ends (xs t ω).s (xs t ω).a (out t ω)) h0 h1.le hN hx.steps.logp hx.steps.w ?_
  refine learnS_lookahead (rows := fun t ω => rowN gamma N (fun t => xs t ω) (fun t => e.ends (xs t ω).s (xs t ω).a (out t ω)) t) (boot := fun q => q) hn h0 h1 hN (nextProb_nonneg he hpi) (nextProb_total he hpi)
    (hx.steps.chain hobey gamma) hx.steps.w_known (fun q1 q2 M hM p => hM p) (rew := e.rewardNext) (fun θ θT t ω => ?_)
    ⟨hrates.nonneg, hrates.le, hrates.squares, hrates.visits, hrates.tau_nonneg, hrates.tau_le, hrates.syncs⟩ hanti (fun p => ?_) θ0 θT0
  · obtain ⟨B, h2, h3⟩ := sarsa_rowN hn type1 gamma N (fun t => xs t ω) (fun t => e.ends (xs t ω).s (xs t ω).a (out t ω)) t θ θT
    refine ⟨B, h2, h3.trans ?_⟩
    have := pathRet_rowN (gamma := gamma) (rew := e.rewardNext) (stop := e.stopNext) (z := fun t => ((xs t ω).s, (xs t ω).a)) (x := fun t => e.outNext (fun t ω => rowOf gamma (xs t ω) (xs (t + 1) ω) (e.ends (xs t ω).s (xs t ω).a (out t ω))) out t ω)
      (xs := fun t => xs t ω) (dn := fun t => e.ends (xs t ω).s (xs t ω).a (out t ω)) (fun t => hx.steps.reward t ω) (fun t => rfl) (fun p => θT p.1 p.2) N t
    rw [← this]
    rfl
  · have hfix : chainOp (e.nextProb pi) e.rewardNext e.stopNext e.cellNext gamma (fun p => e.back gamma v' p.1 p.2) = fun p => e.back gamma v' p.1 p.2 := by
      funext p
      rw [chainOp_next e gamma hpi]
      unfold Mdp.back
      refine Finset.sum_congr rfl fun j _ => ?_
      congr 3
      rw [hvb]
      rfl
    exact congrFun (Function.iterate_fixed hfix N) p

/-- **C134** for `ExpectedSarsa` with the policy that chooses the actions. -/
theorem C134_expected_sarsa (hn : 0 < n) {e : Mdp σ n m} (he : e.Proper) {gamma : ℝ} (h0 : 0 ≤ gamma) (h1 : gamma < 1) {N : ℕ} (hN : 0 < N) (logits : σ → Fin n → ℝ) {μ : Measure Ω} [IsProbabilityMeasure μ]
    {ℋ : Filtration ℕ m0} {lr : ℕ → ℝ} {xs : ℕ → Ω → Step σ (Fin n) ℝ} {out : ℕ → Ω → Fin m} (hx : Explorer e μ ℋ xs out lr) (hanti : Antitone lr) (hobey : Obeys (fun s a => Real.exp (logits s a) / ∑ b, Real.exp (logits s b)) μ ℋ xs) {tau : ℝ} (ht0 : 0 < tau)
    (ht1 : tau ≤ 1) {v : σ → ℝ} (hv : ∀ s, e.Worth gamma 0 (stationary fun s a => Real.exp (logits s a) / ∑ b, Real.exp (logits s b)) s (v s)) (type1 : Bool) (θ0 θT0 : σ → Fin n → ℝ) :
    ∃ θ θT : ℕ → Ω → σ → Fin n → ℝ,
      (∀ k ω, ∃ t c, onlineT lr tau mse1 (fun q qTarg => expectedSarsa n (fun S => S.map fun s => (List.finRange n).map (logits s)) q qTarg) type1 (NStep.init N gamma false, (θ0, θT0), 0)
        ((List.range k).map fun t => (xs t ω, e.ends (xs t ω).s (xs t ω).a (out t ω))) = .ok (t, (θ k ω, θT k ω), c)) ∧
      ∀ᵐ ω ∂μ, ∀ s a, Tendsto (fun k => θ k ω s a) atTop (𝓝 (∑ j, e.prob s a j * (e.reward s a j + if e.ends s a j then 0 else gamma * v (e.next s a j)))) ∧
        Tendsto (fun k => θT k ω s a) atTop (𝓝 (∑ j, e.prob s a j * (e.reward s a j + if e.ends s a j then 0 else gamma * v (e.next s a j)))) := by
  have hpos : ∀ s, 0 < ∑ b, Real.exp (logits s b) := fun s => Finset.sum_pos (fun b _ => Real.exp_pos _) ⟨⟨0, hn⟩, Finset.mem_univ _⟩
  have hpi : ∀ s, (∀ a, 0 ≤ (fun s a => Real.exp (logits s a) / ∑ b, Real.exp (logits s b)) s a) ∧ ∑ a, (fun s a => Real.exp (logits s a) / ∑ b, Real.exp (logits s b)) s a = 1 :=
    fun s => ⟨fun a => div_nonneg (Real.exp_pos _).le (hpos s).le, by simp only [← Finset.sum_div]; exact div_self (hpos s).ne'⟩
  obtain ⟨v', hv', hvb⟩ := policy_solution he h0 h1 hpi
  obtain rfl : v' = v := funext fun s => tendsto_nhds_unique (hv' s) (hv s)
  exact online_ahead (best := fun s a => e.back gamma v' s a) hn (rule_expectedSarsa hn type1 logits) he h0 h1 hN hpi hx hanti hobey ht0 ht1 ⟨v', hvb, fun s a => (ahead_back hpi hvb hN s a).symm⟩ θ0 θT0

/-- **C134** for `SimpleTD`: the params of a table of state values converge almost surely to the expected returns of the policy that chooses the actions, whatever the number of steps. -/
theorem C134_simple_td (hn : 0 < n) {e : Mdp σ n m} (he : e.Proper) {gamma : ℝ} (h0 : 0 ≤ gamma) (h1 : gamma < 1) {N : ℕ} (hN : 0 < N) {pi : σ → Fin n → ℝ} (hpi : ∀ s, (∀ a, 0 ≤ pi s a) ∧ ∑ a, pi s a = 1)
    {μ : Measure Ω} [IsProbabilityMeasure μ] {ℋ : Filtration ℕ m0} {lr : ℕ → ℝ} {xs : ℕ → Ω → Step σ (Fin n) ℝ} {out : ℕ → Ω → Fin m} (hx : Explorer e μ ℋ xs out lr) (hanti : Antitone lr) (hobey : Obeys pi μ ℋ xs)
    (hw : ∀ t, Measurable[ℋ (2 * t)] fun ω => (xs t ω).w) {tau : ℝ} (ht0 : 0 < tau) (ht1 : tau ≤ 1) {v : σ → ℝ} (hv : ∀ s, e.Worth gamma 0 (stationary pi) s (v s)) (θ0 θT0 : σ → ℝ) :
    ∃ θ θT : ℕ → Ω → σ → ℝ,
      (∀ k ω, ∃ t c, onlineV lr tau mse1 (NStep.init N gamma false, (θ0, θT0), 0) ((List.range k).map fun t => (xs t ω, e.ends (xs t ω).s (xs t ω).a (out t ω))) = .ok (t, (θ k ω, θT k ω), c)) ∧
      ∀ᵐ ω ∂μ, ∀ s, Tendsto (fun k => θ k ω s) atTop (𝓝 (v s)) ∧ Tendsto (fun k => θT k ω s) atTop (𝓝 (v s)) := by
  obtain ⟨v', hv', hvb⟩ := policy_solution he h0 h1 hpi
  obtain rfl : v' = v := funext fun s => tendsto_nhds_unique (hv' s) (hv s)
  have hr := hx.rates gamma ht0 ht1
  have hs := hx.steps.samplesV hobey hw gamma
  refine onlineV_of_rowN (dn := fun t ω => e.ends (xs t ω).s (xs t ω).a (out t ω)) h0 h1.le hN hx.steps.logp hx.steps.w ?_
  have hsum : ∀ (s : σ) (F : Fin n × Fin m → ℝ), ∑ x, pi s x.1 * e.prob s x.1 x.2 * F x = ∑ a, pi s a * ∑ j, e.prob s a j * F (a, j) := by
    intro s F
    rw [Fintype.sum_prod_type]
    refine Finset.sum_congr rfl fun a _ => ?_
    rw [Finset.mul_sum]
    exact Finset.sum_congr rfl fun j _ => by ring
  have hc : Chain μ (sub2 ℋ 0) (fun (p : σ × Fin 1) (x : Fin n × Fin m) => pi p.1 x.1 * e.prob p.1 x.1 x.2) (fun p x => e.ends p.1 x.1 x.2) (fun p x => (e.next p.1 x.1 x.2, 0))
      (fun t ω => ((xs t ω).s, (0 : Fin 1))) (fun t ω => ((xs t ω).a, out t ω)) := by
    refine ⟨fun t p => ?_, fun t x => ?_, fun t x => ?_, fun t ω h => Prod.ext (hx.steps.next t ω h) rfl⟩
    · have : {ω | ((xs t ω).s, (0 : Fin 1)) = p} = {ω | (xs t ω).s = p.1} := by
        ext ω
        simp [Prod.ext_iff, Subsingleton.elim p.2 0]
      rw [this]
      exact hs.s_known t p.1
    · have : {ω | ((xs t ω).a, out t ω) = x} = {ω | (xs t ω).a = x.1 ∧ out t ω = x.2} := by
        ext ω
        simp [Prod.ext_iff]
      rw [this]
      exact hs.out_known t x.1 x.2
    · have : {ω | ((xs t ω).a, out t ω) = x} = {ω | (xs t ω).a = x.1 ∧ out t ω = x.2} := by
        ext ω
        simp [Prod.ext_iff]
      rw [this]
      exact hs.law t x.1 x.2
  have hrates : Rates μ (fun t ω => forget (rowN gamma N (fun t => xs t ω) (fun t => e.ends (xs t ω).s (xs t ω).a (out t ω)) t)) lr (fun _ => tau) := by
    refine ⟨hr.nonneg, hr.le, hr.squares, fun s a0 => (hr.visits s ⟨0, hn⟩).mono fun ω h2 hsum => h2 ?_, hr.tau_nonneg, hr.tau_le, hr.syncs⟩
    refine Summable.of_nonneg_of_le (fun t => ?_) (fun t => ?_) hsum
    · split
      · exact hr.nonneg t
      · exact le_rfl
    · split
      · rename_i hp
        rw [if_pos ⟨hp.1, Subsingleton.elim _ _⟩]
      · split
        · exact hr.nonneg t
        · exact le_rfl
  obtain ⟨θ, θT, h2, h3⟩ := learnS_lookahead (updateRule := simpleRule) (type1 := true) (rows := fun t ω => forget (rowN gamma N (fun t => xs t ω) (fun t => e.ends (xs t ω).s (xs t ω).a (out t ω)) t)) (boot := fun q => q) (best := asQ v')
    (by norm_num) h0 h1 hN (fun p x => mul_nonneg ((hpi _).1 _) (he.nonneg _ _ _)) (fun p => by
      have := hsum p.1 fun _ => 1
      simp only [mul_one, he.total, (hpi _).2] at this
      exact this) hc hw (fun q1 q2 M hM p => hM p) (rew := fun p x => e.reward p.1 x.1 x.2) (fun θ θT t ω => by
        obtain ⟨B, h2, h3⟩ := simple_rowN gamma N (fun t => xs t ω) (fun t => e.ends (xs t ω).s (xs t ω).a (out t ω)) t θ θT
        refine ⟨B, h2, h3.trans ?_⟩
        have := pathRet_rowN (gamma := gamma) (rew := fun (p : σ × Fin 1) (x : Fin n × Fin m) => e.reward p.1 x.1 x.2) (stop := fun p x => e.ends p.1 x.1 x.2) (z := fun t => ((xs t ω).s, (0 : Fin 1))) (x := fun t => ((xs t ω).a, out t ω))
          (xs := fun t => xs t ω) (dn := fun t => e.ends (xs t ω).s (xs t ω).a (out t ω)) (fun t => hx.steps.reward t ω) (fun t => rfl) (fun p => θT p.1 p.2) N t
        rw [← this]
        rfl) hrates hanti (fun p => by
        have hfix : chainOp (fun (p : σ × Fin 1) (x : Fin n × Fin m) => pi p.1 x.1 * e.prob p.1 x.1 x.2) (fun p x => e.reward p.1 x.1 x.2) (fun p x => e.ends p.1 x.1 x.2) (fun p x => (e.next p.1 x.1 x.2, 0)) gamma (fun p => asQ v' p.1 p.2) = fun p => asQ v' p.1 p.2 := by
          funext p
          unfold chainOp
          rw [hsum]
          exact (hvb p.1).symm
        exact congrFun (Function.iterate_fixed hfix N) p) (asQ θ0) (asQ θT0)
  refine ⟨fun k ω => ofQ (θ k ω), fun k ω => ofQ (θT k ω), fun k ω => ?_, ?_⟩
  · rw [learnV_eq]
    have := h2 k ω
    simp only [List.map_map, Function.comp_def, List.map_cons, List.map_nil] at this ⊢
    rw [this]
    rfl
  · filter_upwards [h3] with ω h3 s
    exact h3 s 0

/-! ### Q-learning -/

/-- **C135**: in the online loop with an `NStep` tracer that looks any number of steps ahead, `QLearning` has a limit: the params converge almost surely to the only solution of the Bellman equation for `N` steps, in which `N - 1` actions of the
policy that chooses the actions follow on the first one and only then the largest value is taken.  Nothing raises. -/
theorem C135_q_learning (hn : 0 < n) {e : Mdp σ n m} (he : e.Proper) {gamma : ℝ} (h0 : 0 ≤ gamma) (h1 : gamma < 1) {N : ℕ} (hN : 0 < N) {pi : σ → Fin n → ℝ} (hpi : ∀ s, (∀ a, 0 ≤ pi s a) ∧ ∑ a, pi s a = 1) :
    ∃ best, e.SolvesAhead gamma pi Greedy N best ∧ (∀ q, e.SolvesAhead gamma pi Greedy N q → q = best) ∧
      ∀ {Ω : Type} {m0 : MeasurableSpace Ω} {μ : Measure Ω} [IsProbabilityMeasure μ] {ℋ : Filtration ℕ m0} {lr : ℕ → ℝ} {xs : ℕ → Ω → Step σ (Fin n) ℝ} {out : ℕ → Ω → Fin m}, Explorer e μ ℋ xs out lr → Antitone lr → Obeys pi μ ℋ xs →
        ∀ {tau : ℝ}, 0 < tau → tau ≤ 1 → ∀ type1 θ0 θT0, ∃ θ θT : ℕ → Ω → σ → Fin n → ℝ,
          (∀ k ω, ∃ t c, onlineT lr tau mse1 (qLearning n) type1 (NStep.init N gamma false, (θ0, θT0), 0) ((List.range k).map fun t => (xs t ω, e.ends (xs t ω).s (xs t ω).a (out t ω))) = .ok (t, (θ k ω, θT k ω), c)) ∧
          ∀ᵐ ω ∂μ, ∀ s a, Tendsto (fun k => θ k ω s a) atTop (𝓝 (best s a)) ∧ Tendsto (fun k => θT k ω s a) atTop (𝓝 (best s a)) := by
  obtain ⟨best, hb, hu⟩ := ahead_solution (rule_qLearning (σ := σ) hn false) he h0 h1 hN hpi
  refine ⟨best, hb, hu, ?_⟩
  intro Ω m0 μ _ ℋ lr xs out hx hanti hobey tau ht0 ht1 type1 θ0 θT0
  exact online_ahead hn (rule_qLearning hn type1) he h0 h1 hN hpi hx hanti hobey ht0 ht1 hb θ0 θT0

end

theorem ahead_mono {e : Mdp σ n m} (he : e.Proper) {gamma : ℝ} (h0 : 0 ≤ gamma) {pi : σ → Fin n → ℝ} (hpi : ∀ s, (∀ a, 0 ≤ pi s a) ∧ ∑ a, pi s a = 1) {v w : σ → ℝ} {M : ℝ} (hM : 0 ≤ M) (h : ∀ s, v s ≤ w s + M) (N : ℕ) (s : σ) (a : Fin n) :
    e.Ahead gamma pi v N s a ≤ e.Ahead gamma pi w N s a + gamma ^ N * M := by
  induction N generalizing s a with
  | zero => simpa [Mdp.Ahead] using h s
  | succ N ih =>
    have hgM : 0 ≤ gamma ^ (N + 1) * M := mul_nonneg (pow_nonneg h0 _) hM
    have e1 : gamma ^ (N + 1) * M = ∑ j, e.prob s a j * (gamma ^ (N + 1) * M) := by rw [← Finset.sum_mul, he.total, one_mul]
    rw [Mdp.Ahead, Mdp.Ahead, e1, ← Finset.sum_add_distrib]
    refine Finset.sum_le_sum fun j _ => ?_
    rw [← mul_add]
    refine mul_le_mul_of_nonneg_left ?_ (he.nonneg _ _ _)
    split
    · linarith
    · have h2 : ∑ b, pi (e.next s a j) b * e.Ahead gamma pi v N (e.next s a j) b ≤ ∑ b, pi (e.next s a j) b * e.Ahead gamma pi w N (e.next s a j) b + gamma ^ N * M := by
        have e2 : gamma ^ N * M = ∑ b, pi (e.next s a j) b * (gamma ^ N * M) := by rw [← Finset.sum_mul, (hpi _).2, one_mul]
        rw [e2, ← Finset.sum_add_distrib]
        refine Finset.sum_le_sum fun b _ => ?_
        rw [← mul_add]
        exact mul_le_mul_of_nonneg_left (ih _ _) ((hpi _).1 b)
      have h3 := mul_le_mul_of_nonneg_left h2 h0
      rw [pow_succ]
      linarith

/-- The greatest nonnegative difference. -/
theorem excess_bound [Fintype σ] (q p : σ → Fin n → ℝ) {c : ℝ} (hc : c < 1) (h : ∀ M, 0 ≤ M → (∀ s a, q s a ≤ p s a + M) → ∀ s a, q s a ≤ p s a + c * M) (s : σ) (a : Fin n) : q s a ≤ p s a := by
  obtain ⟨y, -, hy⟩ := Finset.exists_max_image (Finset.univ : Finset (σ × Fin n)) (fun y => q y.1 y.2 - p y.1 y.2) ⟨(s, a), Finset.mem_univ _⟩
  by_contra hlt
  have h2 := hy (s, a) (Finset.mem_univ _)
  simp only at h2
  have h3 := h (q y.1 y.2 - p y.1 y.2) (by linarith) (fun s a => by have := hy (s, a) (Finset.mem_univ _); simp only at this; linarith) y.1 y.2
  nlinarith [mul_pos (sub_pos.2 hc) (show 0 < q y.1 y.2 - p y.1 y.2 by linarith)]

theorem greedy_mono {q p : Fin n → ℝ} {x y M : ℝ} {s : σ} (hx : Greedy s q x) (hy : Greedy s p y) (h : ∀ a, q a ≤ p a + M) : x ≤ y + M := by
  obtain ⟨⟨a, rfl⟩, -⟩ := hx
  have := hy.2 ⟨a, rfl⟩
  linarith [h a]

/-- **C135**: the limit is never larger than the optimal values. -/
theorem C135_at_most_optimal [Fintype σ] {e : Mdp σ n m} (he : e.Proper) {gamma : ℝ} (h0 : 0 ≤ gamma) (h1 : gamma < 1) {N : ℕ} (hN : 0 < N) {pi : σ → Fin n → ℝ} (hpi : ∀ s, (∀ a, 0 ≤ pi s a) ∧ ∑ a, pi s a = 1) {q best : σ → Fin n → ℝ}
    (hq : e.SolvesAhead gamma pi Greedy N q) (hbest : e.Solves gamma Greedy best) (s : σ) (a : Fin n) : q s a ≤ best s a := by
  obtain ⟨v, hv, hq⟩ := hq
  obtain ⟨w, hw, hb⟩ := hbest
  have hle : ∀ N, 0 < N → ∀ s a, e.Ahead gamma pi w N s a ≤ best s a := by
    intro N hN
    induction N with
    | zero => omega
    | succ N ih =>
      intro s a
      rw [Mdp.Ahead, hb]
      refine Finset.sum_le_sum fun j _ => mul_le_mul_of_nonneg_left ?_ (he.nonneg _ _ _)
      split
      · exact le_rfl
      · refine add_le_add le_rfl (mul_le_mul_of_nonneg_left ?_ h0)
        have : ∀ b, e.Ahead gamma pi w N (e.next s a j) b ≤ w (e.next s a j) := by
          intro b
          rcases Nat.eq_zero_or_pos N with rfl | hN
          · exact le_rfl
          · exact (ih hN _ _).trans ((hw _).2 ⟨b, rfl⟩)
        calc _ ≤ ∑ b, pi (e.next s a j) b * w (e.next s a j) := Finset.sum_le_sum fun b _ => mul_le_mul_of_nonneg_left (this b) ((hpi _).1 b)
          _ = _ := by rw [← Finset.sum_mul, (hpi _).2, one_mul]
  have hg : gamma ^ N < 1 := (pow_le_of_le_one h0 h1.le hN.ne').trans_lt h1
  refine excess_bound q best hg (fun M hM hM' s a => ?_) s a
  rw [hq]
  refine (ahead_mono he h0 hpi hM (w := w) (fun s => greedy_mono (hv s) (hw s) (hM' s)) N s a).trans ?_
  linarith [hle N hN s a]

/-- **C135**: the limit is at least as large as the values of the policy that chooses the actions. -/
theorem C135_at_least_policy [Fintype σ] {e : Mdp σ n m} (he : e.Proper) {gamma : ℝ} (h0 : 0 ≤ gamma) (h1 : gamma < 1) {N : ℕ} (hN : 0 < N) {pi : σ → Fin n → ℝ} (hpi : ∀ s, (∀ a, 0 ≤ pi s a) ∧ ∑ a, pi s a = 1) {q : σ → Fin n → ℝ}
    (hq : e.SolvesAhead gamma pi Greedy N q) {v : σ → ℝ} (hv : ∀ s, e.Worth gamma 0 (stationary pi) s (v s)) (s : σ) (a : Fin n) :
    ∑ j, e.prob s a j * (e.reward s a j + if e.ends s a j then 0 else gamma * v (e.next s a j)) ≤ q s a := by
  obtain ⟨v', hv', hvb⟩ := policy_solution he h0 h1 hpi
  obtain rfl : v' = v := funext fun s => tendsto_nhds_unique (hv' s) (hv s)
  obtain ⟨u, hu, hq⟩ := hq
  have hg : gamma ^ N < 1 := (pow_le_of_le_one h0 h1.le hN.ne').trans_lt h1
  refine excess_bound (fun s a => e.back gamma v' s a) q hg (fun M hM hM' s a => ?_) s a
  rw [hq, ← ahead_back hpi hvb hN]
  refine ahead_mono he h0 hpi hM (fun s => ?_) N s a
  rw [hvb s]
  calc _ ≤ ∑ b, pi s b * (u s + M) := Finset.sum_le_sum fun b _ => mul_le_mul_of_nonneg_left ((hM' s b).trans (by linarith [(hu s).2 ⟨b, rfl⟩])) ((hpi s).1 b)
    _ = _ := by rw [← Finset.sum_mul, (hpi s).2, one_mul]

/-- **C135**: with one step the limit is optimal. -/
theorem C135_one_step {e : Mdp σ n m} {gamma : ℝ} {pi : σ → Fin n → ℝ} (hpi : ∀ s, (∀ a, 0 ≤ pi s a) ∧ ∑ a, pi s a = 1) (boot : σ → (Fin n → ℝ) → ℝ → Prop) (q : σ → Fin n → ℝ) : e.SolvesAhead gamma pi boot 1 q ↔ e.Solves gamma boot q := by
  have h : ∀ v s a, e.Ahead gamma pi v 1 s a = ∑ j, e.prob s a j * (e.reward s a j + if e.ends s a j then 0 else gamma * v (e.next s a j)) := by
    intro v s a
    simp only [Mdp.Ahead, ← Finset.sum_mul, (hpi _).2, one_mul]
  unfold Mdp.SolvesAhead Mdp.Solves
  simp only [h]

/-- **C135**: with any number of steps the limit is optimal if the policy that chooses the actions chooses only optimal ones. -/
theorem C135_optimal_policy {e : Mdp σ n m} {gamma : ℝ} {pi : σ → Fin n → ℝ} (hpi : ∀ s, (∀ a, 0 ≤ pi s a) ∧ ∑ a, pi s a = 1) {best : σ → Fin n → ℝ} (hbest : e.Solves gamma Greedy best)
    (hopt : ∀ s a, pi s a ≠ 0 → ∀ b, best s b ≤ best s a) {N : ℕ} (hN : 0 < N) : e.SolvesAhead gamma pi Greedy N best := by
  obtain ⟨w, hw, hb⟩ := hbest
  refine ⟨w, hw, fun s a => ?_⟩
  have hmean : ∀ s, w s = ∑ a, pi s a * e.back gamma w s a := by
    intro s
    have : ∀ a, pi s a * e.back gamma w s a = pi s a * w s := by
      intro a
      by_cases h : pi s a = 0
      · rw [h, zero_mul, zero_mul]
      · congr 1
        show (∑ j, _) = _
        rw [← hb]
        obtain ⟨⟨c, hc⟩, hmax⟩ := hw s
        exact le_antisymm (hmax ⟨a, rfl⟩) (by rw [← hc]; exact hopt s a h c)
    simp only [this, ← Finset.sum_mul, (hpi s).2, one_mul]
  rw [ahead_back hpi hmean hN, hb]
  rfl

/-! ### It need not be optimal -/

/-- A choice between a reward of 3/8 at once, and a second choice between a reward of 1 and nothing. -/
noncomputable def shortcut : Mdp Bool 2 1 := ⟨fun _ _ _ => 1, fun s a _ => if s then (if a = 1 then 1 else 0) else if a = 1 then 0 else 3 / 8, fun s a _ => !s && a == 1, fun s a _ => s || a == 0⟩

/-- **C135**, the negative part: with more than one step the limit need not be optimal, and the actions with the largest values need not be the best ones: in this environment with discount factor 1/2 the action 1 is optimal in the first state, but if the agent tries
both actions equally often, then the values of action 0 become larger with two steps. -/
theorem C135_not_optimal : ∃ (e : Mdp Bool 2 1) (pi : Bool → Fin 2 → ℝ) (q best : Bool → Fin 2 → ℝ), e.Proper ∧ (∀ s, (∀ a, 0 < pi s a) ∧ ∑ a, pi s a = 1) ∧ e.SolvesAhead (1 / 2) pi Greedy 2 q ∧ e.Solves (1 / 2) Greedy best ∧
    q false 1 < q false 0 ∧ best false 0 < best false 1 := by
  refine ⟨shortcut, fun _ _ => 1 / 2, fun s a => if s then (if a = 1 then 1 else 0) else if a = 1 then 1 / 4 else 3 / 8, fun s a => if s then (if a = 1 then 1 else 0) else if a = 1 then 1 / 2 else 3 / 8,
    ⟨fun _ _ _ => by norm_num [shortcut], fun _ _ => by norm_num [shortcut]⟩, fun s => ⟨fun a => by norm_num, by norm_num⟩, ⟨fun s => if s then 1 else 3 / 8, fun s => ?_, fun s a => ?_⟩, ⟨fun s => if s then 1 else 1 / 2, fun s => ?_, fun s a => ?_⟩, by norm_num, by norm_num⟩
  · cases s
    · exact ⟨⟨0, by simp⟩, by rintro _ ⟨a, rfl⟩; fin_cases a <;> norm_num⟩
    · exact ⟨⟨1, by simp⟩, by rintro _ ⟨a, rfl⟩; fin_cases a <;> norm_num⟩
  · cases s <;> fin_cases a <;> norm_num [Mdp.Ahead, shortcut, Fin.sum_univ_two]
  · cases s
    · exact ⟨⟨1, by simp⟩, by rintro _ ⟨a, rfl⟩; fin_cases a <;> norm_num⟩
    · exact ⟨⟨1, by simp⟩, by rintro _ ⟨a, rfl⟩; fin_cases a <;> norm_num⟩
  · cases s <;> fin_cases a <;> norm_num [shortcut]

/-! ### An agent that flips coins -/

theorem coin_antitone : Antitone fun t : ℕ => 1 / ((t : ℝ) + 1) := by
  intro s t h
  have : (s : ℝ) ≤ t := by exact_mod_cast h
  exact one_div_le_one_div_of_le (by positivity) (by linarith)

/-- The hypotheses of C134 are met: with three steps, `Sarsa` and `SimpleTD` learn the values of the policy that flips coins. -/
example (θ0 θT0 : Bool → Fin 2 → ℝ) (η0 ηT0 : Bool → ℝ) : ∃ v : Bool → ℝ, (∀ s, twoCoins.Worth (1 / 2) 0 (stationary fun _ _ => 1 / 2) s (v s)) ∧
    (∃ θ θT : ℕ → (ℕ → Bool) → Bool → Fin 2 → ℝ, (∀ k ω, ∃ t c, onlineT (fun t => 1 / ((t : ℝ) + 1)) (1 / 10) mse1 (sarsa 2) true (NStep.init 3 (1 / 2) false, (θ0, θT0), 0)
      ((List.range k).map fun t => (coinSteps t ω, twoCoins.ends (coinSteps t ω).s (coinSteps t ω).a (if ω (2 * t + 2) then 1 else 0))) = .ok (t, (θ k ω, θT k ω), c)) ∧ ∀ᵐ ω ∂coins, Tendsto (fun k => θ k ω false 1) atTop (𝓝 (1 / 2 * v true))) ∧
    ∃ η ηT : ℕ → (ℕ → Bool) → Bool → ℝ, (∀ k ω, ∃ t c, onlineV (fun t => 1 / ((t : ℝ) + 1)) (1 / 10) mse1 (NStep.init 3 (1 / 2) false, (η0, ηT0), 0)
      ((List.range k).map fun t => (coinSteps t ω, twoCoins.ends (coinSteps t ω).s (coinSteps t ω).a (if ω (2 * t + 2) then 1 else 0))) = .ok (t, (η k ω, ηT k ω), c)) ∧ ∀ᵐ ω ∂coins, Tendsto (fun k => η k ω false) atTop (𝓝 (v false)) := by
  have hp : twoCoins.Proper := ⟨fun _ _ _ => by norm_num [twoCoins], fun _ _ => by norm_num [twoCoins]⟩
  have hpi : ∀ s : Bool, (∀ a : Fin 2, 0 ≤ (fun _ _ => 1 / 2 : Bool → Fin 2 → ℝ) s a) ∧ ∑ a : Fin 2, (fun _ _ => 1 / 2 : Bool → Fin 2 → ℝ) s a = 1 := fun s => ⟨fun a => by norm_num, by norm_num⟩
  obtain ⟨v, hv, -⟩ := C127_sarsa (by norm_num) hp (gamma := 1 / 2) (by norm_num) (by norm_num) hpi
  obtain ⟨θ, θT, h, h'⟩ := C134_sarsa (N := 3) (by norm_num) hp (by norm_num) (by norm_num) (by norm_num) hpi coin_explorer coin_antitone coin_obeys (tau := 1 / 10) (by norm_num) (by norm_num) hv true θ0 θT0
  obtain ⟨η, ηT, g, g'⟩ := C134_simple_td (N := 3) (by norm_num) hp (by norm_num) (by norm_num) (by norm_num) hpi coin_explorer coin_antitone coin_obeys (fun t => measurable_const) (tau := 1 / 10) (by norm_num) (by norm_num) hv η0 ηT0
  refine ⟨v, hv, ⟨θ, θT, h, h'.mono fun ω h' => ?_⟩, η, ηT, g, g'.mono fun ω g' => (g' false).1⟩
  have h2 := (h' false 1).1
  have h3 : (∑ j, twoCoins.prob false 1 j * (twoCoins.reward false 1 j + if twoCoins.ends false 1 j then 0 else 1 / 2 * v (twoCoins.next false 1 j))) = 1 / 2 * v true := by
    simp [twoCoins]
  rwa [h3] at h2

/-- The same for `ExpectedSarsa` with a policy whose logits are zero. -/
example (θ0 θT0 : Bool → Fin 2 → ℝ) : ∃ v : Bool → ℝ, (∀ s, twoCoins.Worth (1 / 2) 0 (stationary fun _ _ => 1 / 2) s (v s)) ∧
    ∃ θ θT : ℕ → (ℕ → Bool) → Bool → Fin 2 → ℝ, (∀ k ω, ∃ t c, onlineT (fun t => 1 / ((t : ℝ) + 1)) (1 / 10) mse1 (fun q qTarg => expectedSarsa 2 (fun S => S.map fun _ => (List.finRange 2).map fun _ => 0) q qTarg) false (NStep.init 4 (1 / 2) false, (θ0, θT0), 0)
      ((List.range k).map fun t => (coinSteps t ω, twoCoins.ends (coinSteps t ω).s (coinSteps t ω).a (if ω (2 * t + 2) then 1 else 0))) = .ok (t, (θ k ω, θT k ω), c)) ∧ ∀ᵐ ω ∂coins, Tendsto (fun k => θ k ω false 1) atTop (𝓝 (1 / 2 * v true)) := by
  have hp : twoCoins.Proper := ⟨fun _ _ _ => by norm_num [twoCoins], fun _ _ => by norm_num [twoCoins]⟩
  have hpi : ∀ s : Bool, (∀ a : Fin 2, 0 ≤ (fun _ _ => 1 / 2 : Bool → Fin 2 → ℝ) s a) ∧ ∑ a : Fin 2, (fun _ _ => 1 / 2 : Bool → Fin 2 → ℝ) s a = 1 := fun s => ⟨fun a => by norm_num, by norm_num⟩
  obtain ⟨v, hv, -⟩ := C127_sarsa (by norm_num) hp (gamma := 1 / 2) (by norm_num) (by norm_num) hpi
  have hz : (fun s a => Real.exp ((fun _ _ => 0 : Bool → Fin 2 → ℝ) s a) / ∑ b, Real.exp ((fun _ _ => 0 : Bool → Fin 2 → ℝ) s b)) = fun _ _ => 1 / 2 := by funext s a; norm_num
  obtain ⟨θ, θT, h, h'⟩ := C134_expected_sarsa (N := 4) (gamma := 1 / 2) (by norm_num) hp (by norm_num) (by norm_num) (by norm_num) (fun _ _ => 0) coin_explorer coin_antitone (by rw [hz]; exact coin_obeys) (tau := 1 / 10) (by norm_num) (by norm_num) (by rw [hz]; exact hv) false θ0 θT0
  refine ⟨v, hv, θ, θT, h, h'.mono fun ω h' => ?_⟩
  have h2 := (h' false 1).1
  have h3 : (∑ j, twoCoins.prob false 1 j * (twoCoins.reward false 1 j + if twoCoins.ends false 1 j then 0 else 1 / 2 * v (twoCoins.next false 1 j))) = 1 / 2 * v true := by
    simp [twoCoins]
  rwa [h3] at h2

/-- The hypotheses of C135 are met: with two steps `QLearning` finds 2/7 where the optimal value is 1/2. -/
example (θ0 θT0 : Bool → Fin 2 → ℝ) : ∃ θ θT : ℕ → (ℕ → Bool) → Bool → Fin 2 → ℝ, (∀ k ω, ∃ t c, onlineT (fun t => 1 / ((t : ℝ) + 1)) (1 / 10) mse1 (qLearning 2) true (NStep.init 2 (1 / 2) false, (θ0, θT0), 0)
      ((List.range k).map fun t => (coinSteps t ω, twoCoins.ends (coinSteps t ω).s (coinSteps t ω).a (if ω (2 * t + 2) then 1 else 0))) = .ok (t, (θ k ω, θT k ω), c)) ∧ ∀ᵐ ω ∂coins, Tendsto (fun k => θ k ω false 1) atTop (𝓝 (2 / 7)) := by
  have hp : twoCoins.Proper := ⟨fun _ _ _ => by norm_num [twoCoins], fun _ _ => by norm_num [twoCoins]⟩
  have hpi : ∀ s : Bool, (∀ a : Fin 2, 0 ≤ (fun _ _ => 1 / 2 : Bool → Fin 2 → ℝ) s a) ∧ ∑ a : Fin 2, (fun _ _ => 1 / 2 : Bool → Fin 2 → ℝ) s a = 1 := fun s => ⟨fun a => by norm_num, by norm_num⟩
  obtain ⟨best, -, hu, H⟩ := C135_q_learning (N := 2) (by norm_num) hp (gamma := 1 / 2) (by norm_num) (by norm_num) (by norm_num) hpi
  have hs : twoCoins.SolvesAhead (1 / 2) (fun _ _ => 1 / 2) Greedy 2 fun s a => if a = 0 then 9 / 56 else if s then 1 else 2 / 7 := by
    refine ⟨fun s => if s then 1 else 2 / 7, fun s => ?_, fun s a => ?_⟩
    · cases s
      · exact ⟨⟨1, by simp⟩, by rintro _ ⟨a, rfl⟩; fin_cases a <;> norm_num⟩
      · exact ⟨⟨1, by simp⟩, by rintro _ ⟨a, rfl⟩; fin_cases a <;> norm_num⟩
    · cases s <;> fin_cases a <;> norm_num [Mdp.Ahead, twoCoins, Fin.sum_univ_two]
  obtain ⟨θ, θT, h, h'⟩ := H coin_explorer coin_antitone coin_obeys (tau := 1 / 10) (by norm_num) (by norm_num) true θ0 θT0
  exact ⟨θ, θT, h, h'.mono fun ω h' => by simpa [← hu _ hs] using (h' false 1).1⟩

end Coax.Loop
