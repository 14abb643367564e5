import Verif.Loop.TabularProps
import Mathlib.Tactic.FinCases
import Mathlib.Tactic.IntervalCases

/-! Property C104: tabular Q-learning, expected SARSA and soft Q-learning converge in deterministic environments. -/

namespace Coax.Loop

open Coax.RewardTracing Coax.TD Coax.Core Coax.Values Coax.Pol Filter Topology

variable {σ : Type _} {n : Nat} [DecidableEq σ]

/-! ### Batches -/

/-- **C104** for `QLearning`: in a finite deterministic environment there is one solution of the Bellman optimality equation, and the params of a table converge to it, from everywhere, for any choice of batches of one-step transitions
in which every state and action occurs infinitely often.  No update raises. -/
theorem C104_q_learning [Fintype σ] (hn : 0 < n) (e : Det σ n) {gamma lr : ℝ} (h0 : 0 ≤ gamma) (h1 : gamma < 1) (hlr : 0 < lr) :
    ∃ best, e.Solves gamma Greedy best ∧ (∀ q, e.Solves gamma Greedy q → q = best) ∧
      ∀ L, StandardLoss L → ∀ type1 batches tau, Feeds e gamma lr batches tau → ∀ θ0 θT0, ∃ θ θT : ℕ → σ → Fin n → ℝ,
        (∀ k, learn lr L (qLearning n) type1 (θ0, θT0) ((List.range k).map fun t => (batches t, tau t)) = .ok (θ k, θT k)) ∧
        ∀ s a, Tendsto (fun k => θ k s a) atTop (𝓝 (best s a)) ∧ Tendsto (fun k => θT k s a) atTop (𝓝 (best s a)) := by
  obtain ⟨best, hb, hu⟩ := solution (rule_qLearning (σ := σ) hn false) e h0 h1
  exact ⟨best, hb, hu, fun L hL type1 batches tau hf θ0 θT0 => learn_converges (rule_qLearning hn type1) hn h0 h1 hlr hL hf hb θ0 θT0⟩

/-- **C104** for `ExpectedSarsa`: the values of the target policy, whatever the policy is that acts. -/
theorem C104_expected_sarsa [Fintype σ] (hn : 0 < n) (e : Det σ n) {gamma lr : ℝ} (h0 : 0 ≤ gamma) (h1 : gamma < 1) (hlr : 0 < lr) (logits : σ → Fin n → ℝ) :
    ∃ best, e.Solves gamma (Mean (fun s a => Real.exp (logits s a) / ∑ b, Real.exp (logits s b))) best ∧ (∀ q, e.Solves gamma (Mean (fun s a => Real.exp (logits s a) / ∑ b, Real.exp (logits s b))) q → q = best) ∧
      ∀ L, StandardLoss L → ∀ type1 batches tau, Feeds e gamma lr batches tau → ∀ θ0 θT0, ∃ θ θT : ℕ → σ → Fin n → ℝ,
        (∀ k, learn lr L (fun q qTarg => expectedSarsa n (fun S => S.map fun s => (List.finRange n).map (logits s)) q qTarg) type1 (θ0, θT0) ((List.range k).map fun t => (batches t, tau t)) = .ok (θ k, θT k)) ∧
        ∀ s a, Tendsto (fun k => θ k s a) atTop (𝓝 (best s a)) ∧ Tendsto (fun k => θT k s a) atTop (𝓝 (best s a)) := by
  obtain ⟨best, hb, hu⟩ := solution (rule_expectedSarsa (σ := σ) hn false logits) e h0 h1
  exact ⟨best, hb, hu, fun L hL type1 batches tau hf θ0 θT0 => learn_converges (rule_expectedSarsa hn type1 logits) hn h0 h1 hlr hL hf hb θ0 θT0⟩

/-- **C104** for `SoftQLearning`. -/
theorem C104_soft_q_learning [Fintype σ] (hn : 0 < n) (e : Det σ n) {gamma lr temp : ℝ} (h0 : 0 ≤ gamma) (h1 : gamma < 1) (hlr : 0 < lr) (ht : 0 < temp) :
    ∃ best, e.Solves gamma (Soft temp) best ∧ (∀ q, e.Solves gamma (Soft temp) q → q = best) ∧
      ∀ L, StandardLoss L → ∀ type1 batches tau, Feeds e gamma lr batches tau → ∀ θ0 θT0, ∃ θ θT : ℕ → σ → Fin n → ℝ,
        (∀ k, learn lr L (fun q qTarg => softQLearning n temp q qTarg) type1 (θ0, θT0) ((List.range k).map fun t => (batches t, tau t)) = .ok (θ k, θT k)) ∧
        ∀ s a, Tendsto (fun k => θ k s a) atTop (𝓝 (best s a)) ∧ Tendsto (fun k => θT k s a) atTop (𝓝 (best s a)) := by
  obtain ⟨best, hb, hu⟩ := solution (rule_softQLearning (σ := σ) hn false ht) e h0 h1
  exact ⟨best, hb, hu, fun L hL type1 batches tau hf θ0 θT0 => learn_converges (rule_softQLearning hn type1 ht) hn h0 h1 hlr hL hf hb θ0 θT0⟩

/-! ### Optimality -/

/-- The discounted sum of the first `k` rewards from state `s` with the actions `u`, until the episode ends. -/
def Det.ret (e : Det σ n) (gamma : ℝ) : ℕ → σ → (ℕ → Fin n) → ℝ
  | 0, _, _ => 0
  | k + 1, s, u => e.reward s (u 0) + if e.ends s (u 0) then 0 else gamma * Det.ret e gamma k (e.next s (u 0)) fun i => u (i + 1)

omit [DecidableEq σ] in
theorem ret_succ (e : Det σ n) (gamma : ℝ) (k : ℕ) (s : σ) (u : ℕ → Fin n) :
    e.ret gamma (k + 1) s u = e.reward s (u 0) + if e.ends s (u 0) then 0 else gamma * e.ret gamma k (e.next s (u 0)) fun i => u (i + 1) := rfl

omit [DecidableEq σ] in
theorem ret_cauchy [Fintype σ] (e : Det σ n) {gamma : ℝ} (h0 : 0 ≤ gamma) : ∃ C, 0 ≤ C ∧ ∀ k s u, |e.ret gamma (k + 1) s u - e.ret gamma k s u| ≤ C * gamma ^ k := by
  obtain ⟨C, hC⟩ := (Set.finite_range fun p : σ × Fin n => |e.reward p.1 p.2|).bddAbove
  refine ⟨max C 0, le_max_right _ _, fun k => ?_⟩
  induction k with
  | zero =>
    intro s u
    have : |e.reward s (u 0)| ≤ C := hC ⟨(s, u 0), rfl⟩
    simp only [Det.ret, mul_zero, ite_self, add_zero, sub_zero, pow_zero, mul_one]
    exact this.trans (le_max_left _ _)
  | succ k ih =>
    intro s u
    rw [ret_succ e gamma (k + 1) s u, ret_succ e gamma k s u]
    split
    · simpa using mul_nonneg (le_max_right C 0) (pow_nonneg h0 _)
    · have := ih (e.next s (u 0)) fun i => u (i + 1)
      have e1 : ∀ r x y : ℝ, r + gamma * x - (r + gamma * y) = gamma * (x - y) := fun r x y => by ring
      rw [e1, abs_mul, abs_of_nonneg h0]
      calc gamma * _ ≤ gamma * (max C 0 * gamma ^ k) := mul_le_mul_of_nonneg_left this h0
        _ = _ := by rw [pow_succ]; ring

omit [DecidableEq σ] in
/-- **C104**, the limit is optimal: it is the largest discounted sum of rewards that any sequence of actions can get. -/
theorem C104_optimal [Fintype σ] (hn : 0 < n) (e : Det σ n) {gamma : ℝ} (h0 : 0 ≤ gamma) (h1 : gamma < 1) {best : σ → Fin n → ℝ} (hb : e.Solves gamma Greedy best) (s : σ) (a : Fin n) :
    (∀ u : ℕ → Fin n, u 0 = a → ∃ G, Tendsto (fun k => e.ret gamma k s u) atTop (𝓝 G) ∧ G ≤ best s a) ∧
    ∃ u : ℕ → Fin n, u 0 = a ∧ Tendsto (fun k => e.ret gamma k s u) atTop (𝓝 (best s a)) := by
  obtain ⟨C, hC⟩ := (Set.finite_range fun p : σ × Fin n => |best p.1 p.2|).bddAbove
  have hC : ∀ s a, |best s a| ≤ C := fun s a => hC ⟨(s, a), rfl⟩
  have hC0 : 0 ≤ C := (abs_nonneg _).trans (hC s a)
  have hz : Tendsto (fun k : ℕ => C * gamma ^ k) atTop (𝓝 0) := by simpa using (tendsto_pow_atTop_nhds_zero_of_lt_one h0 h1).const_mul C
  have upper : ∀ k s (u : ℕ → Fin n), e.ret gamma k s u ≤ best s (u 0) + C * gamma ^ k := by
    intro k
    induction k with
    | zero =>
      intro s u
      have := (abs_le.1 (hC s (u 0))).1
      simp only [Det.ret, pow_zero, mul_one]
      linarith
    | succ k ih =>
      intro s u
      obtain ⟨h2, h3⟩ := hb s (u 0)
      rw [Det.ret]
      cases he : e.ends s (u 0) with
      | true =>
        rw [h2 he]
        simpa using mul_nonneg hC0 (pow_nonneg h0 _)
      | false =>
        obtain ⟨x, hx, hq⟩ := h3 he
        have h4 : best (e.next s (u 0)) (u 1) ≤ x := hx.2 ⟨u 1, rfl⟩
        have h5 := ih (e.next s (u 0)) fun i => u (i + 1)
        rw [hq, if_neg (by simp)]
        have h6 : gamma * e.ret gamma k (e.next s (u 0)) (fun i => u (i + 1)) ≤ gamma * (x + C * gamma ^ k) := mul_le_mul_of_nonneg_left (h5.trans (by simpa using h4)) h0
        rw [pow_succ]
        nlinarith
  constructor
  · intro u hu
    obtain ⟨D, hD0, hD⟩ := ret_cauchy e h0
    have hcs : CauchySeq fun k => e.ret gamma k s u := by
      refine cauchySeq_of_le_geometric gamma D h1 fun k => ?_
      rw [Real.dist_eq, abs_sub_comm]
      exact hD k s u
    obtain ⟨G, hG⟩ := cauchySeq_tendsto_of_complete hcs
    refine ⟨G, hG, ?_⟩
    have := le_of_tendsto_of_tendsto' hG (tendsto_const_nhds.add hz) (fun k => upper k s u)
    rwa [add_zero, hu] at this
  · have : Nonempty (Fin n) := ⟨⟨0, hn⟩⟩
    choose g hg using fun s => Finite.exists_max (best s)
    let sq : σ → Fin n → ℕ → σ × Fin n := fun s a k => Nat.rec (s, a) (fun _ p => (e.next p.1 p.2, g (e.next p.1 p.2))) k
    have hsq : ∀ s a k, sq s a (k + 1) = sq (e.next s a) (g (e.next s a)) k := by
      intro s a k
      induction k with
      | zero => rfl
      | succ k ih =>
        show (e.next (sq s a (k + 1)).1 (sq s a (k + 1)).2, g (e.next (sq s a (k + 1)).1 (sq s a (k + 1)).2)) = _
        rw [ih]
    have lower : ∀ k s a, |e.ret gamma k s (fun i => (sq s a i).2) - best s a| ≤ C * gamma ^ k := by
      intro k
      induction k with
      | zero =>
        intro s a
        simpa [Det.ret] using hC s a
      | succ k ih =>
        intro s a
        obtain ⟨h2, h3⟩ := hb s a
        rw [Det.ret]
        simp only [hsq]
        show |e.reward s a + (if e.ends s a = true then 0 else gamma * e.ret gamma k (e.next s a) fun i => (sq (e.next s a) (g (e.next s a)) i).2) - best s a| ≤ _
        cases he : e.ends s a with
        | true =>
          rw [h2 he]
          simpa using mul_nonneg hC0 (pow_nonneg h0 _)
        | false =>
          obtain ⟨x, hx, hq⟩ := h3 he
          have h4 : x = best (e.next s a) (g (e.next s a)) := by
            obtain ⟨⟨b, rfl⟩, h⟩ := hx
            exact le_antisymm (hg _ b) (h ⟨_, rfl⟩)
          rw [hq, if_neg (by simp), h4]
          have e1 : ∀ r x y : ℝ, r + gamma * x - (r + gamma * y) = gamma * (x - y) := fun r x y => by ring
          rw [e1, abs_mul, abs_of_nonneg h0]
          calc gamma * _ ≤ gamma * (C * gamma ^ k) := mul_le_mul_of_nonneg_left (ih _ _) h0
            _ = _ := by rw [pow_succ]; ring
    refine ⟨fun i => (sq s a i).2, rfl, ?_⟩
    have : Tendsto (fun k => e.ret gamma k s (fun i => (sq s a i).2) - best s a) atTop (𝓝 0) := squeeze_zero_norm (fun k => lower k s a) hz
    simpa using this.add_const (best s a)

omit [DecidableEq σ] in
/-- **C104**, the policy: from some time on, every action that is greedy for the learned values is optimal. -/
theorem C104_greedy_policy [Finite σ] {best : σ → Fin n → ℝ} {θ : ℕ → σ → Fin n → ℝ} (h : ∀ s a, Tendsto (fun k => θ k s a) atTop (𝓝 (best s a))) :
    ∃ K, ∀ k, K ≤ k → ∀ s a, (∀ b, θ k s b ≤ θ k s a) → ∀ b, best s b ≤ best s a := by
  have key : ∀ s a b, ∀ᶠ k in atTop, best s a < best s b → θ k s a < θ k s b := by
    intro s a b
    by_cases hlt : best s a < best s b
    · exact ((h s a).eventually_lt (h s b) hlt).mono fun k hk _ => hk
    · exact Eventually.of_forall fun k hk => absurd hk hlt
  have : ∀ᶠ k in atTop, ∀ p : σ × Fin n × Fin n, best p.1 p.2.1 < best p.1 p.2.2 → θ k p.1 p.2.1 < θ k p.1 p.2.2 := eventually_all.2 fun p => key _ _ _
  obtain ⟨K, hK⟩ := eventually_atTop.1 this
  refine ⟨K, fun k hk s a hmax b => ?_⟩
  by_contra hlt
  exact absurd (hK k hk (s, a, b) (not_le.1 hlt)) (not_lt.2 (hmax b))

/-! ### The online loop -/

/-- A sequence of steps of an agent in a deterministic environment, without truncation. -/
structure Walk (e : Det σ n) (lr : ℝ) (xs : ℕ → Step σ (Fin n) ℝ) : Prop where
  reward : ∀ t, (xs t).r = e.reward (xs t).s (xs t).a
  next : ∀ t, e.ends (xs t).s (xs t).a = false → (xs (t + 1)).s = e.next (xs t).s (xs t).a
  logp : ∀ t, (xs t).logp ≤ 0
  w : ∀ t, 0 < (xs t).w
  rate : ∀ t, lr * min (max (xs t).w 0.1) 10 ≤ 1
  visits : ∀ s a t, ∃ t', t ≤ t' ∧ (xs t').s = s ∧ (xs t').a = a

/-- The tracer with the given steps in it. -/
noncomputable def tracerWith (gamma : ℝ) (l : List (Step σ (Fin n) ℝ)) (done : Bool) : NStep σ (Fin n) ℝ :=
  { n := 1, gamma := gamma, recordExtraInfo := false, dequeS := l.map fun x => (x.s, x.a, x.logp, x.w), dequeR := l.map (·.r), done := done, gammas := [gamma ^ 0], gamman := gamma ^ 1 }

/-- The transition of a step that is followed by `y`. -/
noncomputable def rowOf (gamma : ℝ) (x y : Step σ (Fin n) ℝ) (done : Bool) : Out σ (Fin n) ℝ :=
  { S := x.s, A := x.a, logP := x.logp, Rn := x.r, In := gamma * (1 - if done then 1 else 0), S_next := some (if done then x.s else y.s), A_next := some (if done then x.a else y.a),
    logP_next := some (if done then x.logp else y.logp), W := x.w, idx := 0, extraInfo := none }

omit [DecidableEq σ] in
theorem pop_two {gamma : ℝ} (h0 : 0 ≤ gamma) (h1 : gamma ≤ 1) {x y : Step σ (Fin n) ℝ} (hx : x.logp ≤ 0) (hy : y.logp ≤ 0) (hw : 0 < x.w) (done : Bool) :
    (tracerWith gamma [x, y] done).pop = (tracerWith gamma [y] done, .ok (rowOf gamma x y false)) := by
  simp [NStep.pop, tracerWith, NStep.bool, NStep.len, fromSingle, rowOf, hx, hy, hw, h0, h1]

omit [DecidableEq σ] in
theorem pop_last {gamma : ℝ} (h0 : 0 ≤ gamma) (h1 : gamma ≤ 1) {x : Step σ (Fin n) ℝ} (hx : x.logp ≤ 0) (hw : 0 < x.w) (y : Step σ (Fin n) ℝ) :
    (tracerWith gamma [x] true).pop = (tracerWith gamma [] true, .ok (rowOf gamma x y true)) := by
  simp [NStep.pop, tracerWith, NStep.bool, NStep.len, fromSingle, rowOf, hx, hw, h0, h1]

theorem online_append {lr : ℝ} {L : LossFn} {updateRule} {type1 : Bool} {s s' : NStep σ (Fin n) ℝ × (σ → Fin n → ℝ)} {xs : List (Step σ (Fin n) ℝ × Bool)} (h : online lr L updateRule type1 s xs = .ok s') (ys : List (Step σ (Fin n) ℝ × Bool)) :
    online lr L updateRule type1 s (xs ++ ys) = online lr L updateRule type1 s' ys := by
  induction xs generalizing s with
  | nil => cases h; rfl
  | cons x xs ih =>
    obtain ⟨t, θ⟩ := s
    obtain ⟨x, d⟩ := x
    rw [online] at h
    rw [List.cons_append, online]
    split at h
    · cases h
    · split at h
      · cases h
      · exact ih h

omit [DecidableEq σ] in
theorem softTable_one (θT θ : σ → Fin n → ℝ) : softTable 1 θT θ = θ := by
  funext s a
  simp [softTable]

/-- The online loop does one update for each step, with the transition of this step; the last step waits for its successor. -/
theorem online_learn {lr gamma : ℝ} (h0 : 0 ≤ gamma) (h1 : gamma ≤ 1) {L : LossFn} {updateRule} {type1 : Bool} {e : Det σ n} {xs : ℕ → Step σ (Fin n) ℝ} (hlogp : ∀ t, (xs t).logp ≤ 0) (hw : ∀ t, 0 < (xs t).w) {θ0 : σ → Fin n → ℝ}
    {θ : ℕ → σ → Fin n → ℝ} (hθ0 : θ 0 = θ0) (hθ : ∀ j, sgdUpdate lr L updateRule type1 (θ j) (θ j) [rowOf gamma (xs j) (xs (j + 1)) (e.ends (xs j).s (xs j).a)] = .ok (θ (j + 1))) (k : ℕ) :
    online lr L updateRule type1 (NStep.init 1 gamma false, θ0) ((List.range k).map fun t => (xs t, e.ends (xs t).s (xs t).a)) =
      .ok (match k with
        | 0 => (tracerWith gamma [] false, θ 0)
        | j + 1 => if e.ends (xs j).s (xs j).a then (tracerWith gamma [] true, θ (j + 1)) else (tracerWith gamma [xs j] false, θ j)) := by
  induction k with
  | zero =>
    rw [hθ0]
    simp [online, NStep.init, NStep.reset, tracerWith]
  | succ k ih =>
    rw [List.range_succ, List.map_append, online_append ih]
    have done : ∀ fuel θ', learnPops lr L updateRule type1 (fuel + 1) (tracerWith gamma [] true) θ' = .ok (tracerWith gamma [] true, θ') := by
      intro fuel θ'
      simp [learnPops, tracerWith, NStep.bool, NStep.len]
    have wait : ∀ fuel x θ', learnPops lr L updateRule type1 (fuel + 1) (tracerWith gamma [x] false) θ' = .ok (tracerWith gamma [x] false, θ') := by
      intro fuel x θ'
      simp [learnPops, tracerWith, NStep.bool, NStep.len]
    have last : ∀ fuel, e.ends (xs k).s (xs k).a = true → learnPops lr L updateRule type1 (fuel + 2) (tracerWith gamma [xs k] true) (θ k) = .ok (tracerWith gamma [] true, θ (k + 1)) := by
      intro fuel he
      rw [learnPops, if_neg (by simp [tracerWith, NStep.bool, NStep.len]), pop_last h0 h1 (hlogp k) (hw k) (xs (k + 1))]
      simp only
      have := hθ k
      rw [he] at this
      rw [this]
      simp only
      rw [done]
    have idle : ∀ d0, online lr L updateRule type1 (tracerWith gamma [] d0, θ k) ([k].map fun t => (xs t, e.ends (xs t).s (xs t).a)) =
        .ok (if e.ends (xs k).s (xs k).a then (tracerWith gamma [] true, θ (k + 1)) else (tracerWith gamma [xs k] false, θ k)) := by
      intro d0
      have ha : (tracerWith gamma [] d0).add (xs k) (e.ends (xs k).s (xs k).a) = (tracerWith gamma [xs k] (e.ends (xs k).s (xs k).a), none) := by
        simp [NStep.add, tracerWith, NStep.len]
      rw [List.map_singleton, online, ha]
      simp only
      show (match learnPops lr L updateRule type1 2 _ _ with | Except.error e => Except.error e | Except.ok s => online lr L updateRule type1 s []) = _
      cases he : e.ends (xs k).s (xs k).a with
      | true => rw [last 0 he]; simp [online]
      | false => rw [wait 1]; simp [online]
    cases k with
    | zero => exact idle false
    | succ j =>
      simp only
      cases hj : e.ends (xs j).s (xs j).a with
      | true =>
        rw [if_pos rfl]
        exact idle true
      | false =>
        rw [if_neg (by simp)]
        have ha : (tracerWith gamma [xs j] false).add (xs (j + 1)) (e.ends (xs (j + 1)).s (xs (j + 1)).a) = (tracerWith gamma [xs j, xs (j + 1)] (e.ends (xs (j + 1)).s (xs (j + 1)).a), none) := by
          simp [NStep.add, tracerWith, NStep.len]
        rw [List.map_singleton, online, ha]
        simp only
        have h2 : learnPops lr L updateRule type1 3 (tracerWith gamma [xs j, xs (j + 1)] (e.ends (xs (j + 1)).s (xs (j + 1)).a)) (θ j) =
            learnPops lr L updateRule type1 2 (tracerWith gamma [xs (j + 1)] (e.ends (xs (j + 1)).s (xs (j + 1)).a)) (θ (j + 1)) := by
          rw [learnPops, if_neg (by simp [tracerWith, NStep.bool, NStep.len]), pop_two h0 h1 (hlogp j) (hlogp (j + 1)) (hw j)]
          simp only
          have := hθ j
          rw [hj] at this
          rw [this]
        show (match learnPops lr L updateRule type1 3 _ _ with | Except.error e => Except.error e | Except.ok s => online lr L updateRule type1 s []) = _
        rw [h2]
        cases he : e.ends (xs (j + 1)).s (xs (j + 1)).a with
        | true => rw [last 0 he]; simp [online]
        | false => rw [wait 1]; simp [online]

omit [DecidableEq σ] in
theorem Walk.feeds {e : Det σ n} {gamma lr : ℝ} {xs : ℕ → Step σ (Fin n) ℝ} (h : Walk e lr xs) : Feeds e gamma lr (fun t => [rowOf gamma (xs t) (xs (t + 1)) (e.ends (xs t).s (xs t).a)]) (fun _ => 1) where
  rows t o ho := by
    obtain rfl : o = _ := by simpa using ho
    refine ⟨h.reward t, fun he => ?_, fun he => ⟨?_, ?_⟩, rfl, rfl⟩
    · replace he : e.ends (xs t).s (xs t).a = true := he
      simp [rowOf, he]
    · replace he : e.ends (xs t).s (xs t).a = false := he
      simp [rowOf, he]
    · replace he : e.ends (xs t).s (xs t).a = false := he
      simp [rowOf, he, h.next t he]
  nonempty t := by simp
  bounded := ⟨1, fun t => by simp⟩
  rate t o ho := by
    obtain rfl : o = _ := by simpa using ho
    exact h.rate t
  tau_nonneg t := zero_le_one
  tau_le t := le_rfl
  visits s a t := by
    obtain ⟨t', h1, h2, h3⟩ := h.visits s a t
    exact ⟨t', h1, _, List.mem_singleton.2 rfl, h2, h3⟩
  syncs := ⟨1, one_pos, fun t => ⟨t, le_rfl, le_rfl⟩⟩

theorem online_converges [Fintype σ] {updateRule} {type1 : Bool} {boot : σ → (Fin n → ℝ) → ℝ → Prop} (hr : Rule updateRule type1 boot) (hn : 0 < n) {e : Det σ n} {gamma lr : ℝ} (h0 : 0 ≤ gamma) (h1 : gamma < 1) (hlr : 0 < lr) {L : LossFn}
    (hL : StandardLoss L) {xs : ℕ → Step σ (Fin n) ℝ} (hx : Walk e lr xs) {best : σ → Fin n → ℝ} (hb : e.Solves gamma boot best) (θ0 : σ → Fin n → ℝ) :
    ∃ θ : ℕ → σ → Fin n → ℝ,
      (∀ k, ∃ t, online lr L updateRule type1 (NStep.init 1 gamma false, θ0) ((List.range k).map fun t => (xs t, e.ends (xs t).s (xs t).a)) = .ok (t, θ k)) ∧
      ∀ s a, Tendsto (fun k => θ k s a) atTop (𝓝 (best s a)) := by
  obtain ⟨θ, θT, h2, h3⟩ := learn_converges hr hn h0 h1 hlr hL (hx.feeds (gamma := gamma)) hb θ0 θ0
  have start : (θ 0, θT 0) = (θ0, θ0) := (Except.ok.inj (h2 0)).symm
  have step : ∀ j, ∃ θ', sgdUpdate lr L updateRule type1 (θT j) (θ j) [rowOf gamma (xs j) (xs (j + 1)) (e.ends (xs j).s (xs j).a)] = .ok θ' ∧ θ (j + 1) = θ' ∧ θT (j + 1) = θ' := by
    intro j
    have h4 := h2 (j + 1)
    rw [List.range_succ, List.map_append, learn_append (h2 j)] at h4
    simp only [List.map_cons, List.map_nil] at h4
    rw [learn] at h4
    split at h4
    · cases h4
    · rename_i θ' he
      rw [learn, softTable_one] at h4
      have h5 := Prod.ext_iff.1 (Except.ok.inj h4)
      exact ⟨θ', he, h5.1.symm, h5.2.symm⟩
  have same : ∀ j, θT j = θ j := by
    intro j
    cases j with
    | zero => have := Prod.ext_iff.1 start; exact this.2.trans this.1.symm
    | succ j => obtain ⟨θ', -, a, b⟩ := step j; rw [a, b]
  have step' : ∀ j, sgdUpdate lr L updateRule type1 (θ j) (θ j) [rowOf gamma (xs j) (xs (j + 1)) (e.ends (xs j).s (xs j).a)] = .ok (θ (j + 1)) := by
    intro j
    obtain ⟨θ', a, b, -⟩ := step j
    rw [same] at a
    rw [a, b]
  have main := online_learn (e := e) h0 h1.le hx.logp hx.w (Prod.ext_iff.1 start).1 step'
  refine ⟨fun k => match k with | 0 => θ 0 | j + 1 => if e.ends (xs j).s (xs j).a then θ (j + 1) else θ j, fun k => ?_, fun s a => ?_⟩
  · rw [main k]
    cases k with
    | zero => exact ⟨_, rfl⟩
    | succ j =>
      simp only
      split
      · exact ⟨_, rfl⟩
      · exact ⟨_, rfl⟩
  · rw [Metric.tendsto_atTop]
    intro ε hε
    obtain ⟨N, hN⟩ := Metric.tendsto_atTop.1 (h3 s a).1 ε hε
    refine ⟨N + 1, fun k hk => ?_⟩
    obtain ⟨j, rfl⟩ : ∃ j, k = j + 1 := ⟨k - 1, by omega⟩
    simp only
    split
    · exact hN _ (by omega)
    · exact hN _ (by omega)

/-- **C104** for the online loop with `QLearning` and an `NStep` tracer with `n = 1`: the params converge to the solution of the Bellman equation if the agent tries every action in every state infinitely often, however it chooses
its actions.  Nothing raises. -/
theorem C104_online_q_learning [Fintype σ] (hn : 0 < n) {e : Det σ n} {gamma lr : ℝ} (h0 : 0 ≤ gamma) (h1 : gamma < 1) (hlr : 0 < lr) {L : LossFn} (hL : StandardLoss L) (type1 : Bool)
    {xs : ℕ → Step σ (Fin n) ℝ} (hx : Walk e lr xs) {best : σ → Fin n → ℝ} (hb : e.Solves gamma Greedy best) (θ0 : σ → Fin n → ℝ) :
    ∃ θ : ℕ → σ → Fin n → ℝ,
      (∀ k, ∃ t, online lr L (qLearning n) type1 (NStep.init 1 gamma false, θ0) ((List.range k).map fun t => (xs t, e.ends (xs t).s (xs t).a)) = .ok (t, θ k)) ∧
      ∀ s a, Tendsto (fun k => θ k s a) atTop (𝓝 (best s a)) :=
  online_converges (rule_qLearning hn type1) hn h0 h1 hlr hL hx hb θ0

/-- **C104** for the online loop with `ExpectedSarsa` and an `NStep` tracer with `n = 1`: the params converge to the solution of the Bellman equation if the agent tries every action in every state infinitely often, however it chooses
its actions.  Nothing raises. -/
theorem C104_online_expected_sarsa [Fintype σ] (hn : 0 < n) {e : Det σ n} {gamma lr : ℝ} (h0 : 0 ≤ gamma) (h1 : gamma < 1) (hlr : 0 < lr) (logits : σ → Fin n → ℝ) {L : LossFn} (hL : StandardLoss L) (type1 : Bool)
    {xs : ℕ → Step σ (Fin n) ℝ} (hx : Walk e lr xs) {best : σ → Fin n → ℝ} (hb : e.Solves gamma (Mean (fun s a => Real.exp (logits s a) / ∑ b, Real.exp (logits s b))) best) (θ0 : σ → Fin n → ℝ) :
    ∃ θ : ℕ → σ → Fin n → ℝ,
      (∀ k, ∃ t, online lr L (fun q qTarg => expectedSarsa n (fun S => S.map fun s => (List.finRange n).map (logits s)) q qTarg) type1 (NStep.init 1 gamma false, θ0) ((List.range k).map fun t => (xs t, e.ends (xs t).s (xs t).a)) = .ok (t, θ k)) ∧
      ∀ s a, Tendsto (fun k => θ k s a) atTop (𝓝 (best s a)) :=
  online_converges (rule_expectedSarsa hn type1 logits) hn h0 h1 hlr hL hx hb θ0

/-- **C104** for the online loop with `SoftQLearning` and an `NStep` tracer with `n = 1`: the params converge to the solution of the Bellman equation if the agent tries every action in every state infinitely often, however it chooses
its actions.  Nothing raises. -/
theorem C104_online_soft_q_learning [Fintype σ] (hn : 0 < n) {e : Det σ n} {gamma lr temp : ℝ} (h0 : 0 ≤ gamma) (h1 : gamma < 1) (hlr : 0 < lr) (ht : 0 < temp) {L : LossFn} (hL : StandardLoss L) (type1 : Bool)
    {xs : ℕ → Step σ (Fin n) ℝ} (hx : Walk e lr xs) {best : σ → Fin n → ℝ} (hb : e.Solves gamma (Soft temp) best) (θ0 : σ → Fin n → ℝ) :
    ∃ θ : ℕ → σ → Fin n → ℝ,
      (∀ k, ∃ t, online lr L (fun q qTarg => softQLearning n temp q qTarg) type1 (NStep.init 1 gamma false, θ0) ((List.range k).map fun t => (xs t, e.ends (xs t).s (xs t).a)) = .ok (t, θ k)) ∧
      ∀ s a, Tendsto (fun k => θ k s a) atTop (𝓝 (best s a)) :=
  online_converges (rule_softQLearning hn type1 ht) hn h0 h1 hlr hL hx hb θ0

/-! ### A case -/

/-- Two states; action 0 leads to `false` and action 1 to `true`; action 1 in `true` gives the reward 1 and ends the episode. -/
def twoStates : Det Bool 2 := ⟨fun _ a => a == 1, fun s a => if s && a == 1 then 1 else 0, fun s a => s && a == 1⟩

/-- An agent that tries everything, again and again. -/
def tour (t : ℕ) : Step Bool (Fin 2) ℝ :=
  match t % 5 with
  | 0 => ⟨false, 0, 0, 0, 1⟩
  | 1 => ⟨false, 1, 0, 0, 1⟩
  | 2 => ⟨true, 0, 0, 0, 1⟩
  | 3 => ⟨false, 1, 0, 0, 1⟩
  | _ => ⟨true, 1, 1, 0, 1⟩

theorem tour_cases {P : ℕ → Step Bool (Fin 2) ℝ → Prop} (h0 : P 0 ⟨false, 0, 0, 0, 1⟩) (h1 : P 1 ⟨false, 1, 0, 0, 1⟩) (h2 : P 2 ⟨true, 0, 0, 0, 1⟩) (h3 : P 3 ⟨false, 1, 0, 0, 1⟩) (h4 : P 4 ⟨true, 1, 1, 0, 1⟩) (t : ℕ) :
    P (t % 5) (tour t) := by
  unfold tour
  have : t % 5 < 5 := Nat.mod_lt _ (by norm_num)
  generalize t % 5 = m at this
  interval_cases m <;> assumption

theorem tour_walk : Walk twoStates (1 / 2) tour where
  reward t := tour_cases (P := fun _ x => x.r = twoStates.reward x.s x.a) (by simp [twoStates]) (by simp [twoStates]) (by simp [twoStates]) (by simp [twoStates]) (by simp [twoStates]) t
  next t := by
    intro he
    have : t % 5 < 5 := Nat.mod_lt _ (by norm_num)
    have h2 : (t + 1) % 5 = (t % 5 + 1) % 5 := by omega
    unfold tour at he ⊢
    rw [h2]
    generalize t % 5 = m at this he
    interval_cases m <;> simp_all [twoStates]
  logp t := tour_cases (P := fun _ x => x.logp ≤ 0) le_rfl le_rfl le_rfl le_rfl le_rfl t
  w t := tour_cases (P := fun _ x => 0 < x.w) one_pos one_pos one_pos one_pos one_pos t
  rate t := tour_cases (P := fun _ x => 1 / 2 * min (max x.w 0.1) 10 ≤ (1 : ℝ)) (by norm_num) (by norm_num) (by norm_num) (by norm_num) (by norm_num) t
  visits s a t := by
    have at_ : ∀ i, (5 * t + i) % 5 = i % 5 := fun i => by omega
    cases s
    · fin_cases a
      · exact ⟨5 * t + 0, by omega, by unfold tour; rw [at_]; exact ⟨rfl, rfl⟩⟩
      · exact ⟨5 * t + 1, by omega, by unfold tour; rw [at_]; exact ⟨rfl, rfl⟩⟩
    · fin_cases a
      · exact ⟨5 * t + 2, by omega, by unfold tour; rw [at_]; exact ⟨rfl, rfl⟩⟩
      · exact ⟨5 * t + 4, by omega, by unfold tour; rw [at_]; exact ⟨rfl, rfl⟩⟩

/-- The optimal values with discount 1/2. -/
noncomputable def twoBest (s : Bool) (a : Fin 2) : ℝ := if a = 0 then 1 / 4 else if s then 1 else 1 / 2

theorem twoBest_solves : twoStates.Solves (1 / 2) Greedy twoBest := by
  have f : Greedy false (twoBest false) (1 / 2) := ⟨⟨1, by simp [twoBest]⟩, by rintro _ ⟨a, rfl⟩; fin_cases a <;> norm_num [twoBest]⟩
  have t : Greedy true (twoBest true) 1 := ⟨⟨1, by simp [twoBest]⟩, by rintro _ ⟨a, rfl⟩; fin_cases a <;> norm_num [twoBest]⟩
  intro s a
  cases s
  · fin_cases a
    · exact ⟨by simp [twoStates], fun _ => ⟨_, f, by norm_num [twoBest, twoStates]⟩⟩
    · exact ⟨by simp [twoStates], fun _ => ⟨_, t, by norm_num [twoBest, twoStates]⟩⟩
  · fin_cases a
    · exact ⟨by simp [twoStates], fun _ => ⟨_, f, by norm_num [twoBest, twoStates]⟩⟩
    · exact ⟨by simp [twoStates, twoBest], by simp [twoStates]⟩

/-- The hypotheses of C104 are met: the values learned online are 1/4, 1/2, 1/4 and 1 in the limit, and the same with batches. -/
example (θ0 : Bool → Fin 2 → ℝ) : ∃ θ : ℕ → Bool → Fin 2 → ℝ,
    (∀ k, ∃ t, online (1 / 2) (huber1 1) (qLearning 2) true (NStep.init 1 (1 / 2) false, θ0) ((List.range k).map fun t => (tour t, twoStates.ends (tour t).s (tour t).a)) = .ok (t, θ k)) ∧
    Tendsto (fun k => θ k false 0) atTop (𝓝 (1 / 4)) ∧ Tendsto (fun k => θ k false 1) atTop (𝓝 (1 / 2)) ∧ Tendsto (fun k => θ k true 1) atTop (𝓝 1) := by
  obtain ⟨θ, h, h'⟩ := C104_online_q_learning (by norm_num) (by norm_num) (by norm_num) (by norm_num) (.inr ⟨1, one_pos, rfl⟩) true tour_walk twoBest_solves θ0
  exact ⟨θ, h, by simpa [twoBest] using h' false 0, by simpa [twoBest] using h' false 1, by simpa [twoBest] using h' true 1⟩

example : Feeds twoStates (1 / 2) (1 / 2) (fun t => [rowOf (1 / 2) (tour t) (tour (t + 1)) (twoStates.ends (tour t).s (tour t).a)]) (fun _ => 1) := tour_walk.feeds

end Coax.Loop
