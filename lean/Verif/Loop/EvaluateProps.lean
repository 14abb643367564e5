import Verif.Loop.EvaluateLemmas
import Verif.Loop.OptimalProps

/-! Property C127: `DoubleQLearning` with a table converges almost surely to the optimal values, and `Sarsa` to the values of the policy that chooses the actions. -/

namespace Coax.Loop

open Coax.RewardTracing Coax.TD Coax.Core Coax.Values Coax.Pol Filter Topology MeasureTheory

variable {σ Ω : Type _} {n m : Nat} {m0 : MeasurableSpace Ω}

/-! ### Double Q-learning -/

theorem tieMean_near (hn : 0 < n) (p q r : Nat → ℝ) {D : ℝ} (h : ∀ a < n, |q a - r a| ≤ D) : |tieMean n p q - tieMean n p r| ≤ D := by
  have hc : (0 : ℝ) < (maximisers n p).card := by
    have := Finset.card_pos.2 (maximisers_nonempty hn p); positivity
  unfold tieMean
  rw [← sub_div, ← Finset.sum_sub_distrib, abs_div, abs_of_pos hc, div_le_iff₀ hc]
  calc _ ≤ ∑ a ∈ maximisers n p, |q a - r a| := Finset.abs_sum_le_sum_abs _ _
    _ ≤ ∑ _a ∈ maximisers n p, D := Finset.sum_le_sum fun a ha => h a (mem_maximisers.1 ha).1
    _ = _ := by rw [Finset.sum_const, nsmul_eq_mul, mul_comm]

theorem ext_lt (θ : σ → Fin n → ℝ) (s : σ) {a : Nat} (h : a < n) : ext θ s a = θ s ⟨a, h⟩ := by simp [ext, h]

theorem tieMean_measurable (s : σ) : Measurable fun x : (σ → Fin n → ℝ) × (σ → Fin n → ℝ) => tieMean n (ext x.2 s) (ext x.1 s) := by
  classical
  have hm : ∀ a, Measurable fun x : (σ → Fin n → ℝ) × (σ → Fin n → ℝ) => ext x.2 s a := by
    intro a
    unfold ext
    split
    · fun_prop
    · fun_prop
  have hm1 : ∀ a, Measurable fun x : (σ → Fin n → ℝ) × (σ → Fin n → ℝ) => ext x.1 s a := by
    intro a
    unfold ext
    split
    · fun_prop
    · fun_prop
  have hs : ∀ a, MeasurableSet {x : (σ → Fin n → ℝ) × (σ → Fin n → ℝ) | a ∈ maximisers n (ext x.2 s)} := by
    intro a
    by_cases ha : a < n
    · have : {x : (σ → Fin n → ℝ) × (σ → Fin n → ℝ) | a ∈ maximisers n (ext x.2 s)} = ⋂ b ∈ Finset.range n, {x | ext x.2 s b ≤ ext x.2 s a} := by
        ext x
        simp [mem_maximisers, ha]
      rw [this]
      exact Finset.measurableSet_biInter _ fun b _ => measurableSet_le (hm b) (hm a)
    · have : {x : (σ → Fin n → ℝ) × (σ → Fin n → ℝ) | a ∈ maximisers n (ext x.2 s)} = ∅ := by
        ext x
        simp [mem_maximisers, ha]
      rw [this]
      exact MeasurableSet.empty
  have e : ∀ p q : Nat → ℝ, tieMean n p q = (∑ a ∈ Finset.range n, if a ∈ maximisers n p then q a else 0) / ∑ a ∈ Finset.range n, if a ∈ maximisers n p then 1 else 0 := by
    intro p q
    have hsub : (Finset.range n).filter (· ∈ maximisers n p) = maximisers n p := by
      ext a
      simp only [Finset.mem_filter, Finset.mem_range, mem_maximisers]
      tauto
    unfold tieMean
    rw [← Finset.sum_filter, ← Finset.sum_filter, hsub]
    simp
  simp only [e]
  refine Measurable.div (Finset.measurable_fun_sum _ fun a _ => Measurable.ite (hs a) (hm1 a) measurable_const) (Finset.measurable_fun_sum _ fun a _ => Measurable.ite (hs a) measurable_const measurable_const)

/-- The target of `DoubleQLearning`: the action that is best according to `q_targ` has the value that `q` gives it. -/
noncomputable def Mdp.doubleGoal (e : Mdp σ n m) (gamma : ℝ) (θ θT : σ → Fin n → ℝ) (p : σ × Fin n) (j : Fin m) : ℝ :=
  e.reward p.1 p.2 j + if e.ends p.1 p.2 j then 0 else gamma * tieMean n (ext θT (e.next p.1 p.2 j)) (ext θ (e.next p.1 p.2 j))

theorem double_targets (hn : 0 < n) (type1 : Bool) (θQ θT : σ → Fin n → ℝ) {b : TBatch σ (List ℝ)} (hb : WellFormed b) :
    Bootstraps id id b (fun s x => x = tieMean n (ext θT s) (ext θQ s)) (doubleQLearning n (tabular type1 θQ) (tabular type1 θT) b) := by
  have h2 : Bootstraps id id b (fun s x => x = tieMean n (ext θT s) (ext θQ s)) (doubleQLearning n (tabular false θQ) (tabular false θT) b) := by
    unfold doubleQLearning tabular
    simp only
    rw [(C55_agree hn (table_computes false θT) b.S_next).1]
    simp only
    rw [greedy_ok hn]
    simp only
    rw [functionType1_greedy hn (table_computes false θQ) (Or.inl ⟨_, rfl⟩)]
    exact bootstraps_backup hb _ fun s _ => rfl
  cases type1 with
  | false => exact h2
  | true =>
    have e : doubleQLearning n (tabular true θQ) (tabular true θT) b = doubleQLearning n (tabular false θQ) (tabular false θT) b := by
      unfold doubleQLearning tabular
      simp only
      rw [(C55_agree hn (table_computes true θT) b.S_next).1, (C55_agree hn (table_computes false θT) b.S_next).1]
      simp only
      rw [greedy_ok hn]
      simp only
      rw [table_types _ _ _ (by simp) (by simp)]
    rw [e]; exact h2

/-- One transition as a batch. -/
theorem batch_one {o : Out σ (Fin n) ℝ} {s : σ} {a : Fin n} (hs : o.S_next = some s) (ha : o.A_next = some a) :
    toTBatch id (fun a : Fin n => oneHot n a) [o] = .ok ⟨[o.Rn], [o.In], [s], [oneHot n a]⟩ := by
  unfold toTBatch
  simp [hs, ha]

theorem double_row (hn : 0 < n) (type1 : Bool) {e : Mdp σ n m} {gamma : ℝ} {o : Out σ (Fin n) ℝ} {j : Fin m} (rn : o.Rn = e.reward o.S o.A j) (ended : e.ends o.S o.A j = true → o.In = 0)
    (goes : e.ends o.S o.A j = false → o.In = gamma ∧ o.S_next = some (e.next o.S o.A j)) (hs : o.S_next.isSome) (ha : o.A_next.isSome) (θ θT : σ → Fin n → ℝ) :
    ∃ B, toTBatch id (fun a : Fin n => oneHot n a) [o] = .ok B ∧ doubleQLearning n (tabular type1 θ) (tabular type1 θT) B = .ok [e.doubleGoal gamma θ θT (o.S, o.A) j] := by
  obtain ⟨s, hs⟩ := Option.isSome_iff_exists.1 hs
  obtain ⟨a, ha⟩ := Option.isSome_iff_exists.1 ha
  refine ⟨_, batch_one hs ha, ?_⟩
  obtain ⟨G, h1, h2, h3⟩ := double_targets hn type1 θ θT (b := ⟨[o.Rn], [o.In], [s], [oneHot n a]⟩) ⟨rfl, rfl⟩
  obtain ⟨x, hx, hG⟩ := h3 0 _ _ s rfl rfl rfl
  rw [h1]
  match G, h2, hG with
  | [y], _, hG =>
    have hy : y = o.Rn + o.In * x := by simpa using hG
    rw [hy, hx, rn]
    unfold Mdp.doubleGoal
    cases hE : e.ends o.S o.A j with
    | true => rw [ended hE]; simp
    | false =>
      obtain ⟨g1, g2⟩ := goes hE
      rw [hs] at g2
      cases g2
      rw [g1]; simp

theorem reward_bound [Finite σ] (e : Mdp σ n m) : ∃ R, ∀ s a j, |e.reward s a j| ≤ R := by
  obtain ⟨R, hR⟩ := (Set.finite_range fun x : σ × Fin n × Fin m => |e.reward x.1 x.2.1 x.2.2|).bddAbove
  exact ⟨R, fun s a j => hR ⟨(s, a, j), rfl⟩⟩

variable [DecidableEq σ]

/-- **C127** for `DoubleQLearning`: the params of a table, and those of the target network, converge almost surely to the only solution of the Bellman equation, from everywhere and whatever decides about states and actions, if the
learning rates satisfy the conditions of Robbins and Monro and become small compared to the rates of the target network, as they do if these are constant. -/
theorem C127_double_q_learning [Fintype σ] (hn : 0 < n) {e : Mdp σ n m} (he : e.Proper) {gamma : ℝ} (h0 : 0 ≤ gamma) (h1 : gamma < 1) :
    ∃ best, e.Solves gamma Greedy best ∧ (∀ q, e.Solves gamma Greedy q → q = best) ∧
      ∀ {Ω : Type} {m0 : MeasurableSpace Ω} {μ : Measure Ω} [IsProbabilityMeasure μ] {ℱ : Filtration ℕ m0} {lr tau : ℕ → ℝ} {rows : ℕ → Ω → Out σ (Fin n) ℝ} {out : ℕ → Ω → Fin m}, Samples e gamma μ ℱ rows out → Rates μ rows lr tau →
        (∀ t, 0 < tau t) → Tendsto (fun t => lr t / tau t) atTop (𝓝 0) → ∀ type1 θ0 θT0, ∃ θ θT : ℕ → Ω → σ → Fin n → ℝ,
          (∀ k ω, learnS lr mse1 (doubleQLearning n) type1 0 (θ0, θT0) ((List.range k).map fun t => ([rows t ω], tau t)) = .ok (θ k ω, θT k ω)) ∧
          ∀ᵐ ω ∂μ, ∀ s a, Tendsto (fun k => θ k ω s a) atTop (𝓝 (best s a)) ∧ Tendsto (fun k => θT k ω s a) atTop (𝓝 (best s a)) := by
  have hr := rule_qLearning (σ := σ) hn false
  obtain ⟨best, hb, hu⟩ := mdp_solution hr he h0 h1
  refine ⟨best, hb, hu, fun {Ω m0 μ _ ℱ lr tau rows out} hs hl hpos hq type1 θ0 θT0 => ?_⟩
  choose val hval using hr.value
  obtain ⟨R, hR⟩ := reward_bound e
  have hmax : ∀ (θT : σ → Fin n → ℝ) s, tieMean n (ext θT s) (ext θT s) = val s (θT s) := fun θT s => hr.unique (isMaxOf_greatest (tieMean_isMax hn _)) (hval _ _)
  have hY : OutcomeTargets (fun p j => e.prob p.1 p.2 j) gamma R gamma (e.op gamma val) (e.doubleGoal gamma) := {
    nonneg := fun p j => he.nonneg _ _ _
    total := fun p => he.total _ _
    bounded := by
      intro θ θT M hθ hθT p j
      have hM : 0 ≤ M := (abs_nonneg _).trans (hθ p.1 p.2)
      unfold Mdp.doubleGoal
      refine (abs_add_le _ _).trans (add_le_add (hR _ _ _) ?_)
      split
      · simpa using mul_nonneg h0 hM
      · rw [abs_mul, abs_of_nonneg h0]
        refine mul_le_mul_of_nonneg_left ?_ h0
        have := tieMean_near hn (ext θT (e.next p.1 p.2 j)) (ext θ (e.next p.1 p.2 j)) (fun _ => 0) (D := M) fun a ha => by
          rw [sub_zero, ext_lt _ _ ha]; exact hθ _ _
        simpa [tieMean] using this
    measurable := by
      intro p j
      unfold Mdp.doubleGoal
      split
      · exact measurable_const
      · exact ((tieMean_measurable _).const_mul _).const_add _
    close := by
      intro θ θT D hD p
      unfold Mdp.op
      rw [← Finset.sum_sub_distrib]
      have hD0 : 0 ≤ D := (abs_nonneg _).trans (hD p.1 p.2)
      have : ∀ j, |(e.doubleGoal gamma θ θT p j - e.goal gamma val (fun p => θT p.1 p.2) p j) - 0| ≤ gamma * D := by
        intro j
        rw [sub_zero]
        unfold Mdp.doubleGoal Mdp.goal
        split
        · simpa using mul_nonneg h0 hD0
        · rw [show (val (e.next p.1 p.2 j) fun b => (fun p : σ × Fin n => θT p.1 p.2) (e.next p.1 p.2 j, b)) = _ from (hmax θT _).symm, add_sub_add_left_eq_sub, ← mul_sub, abs_mul, abs_of_nonneg h0]
          refine mul_le_mul_of_nonneg_left (tieMean_near hn _ _ _ fun a ha => ?_) h0
          rw [ext_lt _ _ ha, ext_lt _ _ ha, abs_sub_comm]
          exact hD _ _
      have := mean_near he p.1 p.2 this
      rw [sub_zero] at this
      simpa only [mul_sub] using this }
  refine learnS_process hn h0 h1 hY (ix := out) hs.at_known hs.w_known hs.out_known (fun t j => hs.law t j)
    (fun θ θT t ω => double_row hn type1 (hs.rn t ω) (hs.ended t ω) (hs.goes t ω) (hs.s_next t ω) (hs.a_next t ω) θ θT) hl (Or.inr ⟨hpos, hq⟩) ?_ θ0 θT0
  intro q M' hM' p
  have h2 := congrFun ((mdp_solves_iff hr hval best).1 hb) p
  show |_ - best p.1 p.2| ≤ _
  rw [show best p.1 p.2 = _ from h2.symm]
  exact mdp_op_close hr hval he h0 q _ M' hM' ((abs_nonneg _).trans (hM' p)) p

/-! ### Sarsa -/

/-- Transitions whose next actions are chosen with the probabilities `pi`, unless the episode has ended. -/
structure Follows (e : Mdp σ n m) (pi : σ → Fin n → ℝ) (μ : Measure Ω) (ℱ : Filtration ℕ m0) (rows : ℕ → Ω → Out σ (Fin n) ℝ) (out : ℕ → Ω → Fin m) : Prop where
  known : ∀ t a, MeasurableSet[ℱ (t + 1)] {ω | (rows t ω).A_next = some a}
  law : ∀ t j a, ∀ᵐ ω ∂μ, e.ends (rows t ω).S (rows t ω).A j = false →
    (μ[Set.indicator {ω | out t ω = j ∧ (rows t ω).A_next = some a} (fun _ => (1 : ℝ)) | ℱ t]) ω = e.prob (rows t ω).S (rows t ω).A j * pi (e.next (rows t ω).S (rows t ω).A j) a

omit [DecidableEq σ] in
theorem condExp_local {μ : Measure Ω} [IsProbabilityMeasure μ] {m1 : MeasurableSpace Ω} (hm : m1 ≤ m0) {f g : Ω → ℝ} (hf : Integrable f μ) (hg : Integrable g μ) {E : Set Ω} (hE : MeasurableSet[m1] E) (h : ∀ ω ∈ E, f ω = g ω) :
    ∀ᵐ ω ∂μ, ω ∈ E → (μ[f | m1]) ω = (μ[g | m1]) ω := by
  have e1 : E.indicator f = E.indicator g := Set.indicator_congr h
  have h1 := condExp_indicator (m := m1) hf hE
  have h2 := condExp_indicator (m := m1) hg hE
  rw [e1] at h1
  filter_upwards [h1, h2] with ω h3 h4 hω
  rw [h3, Set.indicator_of_mem hω, Set.indicator_of_mem hω] at h4
  exact h4

omit [DecidableEq σ] in
theorem condExp_zero_on {μ : Measure Ω} [IsProbabilityMeasure μ] {m1 : MeasurableSpace Ω} (hm : m1 ≤ m0) {f : Ω → ℝ} (hf : Integrable f μ) {E : Set Ω} (hE : MeasurableSet[m1] E) (h : ∀ ω ∈ E, f ω = 0) :
    ∀ᵐ ω ∂μ, ω ∈ E → (μ[f | m1]) ω = 0 := by
  have h1 := condExp_local hm hf (integrable_zero Ω ℝ μ) hE h
  have h2 : μ[(fun _ => 0 : Ω → ℝ) | m1] = fun _ => 0 := condExp_const hm 0
  filter_upwards [h1] with ω h3 hω
  rw [h3 hω]
  exact congrFun h2 ω

/-- The target of `Sarsa`. -/
def Mdp.nextGoal (e : Mdp σ n m) (gamma : ℝ) (θT : σ → Fin n → ℝ) (p : σ × Fin n) (j : Fin m × Option (Fin n)) : ℝ :=
  e.reward p.1 p.2 j.1 + match j.2 with
    | none => 0
    | some a => gamma * θT (e.next p.1 p.2 j.1) a

/-- The probabilities of the outcomes together with the next actions. -/
def Mdp.nextProb (e : Mdp σ n m) (pi : σ → Fin n → ℝ) (p : σ × Fin n) (j : Fin m × Option (Fin n)) : ℝ :=
  match j.2 with
  | none => if e.ends p.1 p.2 j.1 then e.prob p.1 p.2 j.1 else 0
  | some a => if e.ends p.1 p.2 j.1 then 0 else e.prob p.1 p.2 j.1 * pi (e.next p.1 p.2 j.1) a

omit [DecidableEq σ] in
theorem sum_next (e : Mdp σ n m) {pi : σ → Fin n → ℝ} (hpi : ∀ s, ∑ a, pi s a = 1) (p : σ × Fin n) (F : Fin m × Option (Fin n) → ℝ) :
    ∑ j, e.nextProb pi p j * F j = ∑ j, e.prob p.1 p.2 j * if e.ends p.1 p.2 j then F (j, none) else ∑ a, pi (e.next p.1 p.2 j) a * F (j, some a) := by
  rw [Fintype.sum_prod_type]
  refine Finset.sum_congr rfl fun j _ => ?_
  rw [Fintype.sum_option]
  unfold Mdp.nextProb
  simp only
  split
  · simp
  · rw [zero_mul, zero_add, Finset.mul_sum]
    exact Finset.sum_congr rfl fun a _ => by ring

omit [DecidableEq σ] in
theorem sarsa_row (hn : 0 < n) (type1 : Bool) {e : Mdp σ n m} {gamma : ℝ} {o : Out σ (Fin n) ℝ} {j : Fin m} (rn : o.Rn = e.reward o.S o.A j) (ended : e.ends o.S o.A j = true → o.In = 0)
    (goes : e.ends o.S o.A j = false → o.In = gamma ∧ o.S_next = some (e.next o.S o.A j)) (hs : o.S_next.isSome) (ha : o.A_next.isSome) (θ θT : σ → Fin n → ℝ) :
    ∃ B, toTBatch id (fun a : Fin n => oneHot n a) [o] = .ok B ∧
      sarsa n (tabular type1 θ) (tabular type1 θT) B = .ok [e.nextGoal gamma θT (o.S, o.A) (j, if e.ends o.S o.A j then none else o.A_next)] := by
  obtain ⟨s, hs⟩ := Option.isSome_iff_exists.1 hs
  obtain ⟨a, ha⟩ := Option.isSome_iff_exists.1 ha
  refine ⟨_, batch_one hs ha, ?_⟩
  unfold sarsa tabular
  simp only
  have h := (C55_agree hn (table_computes type1 θT) [s]).2 [(a : Nat)] (by simp) (by simp)
  rw [show [oneHot n (a : Nat)] = List.map (oneHot n) [(a : Nat)] from rfl, h]
  simp only [List.zipWith_cons_cons, List.zipWith_nil_left, ext_apply]
  unfold backup
  rw [if_pos ⟨rfl, rfl⟩]
  simp only [List.zip_cons_cons, List.zip_nil_left, List.zipWith_cons_cons, List.zipWith_nil_left, id]
  congr 2
  unfold Mdp.nextGoal
  cases hE : e.ends o.S o.A j with
  | true => rw [ended hE, rn]; simp
  | false =>
    obtain ⟨g1, g2⟩ := goes hE
    rw [hs] at g2
    cases g2
    rw [g1, rn, ha]; simp

omit [DecidableEq σ] in
theorem policy_near {p : Fin n → ℝ} (hp : (∀ a, 0 ≤ p a) ∧ ∑ a, p a = 1) {x : Fin n → ℝ} {M : ℝ} (h : ∀ a, |x a| ≤ M) : |∑ a, p a * x a| ≤ M := by
  calc _ ≤ ∑ a, |p a * x a| := Finset.abs_sum_le_sum_abs _ _
    _ ≤ ∑ a, p a * M := Finset.sum_le_sum fun a _ => by
        rw [abs_mul, abs_of_nonneg (hp.1 a)]
        exact mul_le_mul_of_nonneg_left (h a) (hp.1 a)
    _ = M := by rw [← Finset.sum_mul, hp.2, one_mul]

/-- The mean of the values under a policy. -/
def policyMean (pi : σ → Fin n → ℝ) (s : σ) (row : Fin n → ℝ) : ℝ := ∑ a, pi s a * row a

omit [DecidableEq σ] in
theorem policy_op_close {e : Mdp σ n m} (he : e.Proper) {gamma : ℝ} (h0 : 0 ≤ gamma) {pi : σ → Fin n → ℝ} (hpi : ∀ s, (∀ a, 0 ≤ pi s a) ∧ ∑ a, pi s a = 1) (q1 q2 : σ × Fin n → ℝ) (M : ℝ) (hM : ∀ p, |q1 p - q2 p| ≤ M) (p : σ × Fin n) :
    |e.op gamma (policyMean pi) q1 p - e.op gamma (policyMean pi) q2 p| ≤ gamma * M := by
  have hM0 : 0 ≤ M := (abs_nonneg _).trans (hM p)
  have e1 : e.op gamma (policyMean pi) q1 p - e.op gamma (policyMean pi) q2 p = ∑ j, e.prob p.1 p.2 j * (e.goal gamma (policyMean pi) q1 p j - e.goal gamma (policyMean pi) q2 p j) - 0 := by
    unfold Mdp.op
    simp only [mul_sub, Finset.sum_sub_distrib, sub_zero]
  rw [e1]
  refine mean_near he _ _ fun j => ?_
  rw [sub_zero]
  unfold Mdp.goal
  split
  · simpa using mul_nonneg h0 hM0
  · rw [add_sub_add_left_eq_sub, ← mul_sub, abs_mul, abs_of_nonneg h0]
    refine mul_le_mul_of_nonneg_left ?_ h0
    unfold policyMean
    rw [← Finset.sum_sub_distrib]
    simp only [← mul_sub]
    exact policy_near (hpi _) fun a => hM _

omit [DecidableEq σ] in
/-- The values of a policy solve its Bellman equation. -/
theorem policy_solution [Fintype σ] {e : Mdp σ n m} (he : e.Proper) {gamma : ℝ} (h0 : 0 ≤ gamma) (h1 : gamma < 1) {pi : σ → Fin n → ℝ} (hpi : ∀ s, (∀ a, 0 ≤ pi s a) ∧ ∑ a, pi s a = 1) :
    ∃ v : σ → ℝ, (∀ s, e.Worth gamma 0 (stationary pi) s (v s)) ∧ ∀ s, v s = ∑ a, pi s a * e.back gamma v s a := by
  have hc : ContractingWith ⟨gamma, h0⟩ (e.op gamma (policyMean pi)) := by
    refine ⟨by exact_mod_cast h1, LipschitzWith.of_dist_le_mul fun q1 q2 => ?_⟩
    refine (dist_pi_le_iff (mul_nonneg h0 dist_nonneg)).2 fun p => ?_
    rw [Real.dist_eq]
    exact policy_op_close he h0 hpi q1 q2 _ (fun p => by rw [← Real.dist_eq]; exact dist_le_pi_dist q1 q2 p) p
  let q := ContractingWith.fixedPoint _ hc
  have hq : e.op gamma (policyMean pi) q = q := hc.fixedPoint_isFixedPt
  let v : σ → ℝ := fun s => ∑ a, pi s a * q (s, a)
  have hv : ∀ s, v s = ∑ a, pi s a * e.back gamma v s a := fun s => Finset.sum_congr rfl fun a _ => by
    rw [← congrFun hq (s, a)]
    rfl
  refine ⟨v, worth_eq he h0 h1 (fun _ s => hpi s) fun _ s => ?_, hv⟩
  rw [softValue_zero]
  exact hv s

/-- The outcome of a transition together with the next action, unless the episode has ended. -/
def Mdp.outNext (e : Mdp σ n m) (rows : ℕ → Ω → Out σ (Fin n) ℝ) (out : ℕ → Ω → Fin m) (t : ℕ) (ω : Ω) : Fin m × Option (Fin n) :=
  (out t ω, if e.ends (rows t ω).S (rows t ω).A (out t ω) then none else (rows t ω).A_next)

omit [DecidableEq σ] in
/-- Its law. -/
theorem Follows.outNext [Fintype σ] {μ : Measure Ω} [IsProbabilityMeasure μ] {ℱ : Filtration ℕ m0} {e : Mdp σ n m} {gamma : ℝ} {pi : σ → Fin n → ℝ} {rows : ℕ → Ω → Out σ (Fin n) ℝ} {out : ℕ → Ω → Fin m} (hs : Samples e gamma μ ℱ rows out)
    (hf : Follows e pi μ ℱ rows out) : (∀ t j, MeasurableSet[ℱ (t + 1)] {ω | e.outNext rows out t ω = j}) ∧
      ∀ t j, ∀ᵐ ω ∂μ, (μ[Set.indicator {ω | e.outNext rows out t ω = j} (fun _ => (1 : ℝ)) | ℱ t]) ω = e.nextProb pi ((rows t ω).S, (rows t ω).A) j := by
  let ix : ℕ → Ω → Fin m × Option (Fin n) := e.outNext rows out
  have hends : ∀ t j c, MeasurableSet[ℱ t] {ω | e.ends (rows t ω).S (rows t ω).A j = c} := by
    intro t j c
    have : {ω | e.ends (rows t ω).S (rows t ω).A j = c} = ⋃ p ∈ {p : σ × Fin n | e.ends p.1 p.2 j = c}, {ω | (rows t ω).S = p.1 ∧ (rows t ω).A = p.2} := by
      ext ω
      simp only [Set.mem_ofPred_eq, Set.mem_iUnion, exists_prop]
      constructor
      · exact fun h => ⟨((rows t ω).S, (rows t ω).A), h, rfl, rfl⟩
      · rintro ⟨p, h, h2, h3⟩
        rw [h2, h3]; exact h
    rw [this]
    exact MeasurableSet.biUnion (Set.to_countable _) fun p _ => hs.at_known t p.1 p.2
  have hset : ∀ t j o, {ω | ix t ω = (j, o)} = {ω | out t ω = j} ∩ ({ω | e.ends (rows t ω).S (rows t ω).A j = true} ∩ {_ω | o = none} ∪ {ω | e.ends (rows t ω).S (rows t ω).A j = false} ∩ {ω | (rows t ω).A_next = o}) := by
    intro t j o
    ext ω
    simp only [ix, Mdp.outNext, Set.mem_ofPred_eq, Set.mem_inter_iff, Set.mem_union, Prod.mk.injEq]
    refine and_congr_right fun h => ?_
    rw [h]
    cases e.ends (rows t ω).S (rows t ω).A j <;> simp [eq_comm]
  have hix : ∀ t j, MeasurableSet[ℱ (t + 1)] {ω | ix t ω = j} := by
    rintro t ⟨j, o⟩
    rw [hset]
    refine (hs.out_known t j).inter (((ℱ.mono (Nat.le_succ t) _ (hends t j true)).inter (@MeasurableSet.const _ (ℱ (t + 1)) _)).union ((ℱ.mono (Nat.le_succ t) _ (hends t j false)).inter ?_))
    cases o with
    | some a => exact hf.known t a
    | none =>
      have : {ω | (rows t ω).A_next = none} = ∅ := by
        ext ω
        have := hs.a_next t ω
        simp only [Set.mem_ofPred_eq, Set.mem_empty_iff_false, iff_false]
        intro h
        rw [h] at this
        cases this
      rw [this]
      exact @MeasurableSet.empty _ (ℱ (t + 1))
  have hint : ∀ {E : Set Ω} {t}, MeasurableSet[ℱ t] E → Integrable (Set.indicator E fun _ => (1 : ℝ)) μ := fun h => (integrable_const 1).indicator (ℱ.le _ _ h)
  have hlaw : ∀ t j, ∀ᵐ ω ∂μ, (μ[Set.indicator {ω | ix t ω = j} (fun _ => (1 : ℝ)) | ℱ t]) ω = e.nextProb pi ((rows t ω).S, (rows t ω).A) j := by
    rintro t ⟨j, o⟩
    have hon : ∀ {ω}, e.ends (rows t ω).S (rows t ω).A j = true → (ω ∈ {ω | ix t ω = (j, o)} ↔ out t ω = j ∧ o = none) := by
      intro ω h; rw [hset]; simp [h]
    have hoff : ∀ {ω}, e.ends (rows t ω).S (rows t ω).A j = false → (ω ∈ {ω | ix t ω = (j, o)} ↔ out t ω = j ∧ (rows t ω).A_next = o) := by
      intro ω h; rw [hset]; simp [h]
    cases o with
    | none =>
      have h2 := condExp_local (ℱ.le t) (hint (hix t (j, none))) (hint (hs.out_known t j)) (hends t j true) fun ω hω => by
        by_cases h3 : out t ω = j
        · rw [Set.indicator_of_mem ((hon hω).2 ⟨h3, rfl⟩), Set.indicator_of_mem (show ω ∈ {ω | out t ω = j} from h3)]
        · rw [Set.indicator_of_notMem fun h4 => h3 ((hon hω).1 h4).1, Set.indicator_of_notMem (show ω ∉ {ω | out t ω = j} from h3)]
      have h3 := condExp_zero_on (ℱ.le t) (hint (hix t (j, none))) (hends t j false) fun ω hω => by
        refine Set.indicator_of_notMem (fun h4 => ?_) _
        have h5 := ((hoff hω).1 h4).2
        have := hs.a_next t ω
        rw [h5] at this
        cases this
      filter_upwards [h2, h3, hs.law t j] with ω h4 h5 h6
      unfold Mdp.nextProb
      simp only
      cases hE : e.ends (rows t ω).S (rows t ω).A j with
      | true => rw [h4 hE, h6]; simp
      | false => rw [h5 hE]; simp
    | some a =>
      have h2 := condExp_zero_on (ℱ.le t) (hint (hix t (j, some a))) (hends t j true) fun ω hω => by
        refine Set.indicator_of_notMem (fun h4 => ?_) _
        have h5 := ((hon hω).1 h4).2
        cases h5
      have h3 := condExp_local (ℱ.le t) (hint (hix t (j, some a))) (hint ((hs.out_known t j).inter (hf.known t a))) (hends t j false) fun ω hω => by
        by_cases h3 : out t ω = j ∧ (rows t ω).A_next = some a
        · rw [Set.indicator_of_mem ((hoff hω).2 h3), Set.indicator_of_mem (show ω ∈ {ω | out t ω = j} ∩ {ω | (rows t ω).A_next = some a} from h3)]
        · rw [Set.indicator_of_notMem fun h4 => h3 ((hoff hω).1 h4), Set.indicator_of_notMem (show ω ∉ {ω | out t ω = j} ∩ {ω | (rows t ω).A_next = some a} from h3)]
      filter_upwards [h2, h3, hf.law t j a] with ω h4 h5 h6
      unfold Mdp.nextProb
      simp only
      cases hE : e.ends (rows t ω).S (rows t ω).A j with
      | true => rw [h4 hE]; simp
      | false =>
        rw [h5 hE]
        simp only [Bool.false_eq_true, if_false]
        exact h6 hE
  exact ⟨hix, hlaw⟩

omit [DecidableEq σ] in
theorem nextProb_nonneg {e : Mdp σ n m} (he : e.Proper) {pi : σ → Fin n → ℝ} (hpi : ∀ s, (∀ a, 0 ≤ pi s a) ∧ ∑ a, pi s a = 1) (p : σ × Fin n) (j : Fin m × Option (Fin n)) : 0 ≤ e.nextProb pi p j := by
  obtain ⟨j, o⟩ := j
  unfold Mdp.nextProb
  cases o with
  | none => simp only; split
            · exact he.nonneg _ _ _
            · exact le_rfl
  | some a => simp only; split
              · exact le_rfl
              · exact mul_nonneg (he.nonneg _ _ _) ((hpi _).1 a)

omit [DecidableEq σ] in
theorem nextProb_total {e : Mdp σ n m} (he : e.Proper) {pi : σ → Fin n → ℝ} (hpi : ∀ s, (∀ a, 0 ≤ pi s a) ∧ ∑ a, pi s a = 1) (p : σ × Fin n) : ∑ j, e.nextProb pi p j = 1 := by
  have := sum_next e (fun s => (hpi s).2) p fun _ => 1
  simp only [mul_one, (hpi _).2, ite_self, he.total] at this
  exact this

/-- **C127** for `Sarsa`: if the next actions are chosen by a policy, then the params of a table, and those of the target network, converge almost surely to the values of this policy: the expected reward of the action and of the
actions that the policy chooses afterwards. -/
theorem C127_sarsa [Fintype σ] (hn : 0 < n) {e : Mdp σ n m} (he : e.Proper) {gamma : ℝ} (h0 : 0 ≤ gamma) (h1 : gamma < 1) {pi : σ → Fin n → ℝ} (hpi : ∀ s, (∀ a, 0 ≤ pi s a) ∧ ∑ a, pi s a = 1) :
    ∃ v : σ → ℝ, (∀ s, e.Worth gamma 0 (stationary pi) s (v s)) ∧
      ∀ {Ω : Type} {m0 : MeasurableSpace Ω} {μ : Measure Ω} [IsProbabilityMeasure μ] {ℱ : Filtration ℕ m0} {lr tau : ℕ → ℝ} {rows : ℕ → Ω → Out σ (Fin n) ℝ} {out : ℕ → Ω → Fin m}, Samples e gamma μ ℱ rows out → Follows e pi μ ℱ rows out → Rates μ rows lr tau →
        ∀ type1 θ0 θT0, ∃ θ θT : ℕ → Ω → σ → Fin n → ℝ,
          (∀ k ω, learnS lr mse1 (sarsa n) type1 0 (θ0, θT0) ((List.range k).map fun t => ([rows t ω], tau t)) = .ok (θ k ω, θT k ω)) ∧
          ∀ᵐ ω ∂μ, ∀ s a, Tendsto (fun k => θ k ω s a) atTop (𝓝 (∑ j, e.prob s a j * (e.reward s a j + if e.ends s a j then 0 else gamma * v (e.next s a j)))) ∧
            Tendsto (fun k => θT k ω s a) atTop (𝓝 (∑ j, e.prob s a j * (e.reward s a j + if e.ends s a j then 0 else gamma * v (e.next s a j)))) := by
  obtain ⟨v, hv, hvb⟩ := policy_solution he h0 h1 hpi
  refine ⟨v, hv, fun {Ω m0 μ _ ℱ lr tau rows out} hs hf hl type1 θ0 θT0 => ?_⟩
  obtain ⟨R, hR⟩ := reward_bound e
  obtain ⟨hix, hlaw⟩ := hf.outNext hs
  have hY : OutcomeTargets (e.nextProb pi) gamma R 0 (e.op gamma (policyMean pi)) (fun _ θT => e.nextGoal gamma θT) := {
    nonneg := nextProb_nonneg he hpi
    total := nextProb_total he hpi
    bounded := by
      rintro θ θT M hθ hθT p ⟨j, o⟩
      have hM : 0 ≤ M := (abs_nonneg _).trans (hθ p.1 p.2)
      unfold Mdp.nextGoal
      refine (abs_add_le _ _).trans (add_le_add (hR _ _ _) ?_)
      cases o with
      | none => simpa using mul_nonneg h0 hM
      | some a =>
        simp only
        rw [abs_mul, abs_of_nonneg h0]
        exact mul_le_mul_of_nonneg_left (hθT _ _) h0
    measurable := by
      rintro p ⟨j, o⟩
      unfold Mdp.nextGoal
      cases o with
      | none => simp only; exact measurable_const
      | some a => simp only; fun_prop
    close := by
      intro θ θT D hD p
      rw [sum_next e fun s => (hpi s).2, zero_mul]
      refine le_of_eq (abs_eq_zero.2 (sub_eq_zero.2 ?_))
      unfold Mdp.op
      refine Finset.sum_congr rfl fun j _ => ?_
      unfold Mdp.nextGoal Mdp.goal policyMean
      congr 1
      split
      · rfl
      · simp only [mul_add, Finset.sum_add_distrib, ← Finset.sum_mul, (hpi _).2, one_mul, Finset.mul_sum]
        congr 1
        exact Finset.sum_congr rfl fun a _ => by ring }
  refine learnS_process (best := fun s a => e.back gamma v s a) hn h0 h1 hY (ix := e.outNext rows out) hs.at_known hs.w_known hix hlaw
    (fun θ θT t ω => sarsa_row hn type1 (hs.rn t ω) (hs.ended t ω) (hs.goes t ω) (hs.s_next t ω) (hs.a_next t ω) θ θT) hl (Or.inl rfl) ?_ θ0 θT0
  intro q M' hM' p
  have h2 : e.op gamma (policyMean pi) (fun p => e.back gamma v p.1 p.2) p = e.back gamma v p.1 p.2 := by
    unfold Mdp.op
    refine Finset.sum_congr rfl fun j _ => ?_
    unfold Mdp.goal policyMean
    simp only [← hvb]
  show |_ - e.back gamma v p.1 p.2| ≤ _
  rw [← h2]
  exact policy_op_close he h0 hpi q _ M' hM' p

end Coax.Loop
