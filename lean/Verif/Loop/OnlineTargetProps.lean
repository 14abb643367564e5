import Verif.Loop.OnlineTarget
import Verif.Loop.EvaluateProps
import Verif.Loop.ExploreProps

/-! Property C127 for the online loop with a target network. -/

namespace Coax.Loop

open Coax.RewardTracing Coax.TD Coax.Core Coax.Values Coax.Pol Filter Topology MeasureTheory

variable {σ : Type _} {n m : Nat} {Ω : Type _} {m0 : MeasurableSpace Ω}

theorem onlineU_append {Θ : Type _} {update : ℕ → Θ → Out σ (Fin n) ℝ → Except Err Θ} {s s' : NStep σ (Fin n) ℝ × Θ × ℕ} {xs : List (Step σ (Fin n) ℝ × Bool)}
    (h : onlineU update s xs = .ok s') (ys : List (Step σ (Fin n) ℝ × Bool)) : onlineU update s (xs ++ ys) = onlineU update s' ys := by
  induction xs generalizing s with
  | nil => cases h; rfl
  | cons x xs ih =>
    obtain ⟨t, θ⟩ := s
    obtain ⟨x, d⟩ := x
    rw [onlineU] at h
    rw [List.cons_append, onlineU]
    split at h
    · cases h
    · split at h
      · cases h
      · exact ih h

/-- The online loop does one update for each step, with the transition of this step; the last step waits for its successor. -/
theorem onlineU_learn {Θ : Type _} {update : ℕ → Θ → Out σ (Fin n) ℝ → Except Err Θ} {gamma : ℝ} (h0 : 0 ≤ gamma) (h1 : gamma ≤ 1) {xs : ℕ → Step σ (Fin n) ℝ} {dn : ℕ → Bool} (hlogp : ∀ t, (xs t).logp ≤ 0) (hw : ∀ t, 0 < (xs t).w)
    {θ : ℕ → Θ}
    (hθ : ∀ j, update j (θ j) (rowOf gamma (xs j) (xs (j + 1)) (dn j)) = .ok (θ (j + 1))) (k : ℕ) :
    onlineU update (NStep.init 1 gamma false, θ 0, 0) ((List.range k).map fun t => (xs t, dn t)) =
      .ok (match k with
        | 0 => (tracerWith gamma [] false, θ 0, 0)
        | j + 1 => if dn j then (tracerWith gamma [] true, θ (j + 1), j + 1) else (tracerWith gamma [xs j] false, θ j, j)) := by
  induction k with
  | zero => simp [onlineU, NStep.init, NStep.reset, tracerWith]
  | succ k ih =>
    rw [List.range_succ, List.map_append, onlineU_append ih]
    have done : ∀ fuel θ', learnPopsU update (fuel + 1) (tracerWith gamma [] true) θ' = .ok (tracerWith gamma [] true, θ') := by
      intro fuel θ'
      obtain ⟨θ', c⟩ := θ'
      simp [learnPopsU, tracerWith, NStep.bool, NStep.len]
    have wait : ∀ fuel x θ', learnPopsU update (fuel + 1) (tracerWith gamma [x] false) θ' = .ok (tracerWith gamma [x] false, θ') := by
      intro fuel x θ'
      obtain ⟨θ', c⟩ := θ'
      simp [learnPopsU, tracerWith, NStep.bool, NStep.len]
    have last : ∀ fuel, dn k = true → learnPopsU update (fuel + 2) (tracerWith gamma [xs k] true) (θ k, k) = .ok (tracerWith gamma [] true, θ (k + 1), k + 1) := by
      intro fuel he
      rw [learnPopsU, if_neg (by simp [tracerWith, NStep.bool, NStep.len]), pop_last h0 h1 (hlogp k) (hw k) (xs (k + 1))]
      simp only
      have h2 := hθ k
      rw [he] at h2
      rw [h2]
      simp only
      rw [done]
    have idle : ∀ d0, onlineU update (tracerWith gamma [] d0, θ k, k) ([k].map fun t => (xs t, dn t)) =
        .ok (if dn k then (tracerWith gamma [] true, θ (k + 1), k + 1) else (tracerWith gamma [xs k] false, θ k, k)) := by
      intro d0
      have ha : (tracerWith gamma [] d0).add (xs k) (dn k) = (tracerWith gamma [xs k] (dn k), none) := by
        simp [NStep.add, tracerWith, NStep.len]
      rw [List.map_singleton, onlineU, ha]
      simp only
      show (match learnPopsU update 2 _ _ with | Except.error e => Except.error e | Except.ok s => onlineU update s []) = _
      cases he : dn k with
      | true => rw [last 0 he]; simp [onlineU]
      | false => rw [wait 1]; simp [onlineU]
    cases k with
    | zero => exact idle false
    | succ j =>
      simp only
      cases hj : dn j with
      | true =>
        rw [if_pos rfl]
        exact idle true
      | false =>
        rw [if_neg (by simp)]
        have ha : (tracerWith gamma [xs j] false).add (xs (j + 1)) (dn (j + 1)) = (tracerWith gamma [xs j, xs (j + 1)] (dn (j + 1)), none) := by
          simp [NStep.add, tracerWith, NStep.len]
        rw [List.map_singleton, onlineU, ha]
        simp only
        have h2 : learnPopsU update 3 (tracerWith gamma [xs j, xs (j + 1)] (dn (j + 1))) (θ j, j) =
            learnPopsU update 2 (tracerWith gamma [xs (j + 1)] (dn (j + 1))) (θ (j + 1), j + 1) := by
          rw [learnPopsU, if_neg (by simp [tracerWith, NStep.bool, NStep.len]), pop_two h0 h1 (hlogp j) (hlogp (j + 1)) (hw j)]
          simp only
          have h2 := hθ j
          rw [hj] at h2
          rw [h2]
        show (match learnPopsU update 3 _ _ with | Except.error e => Except.error e | Except.ok s => onlineU update s []) = _
        rw [h2]
        cases he : dn (j + 1) with
        | true => rw [last 0 he]; simp [onlineU]
        | false => rw [wait 1]; simp [onlineU]

/-- The last step of a loop that waits for its successor does not matter in the limit. -/
theorem late_tendsto {f : ℕ → ℝ} {x : ℝ} (d : ℕ → Bool) (hf : Tendsto f atTop (𝓝 x)) : Tendsto (fun k => match k with | 0 => f 0 | j + 1 => if d j then f (j + 1) else f j) atTop (𝓝 x) := by
  rw [Metric.tendsto_atTop]
  intro ε hε
  obtain ⟨N, hN⟩ := Metric.tendsto_atTop.1 hf ε hε
  refine ⟨N + 1, fun k hk => ?_⟩
  obtain ⟨j, rfl⟩ : ∃ j, k = j + 1 := ⟨k - 1, by omega⟩
  simp only
  split
  · exact hN _ (by omega)
  · exact hN _ (by omega)

section

variable [DecidableEq σ]

/-- What is learned from the transitions one by one is learned online. -/
theorem onlineT_of_learnS {μ : Measure Ω} {lr : ℕ → ℝ} {tau gamma : ℝ} (h0 : 0 ≤ gamma) (h1 : gamma ≤ 1) {L : LossFn} {updateRule} {type1 : Bool} {xs : ℕ → Ω → Step σ (Fin n) ℝ} {dn : ℕ → Ω → Bool} (hlogp : ∀ t ω, (xs t ω).logp ≤ 0)
    (hw : ∀ t ω, 0 < (xs t ω).w) {θ0 θT0 : σ → Fin n → ℝ} {best : σ → Fin n → ℝ}
    (h : ∃ θ θT : ℕ → Ω → σ → Fin n → ℝ, (∀ k ω, learnS lr L updateRule type1 0 (θ0, θT0) ((List.range k).map fun t => ([rowOf gamma (xs t ω) (xs (t + 1) ω) (dn t ω)], tau)) = .ok (θ k ω, θT k ω)) ∧
      ∀ᵐ ω ∂μ, ∀ s a, Tendsto (fun k => θ k ω s a) atTop (𝓝 (best s a)) ∧ Tendsto (fun k => θT k ω s a) atTop (𝓝 (best s a))) :
    ∃ θ θT : ℕ → Ω → σ → Fin n → ℝ,
      (∀ k ω, ∃ t c, onlineT lr tau L updateRule type1 (NStep.init 1 gamma false, (θ0, θT0), 0) ((List.range k).map fun t => (xs t ω, dn t ω)) = .ok (t, (θ k ω, θT k ω), c)) ∧
      ∀ᵐ ω ∂μ, ∀ s a, Tendsto (fun k => θ k ω s a) atTop (𝓝 (best s a)) ∧ Tendsto (fun k => θT k ω s a) atTop (𝓝 (best s a)) := by
  obtain ⟨θ, θT, h2, h3⟩ := h
  have start : ∀ ω, (θ 0 ω, θT 0 ω) = (θ0, θT0) := fun ω => (Except.ok.inj (h2 0 ω)).symm
  have step : ∀ ω j, updateT lr tau L updateRule type1 j (θ j ω, θT j ω) (rowOf gamma (xs j ω) (xs (j + 1) ω) (dn j ω)) = .ok (θ (j + 1) ω, θT (j + 1) ω) := by
    intro ω j
    have h4 := h2 (j + 1) ω
    rw [List.range_succ, List.map_append, learnS_append (h2 j ω)] at h4
    simp only [List.map_cons, List.map_nil, List.length_map, List.length_range, Nat.zero_add] at h4
    rw [learnS] at h4
    split at h4
    · cases h4
    · rename_i θ' he
      rw [learnS] at h4
      rw [updateT, he]
      exact h4
  have main := fun ω => onlineU_learn (dn := fun t => dn t ω) (θ := fun t => (θ t ω, θT t ω)) h0 h1 (fun t => hlogp t ω) (fun t => hw t ω) (step ω)
  refine ⟨fun k ω => match k with | 0 => θ 0 ω | j + 1 => if dn j ω then θ (j + 1) ω else θ j ω, fun k ω => match k with | 0 => θT 0 ω | j + 1 => if dn j ω then θT (j + 1) ω else θT j ω, fun k ω => ?_, ?_⟩
  · rw [← start ω, onlineT, main ω k]
    cases k with
    | zero => exact ⟨_, _, rfl⟩
    | succ j =>
      simp only
      split
      · exact ⟨_, _, rfl⟩
      · exact ⟨_, _, rfl⟩
  · filter_upwards [h3] with ω h3 s a
    have e1 := late_tendsto (fun j => dn j ω) (h3 s a).1
    have e2 := late_tendsto (fun j => dn j ω) (h3 s a).2
    constructor
    · refine e1.congr fun k => ?_
      cases k with
      | zero => rfl
      | succ j => simp only; split <;> rfl
    · refine e2.congr fun k => ?_
      cases k with
      | zero => rfl
      | succ j => simp only; split <;> rfl

/-- The learning rates of an explorer suit the transitions. -/
theorem Explorer.rates [Fintype σ] {μ : Measure Ω} [IsProbabilityMeasure μ] {ℋ : Filtration ℕ m0} {e : Mdp σ n m} {lr : ℕ → ℝ} {xs : ℕ → Ω → Step σ (Fin n) ℝ} {out : ℕ → Ω → Fin m} (hx : Explorer e μ ℋ xs out lr) (gamma : ℝ) {tau : ℝ}
    (h0 : 0 < tau) (h1 : tau ≤ 1) : Rates μ (fun t ω => rowOf gamma (xs t ω) (xs (t + 1) ω) (e.ends (xs t ω).s (xs t ω).a (out t ω))) lr (fun _ => tau) := by
  obtain ⟨eps, h2, h3⟩ := hx.explores
  obtain ⟨C, hC⟩ := hx.slow
  have hv := hx.steps.visits h2 h3 hx.connected hx.reset hx.schedule.nonneg hx.schedule.squares hx.infinite hC
  refine ⟨hx.schedule.nonneg, hx.schedule.le, hx.schedule.squares, fun s a => hv.mono fun ω h4 => ?_, fun _ => h0.le, fun _ => h1, fun h => ?_⟩
  · intro hsum
    classical
    refine h4 s a (hsum.congr fun t => ?_)
    rw [Set.indicator_apply]
    by_cases hp : (xs t ω).s = s ∧ (xs t ω).a = a <;> simp [hp, rowOf]
  · have := h.tendsto_atTop_zero
    exact h0.ne' (tendsto_nhds_unique tendsto_const_nhds this)

omit [DecidableEq σ] in
theorem Explorer.vanish {μ : Measure Ω} {ℋ : Filtration ℕ m0} {e : Mdp σ n m} {lr : ℕ → ℝ} {xs : ℕ → Ω → Step σ (Fin n) ℝ} {out : ℕ → Ω → Fin m} (hx : Explorer e μ ℋ xs out lr) (tau : ℝ) :
    Tendsto (fun t => lr t / tau) atTop (𝓝 0) := by
  have h2 := hx.schedule.squares.tendsto_atTop_zero
  have h3 : Tendsto lr atTop (𝓝 0) := by
    have := (Real.continuous_sqrt.tendsto 0).comp h2
    rw [Real.sqrt_zero] at this
    refine this.congr fun t => ?_
    simp only [Function.comp]
    exact Real.sqrt_sq (hx.schedule.nonneg t)
  simpa using h3.div_const tau

/-- **C127** for the online loop with `DoubleQLearning`, an `NStep` tracer with `n = 1` and a target network with a constant rate: the params converge almost surely to the solution of the Bellman equation, if the environment is connected,
the agent tries every action with at least some probability and the learning rates decrease slowly.  Nothing raises. -/
theorem C127_online_double_q_learning {Ω : Type} {m0 : MeasurableSpace Ω} [Fintype σ] (hn : 0 < n) {e : Mdp σ n m} (he : e.Proper) {gamma : ℝ} (h0 : 0 ≤ gamma) (h1 : gamma < 1) {μ : Measure Ω} [IsProbabilityMeasure μ] {ℋ : Filtration ℕ m0} {lr : ℕ → ℝ}
    {xs : ℕ → Ω → Step σ (Fin n) ℝ} {out : ℕ → Ω → Fin m} (hx : Explorer e μ ℋ xs out lr) {tau : ℝ} (ht0 : 0 < tau) (ht1 : tau ≤ 1) {best : σ → Fin n → ℝ} (hbest : e.Solves gamma Greedy best) (type1 : Bool) (θ0 θT0 : σ → Fin n → ℝ) :
    ∃ θ θT : ℕ → Ω → σ → Fin n → ℝ,
      (∀ k ω, ∃ t c, onlineT lr tau mse1 (doubleQLearning n) type1 (NStep.init 1 gamma false, (θ0, θT0), 0) ((List.range k).map fun t => (xs t ω, e.ends (xs t ω).s (xs t ω).a (out t ω))) = .ok (t, (θ k ω, θT k ω), c)) ∧
      ∀ᵐ ω ∂μ, ∀ s a, Tendsto (fun k => θ k ω s a) atTop (𝓝 (best s a)) ∧ Tendsto (fun k => θT k ω s a) atTop (𝓝 (best s a)) := by
  obtain ⟨best', -, hu, H⟩ := C127_double_q_learning (σ := σ) hn he h0 h1
  obtain rfl := hu best hbest
  exact onlineT_of_learnS (dn := fun t ω => e.ends (xs t ω).s (xs t ω).a (out t ω)) h0 h1.le hx.steps.logp hx.steps.w (H (hx.steps.samples gamma) (hx.rates gamma ht0 ht1) (fun _ => ht0) (hx.vanish tau) type1 θ0 θT0)

end

/-! ### Sarsa -/

/-- Actions are chosen with the probabilities `pi`, whatever happened before. -/
def Obeys (pi : σ → Fin n → ℝ) (μ : Measure Ω) (ℋ : Filtration ℕ m0) (xs : ℕ → Ω → Step σ (Fin n) ℝ) : Prop :=
  ∀ t a, μ[Set.indicator {ω | (xs t ω).a = a} (fun _ => (1 : ℝ)) | ℋ (2 * t)] =ᵐ[μ] fun ω => pi (xs t ω).s a

theorem Steps.follows [Finite σ] {pi : σ → Fin n → ℝ} {μ : Measure Ω} [IsProbabilityMeasure μ] {ℋ : Filtration ℕ m0} {e : Mdp σ n m} {xs : ℕ → Ω → Step σ (Fin n) ℝ} {out : ℕ → Ω → Fin m} (h : Steps e μ ℋ xs out) (hpi : Obeys pi μ ℋ xs)
    (gamma : ℝ) : Follows e pi μ (sub2 ℋ 1) (fun t ω => rowOf gamma (xs t ω) (xs (t + 1) ω) (e.ends (xs t ω).s (xs t ω).a (out t ω))) out := by
  have hend : ∀ t, MeasurableSet[ℋ (2 * t + 2)] {ω | e.ends (xs t ω).s (xs t ω).a (out t ω) = true} := by
    intro t
    have h2 : {ω | e.ends (xs t ω).s (xs t ω).a (out t ω) = true} = ⋃ s, ⋃ b, ⋃ j, ({ω | (xs t ω).s = s} ∩ {ω | (xs t ω).a = b} ∩ {ω | out t ω = j}) ∩ {_ω | e.ends s b j = true} := by
      ext ω
      simp
    rw [h2]
    refine MeasurableSet.iUnion fun s => MeasurableSet.iUnion fun b => MeasurableSet.iUnion fun j => MeasurableSet.inter (MeasurableSet.inter (MeasurableSet.inter ?_ ?_) (h.out_known t j)) (@MeasurableSet.const _ (ℋ (2 * t + 2)) _)
    · exact ℋ.mono (by omega) _ (h.s_known t s)
    · exact ℋ.mono (by omega) _ (h.a_known t b)
  have hnext : ∀ t a, {ω | (rowOf gamma (xs t ω) (xs (t + 1) ω) (e.ends (xs t ω).s (xs t ω).a (out t ω))).A_next = some a} =
      ({ω | e.ends (xs t ω).s (xs t ω).a (out t ω) = true} ∩ {ω | (xs t ω).a = a}) ∪ ({ω | e.ends (xs t ω).s (xs t ω).a (out t ω) = true}ᶜ ∩ {ω | (xs (t + 1) ω).a = a}) := by
    intro t a
    ext ω
    cases he : e.ends (xs t ω).s (xs t ω).a (out t ω) <;> simp [rowOf, he]
  have hknown : ∀ t a, MeasurableSet[ℋ (2 * t + 3)] {ω | (rowOf gamma (xs t ω) (xs (t + 1) ω) (e.ends (xs t ω).s (xs t ω).a (out t ω))).A_next = some a} := by
    intro t a
    rw [hnext]
    have h2 := ℋ.mono (show 2 * t + 2 ≤ 2 * t + 3 by omega) _ (hend t)
    exact MeasurableSet.union (MeasurableSet.inter h2 (ℋ.mono (by omega) _ (h.a_known t a))) (MeasurableSet.inter h2.compl (h.a_known (t + 1) a))
  constructor
  · exact hknown
  · intro t j a
    have hint : ∀ (S : Set Ω), MeasurableSet S → Integrable (S.indicator fun _ => (1 : ℝ)) μ := fun S hS => (integrable_const _).indicator hS
    have ho : MeasurableSet[ℋ (2 * t + 2)] {ω | out t ω = j} := h.out_known t j
    have ha : MeasurableSet {ω | (xs (t + 1) ω).a = a} := ℋ.le _ _ (h.a_known (t + 1) a)
    have hfirst : MeasurableSet {ω | out t ω = j ∧ (rowOf gamma (xs t ω) (xs (t + 1) ω) (e.ends (xs t ω).s (xs t ω).a (out t ω))).A_next = some a} := MeasurableSet.inter (ℋ.le _ _ ho) (ℋ.le _ _ (hknown t a))
    have hsecond : Integrable (Set.indicator {ω | out t ω = j} (Set.indicator {ω | (xs (t + 1) ω).a = a} fun _ => (1 : ℝ))) μ := (hint _ ha).indicator (ℋ.le _ _ ho)
    have inner : μ[Set.indicator {ω | out t ω = j} (Set.indicator {ω | (xs (t + 1) ω).a = a} fun _ => (1 : ℝ)) | ℋ (2 * t + 2)] =ᵐ[μ] Set.indicator {ω | out t ω = j} fun ω => pi (xs (t + 1) ω).s a := by
      refine (condExp_indicator (hint _ ha) ho).trans ?_
      filter_upwards [hpi (t + 1) a] with ω h3
      replace h3 : (μ[Set.indicator {ω | (xs (t + 1) ω).a = a} fun _ => (1 : ℝ) | ℋ (2 * t + 2)]) ω = pi (xs (t + 1) ω).s a := h3
      by_cases hω : ω ∈ {ω | out t ω = j}
      · rw [Set.indicator_of_mem hω, Set.indicator_of_mem hω, h3]
      · rw [Set.indicator_of_notMem hω, Set.indicator_of_notMem hω]
    have tower : μ[Set.indicator {ω | out t ω = j} (Set.indicator {ω | (xs (t + 1) ω).a = a} fun _ => (1 : ℝ)) | ℋ (2 * t + 1)] =ᵐ[μ] μ[Set.indicator {ω | out t ω = j} (fun ω => pi (xs (t + 1) ω).s a) | ℋ (2 * t + 1)] :=
      (condExp_condExp_of_le (ℋ.mono (show 2 * t + 1 ≤ 2 * t + 2 by omega)) (ℋ.le _)).symm.trans (condExp_congr_ae inner)
    have local' : ∀ s b, ∀ᵐ ω ∂μ, e.ends s b j = false → (xs t ω).s = s ∧ (xs t ω).a = b → (μ[Set.indicator {ω | out t ω = j ∧ (rowOf gamma (xs t ω) (xs (t + 1) ω) (e.ends (xs t ω).s (xs t ω).a (out t ω))).A_next = some a} (fun _ => (1 : ℝ)) | ℋ (2 * t + 1)]) ω = e.prob s b j * pi (e.next s b j) a := by
      intro s b
      by_cases hend : e.ends s b j = false
      · have hE : MeasurableSet[ℋ (2 * t + 1)] {ω | (xs t ω).s = s ∧ (xs t ω).a = b} := MeasurableSet.inter (ℋ.mono (by omega) _ (h.s_known t s)) (h.a_known t b)
        have hi : Integrable (Set.indicator {ω | out t ω = j} fun ω => pi (xs (t + 1) ω).s a) μ := integrable_condExp.congr inner
        have hg : Integrable (pi (e.next s b j) a • Set.indicator {ω | out t ω = j} (fun _ => (1 : ℝ))) μ := (hint _ (ℋ.le _ _ ho)).smul _
        have h3 := condExp_local (ℋ.le (2 * t + 1)) hi hg hE (by
          rintro ω ⟨hs, hb⟩
          by_cases hω : ω ∈ {ω | out t ω = j}
          · have hj : out t ω = j := hω
            have h4 := h.next t ω (by rw [hs, hb, hj]; exact hend)
            rw [hs, hb, hj] at h4
            rw [Pi.smul_apply, Set.indicator_of_mem hω, Set.indicator_of_mem hω, h4, smul_eq_mul, mul_one]
          · rw [Pi.smul_apply, Set.indicator_of_notMem hω, Set.indicator_of_notMem hω, smul_zero])
        have h7 := condExp_local (ℋ.le (2 * t + 1)) (hint _ hfirst) hsecond hE (by
          rintro ω ⟨hs, hb⟩
          rw [Set.indicator_indicator]
          by_cases hj : out t ω = j
          · have h8 : e.ends (xs t ω).s (xs t ω).a (out t ω) = false := by rw [hs, hb, hj]; exact hend
            by_cases h9 : (xs (t + 1) ω).a = a <;> simp [Set.indicator, hj, h9, rowOf, hj ▸ h8]
          · simp [Set.indicator, hj])
        have h5 := condExp_smul (μ := μ) (pi (e.next s b j) a) (Set.indicator {ω | out t ω = j} fun _ => (1 : ℝ)) (ℋ (2 * t + 1))
        filter_upwards [h3, h5, h.law t j, h7, tower] with ω h3 h5 h6 h7 h10 _ hω
        rw [h7 hω, h10, h3 hω]
        refine Eq.trans h5 ?_
        rw [Pi.smul_apply, h6, hω.1, hω.2, smul_eq_mul, mul_comm]
      · exact Eventually.of_forall fun ω h' => absurd h' hend
    have all : ∀ᵐ ω ∂μ, ∀ s b, e.ends s b j = false → (xs t ω).s = s ∧ (xs t ω).a = b → (μ[Set.indicator {ω | out t ω = j ∧ (rowOf gamma (xs t ω) (xs (t + 1) ω) (e.ends (xs t ω).s (xs t ω).a (out t ω))).A_next = some a} (fun _ => (1 : ℝ)) | ℋ (2 * t + 1)]) ω = e.prob s b j * pi (e.next s b j) a := by
      rw [ae_all_iff]
      intro s
      rw [ae_all_iff]
      exact local' s
    filter_upwards [all] with ω h4 hend
    exact h4 _ _ hend ⟨rfl, rfl⟩

section

variable [DecidableEq σ]

/-- **C127** for the online loop with `Sarsa` and an `NStep` tracer with `n = 1`: if every action is drawn from a fixed policy, the params converge almost surely to the expected returns under this policy.
The rate of the target network may be anything in `(0, 1]`; at `1` the target network always equals the learned table, as in a loop without one.  Nothing raises. -/
theorem C127_online_sarsa {Ω : Type} {m0 : MeasurableSpace Ω} [Fintype σ] (hn : 0 < n) {e : Mdp σ n m} (he : e.Proper) {gamma : ℝ} (h0 : 0 ≤ gamma) (h1 : gamma < 1) {pi : σ → Fin n → ℝ} (hpi : ∀ s, (∀ a, 0 ≤ pi s a) ∧ ∑ a, pi s a = 1)
    {μ : Measure Ω} [IsProbabilityMeasure μ] {ℋ : Filtration ℕ m0} {lr : ℕ → ℝ} {xs : ℕ → Ω → Step σ (Fin n) ℝ} {out : ℕ → Ω → Fin m} (hx : Explorer e μ ℋ xs out lr) (hobey : Obeys pi μ ℋ xs) {tau : ℝ} (ht0 : 0 < tau) (ht1 : tau ≤ 1) {v : σ → ℝ}
    (hv : ∀ s, e.Worth gamma 0 (stationary pi) s (v s)) (type1 : Bool) (θ0 θT0 : σ → Fin n → ℝ) :
    ∃ θ θT : ℕ → Ω → σ → Fin n → ℝ,
      (∀ k ω, ∃ t c, onlineT lr tau mse1 (sarsa n) type1 (NStep.init 1 gamma false, (θ0, θT0), 0) ((List.range k).map fun t => (xs t ω, e.ends (xs t ω).s (xs t ω).a (out t ω))) = .ok (t, (θ k ω, θT k ω), c)) ∧
      ∀ᵐ ω ∂μ, ∀ s a, Tendsto (fun k => θ k ω s a) atTop (𝓝 (∑ j, e.prob s a j * (e.reward s a j + if e.ends s a j then 0 else gamma * v (e.next s a j)))) ∧
        Tendsto (fun k => θT k ω s a) atTop (𝓝 (∑ j, e.prob s a j * (e.reward s a j + if e.ends s a j then 0 else gamma * v (e.next s a j)))) := by
  obtain ⟨v', hv', H⟩ := C127_sarsa (σ := σ) hn he h0 h1 hpi
  obtain rfl : v' = v := funext fun s => tendsto_nhds_unique (hv' s) (hv s)
  exact onlineT_of_learnS (dn := fun t ω => e.ends (xs t ω).s (xs t ω).a (out t ω)) h0 h1.le hx.steps.logp hx.steps.w (H (hx.steps.samples gamma) (hx.steps.follows hobey gamma) (hx.rates gamma ht0 ht1) type1 θ0 θT0)

end

/-! ### An example: an agent that flips coins -/

theorem coin_obeys : Obeys (fun _ _ => 1 / 2) coins flips coinSteps := by
  intro t a
  exact fin2_fair (by omega) a

/-- The hypotheses of C127 are met: with a target network at rate 1/10, double Q-learning finds the values 1/4, 1/2, 1/4 and 1, almost surely. -/
example (θ0 θT0 : Bool → Fin 2 → ℝ) : ∃ θ θT : ℕ → (ℕ → Bool) → Bool → Fin 2 → ℝ,
    (∀ k ω, ∃ t c, onlineT (fun t => 1 / ((t : ℝ) + 1)) (1 / 10) mse1 (doubleQLearning 2) true (NStep.init 1 (1 / 2) false, (θ0, θT0), 0)
      ((List.range k).map fun t => (coinSteps t ω, twoCoins.ends (coinSteps t ω).s (coinSteps t ω).a (if ω (2 * t + 2) then 1 else 0))) = .ok (t, (θ k ω, θT k ω), c)) ∧
    ∀ᵐ ω ∂coins, Tendsto (fun k => θ k ω false 0) atTop (𝓝 (1 / 4)) ∧ Tendsto (fun k => θ k ω false 1) atTop (𝓝 (1 / 2)) ∧ Tendsto (fun k => θ k ω true 1) atTop (𝓝 1) := by
  have hp : twoCoins.Proper := ⟨fun _ _ _ => by norm_num [twoCoins], fun _ _ => by norm_num [twoCoins]⟩
  obtain ⟨θ, θT, h, h'⟩ := C127_online_double_q_learning (by norm_num) hp (by norm_num) (by norm_num) coin_explorer (tau := 1 / 10) (by norm_num) (by norm_num) coins_solves true θ0 θT0
  exact ⟨θ, θT, h, h'.mono fun ω h' => ⟨by simpa [twoBest] using (h' false 0).1, by simpa [twoBest] using (h' false 1).1, by simpa [twoBest] using (h' true 1).1⟩⟩

/-- The same for Sarsa and the policy that flips coins. -/
example (θ0 θT0 : Bool → Fin 2 → ℝ) : ∃ v : Bool → ℝ, ∃ θ θT : ℕ → (ℕ → Bool) → Bool → Fin 2 → ℝ, (∀ s, twoCoins.Worth (1 / 2) 0 (stationary fun _ _ => 1 / 2) s (v s)) ∧
    (∀ k ω, ∃ t c, onlineT (fun t => 1 / ((t : ℝ) + 1)) 1 mse1 (sarsa 2) true (NStep.init 1 (1 / 2) false, (θ0, θT0), 0)
      ((List.range k).map fun t => (coinSteps t ω, twoCoins.ends (coinSteps t ω).s (coinSteps t ω).a (if ω (2 * t + 2) then 1 else 0))) = .ok (t, (θ k ω, θT k ω), c)) ∧
    ∀ᵐ ω ∂coins, Tendsto (fun k => θ k ω false 1) atTop (𝓝 (1 / 2 * v true)) ∧ Tendsto (fun k => θ k ω true 1) atTop (𝓝 1) := by
  have hp : twoCoins.Proper := ⟨fun _ _ _ => by norm_num [twoCoins], fun _ _ => by norm_num [twoCoins]⟩
  have hpi : ∀ s : Bool, (∀ a : Fin 2, 0 ≤ (fun _ _ => 1 / 2 : Bool → Fin 2 → ℝ) s a) ∧ ∑ a : Fin 2, (fun _ _ => 1 / 2 : Bool → Fin 2 → ℝ) s a = 1 := fun s => ⟨fun a => by norm_num, by norm_num⟩
  obtain ⟨v, hv, -⟩ := C127_sarsa (by norm_num) hp (gamma := 1 / 2) (by norm_num) (by norm_num) hpi
  obtain ⟨θ, θT, h, h'⟩ := C127_online_sarsa (by norm_num) hp (by norm_num) (by norm_num) hpi coin_explorer coin_obeys (tau := 1) (by norm_num) (by norm_num) hv true θ0 θT0
  refine ⟨v, θ, θT, hv, h, h'.mono fun ω h' => ⟨?_, ?_⟩⟩
  · have h2 := (h' false 1).1
    have h3 : (∑ j, twoCoins.prob false 1 j * (twoCoins.reward false 1 j + if twoCoins.ends false 1 j then 0 else 1 / 2 * v (twoCoins.next false 1 j))) = 1 / 2 * v true := by
      simp [twoCoins]
    rwa [h3] at h2
  · have h2 := (h' true 1).1
    have h3 : (∑ j, twoCoins.prob true 1 j * (twoCoins.reward true 1 j + if twoCoins.ends true 1 j then 0 else 1 / 2 * v (twoCoins.next true 1 j))) = 1 := by
      norm_num [twoCoins, Fin.sum_univ_two]
    rwa [h3] at h2

end Coax.Loop
