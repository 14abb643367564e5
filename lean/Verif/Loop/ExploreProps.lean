import Verif.Loop.AlmostSureProps
import Verif.Core.ValuePolicyProps
import Mathlib.Probability.BorelCantelli
import Mathlib.Probability.ProductMeasure
import Mathlib.Probability.ProbabilityMassFunction.Constructions
import Mathlib.Probability.Distributions.Uniform
import Mathlib.Analysis.PSeries

/-! Property C119 for the online loop: an agent that explores learns the optimal values of a connected environment. -/

namespace Coax.Loop

open Coax.RewardTracing Coax.TD Coax.Core Coax.Values Coax.Pol Filter Topology MeasureTheory

variable {σ : Type _} {n m : Nat} {Ω : Type _} {m0 : MeasurableSpace Ω}

/-! ### Specification -/

/-- The steps of an agent in a stochastic environment.  Step `t` has two parts: the action is chosen with what is known at time `2 t`, and then the outcome is drawn with the probabilities of the environment.  Rewards, ends of episodes and next
states are those of the outcome; nothing is assumed about the state after the end of an episode. -/
structure Steps (e : Mdp σ n m) (μ : Measure Ω) (ℋ : Filtration ℕ m0) (xs : ℕ → Ω → Step σ (Fin n) ℝ) (out : ℕ → Ω → Fin m) : Prop where
  s_known : ∀ t s, MeasurableSet[ℋ (2 * t)] {ω | (xs t ω).s = s}
  a_known : ∀ t a, MeasurableSet[ℋ (2 * t + 1)] {ω | (xs t ω).a = a}
  w_known : ∀ t, Measurable[ℋ (2 * t + 1)] fun ω => (xs t ω).w
  out_known : ∀ t j, MeasurableSet[ℋ (2 * t + 2)] {ω | out t ω = j}
  law : ∀ t j, μ[Set.indicator {ω | out t ω = j} (fun _ => (1 : ℝ)) | ℋ (2 * t + 1)] =ᵐ[μ] fun ω => e.prob (xs t ω).s (xs t ω).a j
  reward : ∀ t ω, (xs t ω).r = e.reward (xs t ω).s (xs t ω).a (out t ω)
  next : ∀ t ω, e.ends (xs t ω).s (xs t ω).a (out t ω) = false → (xs (t + 1) ω).s = e.next (xs t ω).s (xs t ω).a (out t ω)
  logp : ∀ t ω, (xs t ω).logp ≤ 0
  w : ∀ t ω, 0 < (xs t ω).w

/-- Every action is chosen with probability at least `eps`, whatever happened before. -/
def Explores (μ : Measure Ω) (ℋ : Filtration ℕ m0) (xs : ℕ → Ω → Step σ (Fin n) ℝ) (eps : ℝ) : Prop :=
  ∀ t a, ∀ᵐ ω ∂μ, eps ≤ (μ[Set.indicator {ω | (xs t ω).a = a} (fun _ => (1 : ℝ)) | ℋ (2 * t)]) ω

/-- Some step from `s` may be followed by a step from `s'`. -/
def Mdp.Leads (e : Mdp σ n m) (s s' : σ) : Prop := ∃ a j, 0 < e.prob s a j ∧ e.next s a j = s'

/-- Every state can be reached from every other. -/
def Mdp.Connected (e : Mdp σ n m) : Prop := ∀ s s', Relation.ReflTransGen e.Leads s s'

/-! ### Exploration -/

/-- If an event has conditional probability at least `eps` at certain times, and the weights of these times have an infinite sum, then so have the weights of the times at which it happens. -/
theorem happens_often {μ : Measure Ω} [IsProbabilityMeasure μ] {ℱ : Filtration ℕ m0} {D E : ℕ → Set Ω} {lr : ℕ → ℝ} {eps : ℝ} (he : 0 < eps) (hD : ∀ t, MeasurableSet[ℱ t] (D t)) (hE : ∀ t, MeasurableSet[ℱ (t + 1)] (E t))
    (h0 : ∀ t, 0 ≤ lr t) (hs : Summable fun t => lr t ^ 2) (hp : ∀ t, ∀ᵐ ω ∂μ, ω ∈ D t → eps ≤ (μ[Set.indicator (E t) (fun _ => (1 : ℝ)) | ℱ t]) ω) :
    ∀ᵐ ω ∂μ, ¬ Summable (fun t => Set.indicator (D t) (fun _ => lr t) ω) → ¬ Summable (fun t => Set.indicator (D t ∩ E t) (fun _ => lr t) ω) := by
  classical
  let P : ℕ → Ω → ℝ := fun t => μ[Set.indicator (E t) (fun _ => (1 : ℝ)) | ℱ t]
  let P' : ℕ → Ω → ℝ := fun t ω => max 0 (min 1 (P t ω))
  have hEi : ∀ t, Integrable (Set.indicator (E t) (fun _ => (1 : ℝ))) μ := fun t => (integrable_const 1).indicator (ℱ.le _ _ (hE t))
  have hP : ∀ t, P' t =ᵐ[μ] P t := by
    intro t
    have h2 : 0 ≤ᵐ[μ] P t := condExp_nonneg (Eventually.of_forall fun ω => Set.indicator_nonneg (fun _ _ => zero_le_one) ω)
    have h3 : P t ≤ᵐ[μ] μ[(fun _ => (1 : ℝ)) | ℱ t] := condExp_mono (hEi t) (integrable_const 1) (Eventually.of_forall fun ω => Set.indicator_le_self' (fun _ _ => zero_le_one) ω)
    rw [condExp_const (ℱ.le t)] at h3
    filter_upwards [h2, h3] with ω h4 h5
    show max 0 (min 1 (P t ω)) = P t ω
    rw [min_eq_right h5, max_eq_right (show (0 : ℝ) ≤ P t ω from h4)]
  have hP'm : ∀ t, Measurable[ℱ t] (P' t) := fun t => measurable_const.max (measurable_const.min stronglyMeasurable_condExp.measurable)
  let w : ℕ → Ω → ℝ := fun t => Set.indicator (D t) (fun _ => lr t)
  have hwm : ∀ t, Measurable[ℱ t] (w t) := fun t => measurable_const.indicator (hD t)
  have hw0 : ∀ t ω, 0 ≤ w t ω := fun t ω => Set.indicator_nonneg (fun _ _ => h0 t) ω
  have hwl : ∀ t ω, w t ω ≤ lr t := fun t ω => Set.indicator_le_self' (fun _ _ => h0 t) ω
  let d : ℕ → Ω → ℝ := fun t => w t * (Set.indicator (E t) (fun _ => (1 : ℝ)) - P' t)
  have hnoise : ∀ᵐ ω ∂μ, ∃ S, Tendsto (fun t => ∑ k ∈ Finset.range t, d k ω) atTop (𝓝 S) := by
    refine noise_sum (ℱ := ℱ) (c := lr) (fun t => ?_) (fun t ω => ?_) hs (fun t => ?_)
    · have up : ∀ {F : Ω → ℝ}, Measurable[ℱ t] F → Measurable[ℱ (t + 1)] F := fun h => h.mono (ℱ.mono (by omega)) le_rfl
      exact ((up (hwm t)).mul ((measurable_const.indicator (hE t)).sub (up (hP'm t)))).stronglyMeasurable
    · show |w t ω * (Set.indicator (E t) (fun _ => (1 : ℝ)) ω - P' t ω)| ≤ lr t
      rw [abs_mul, abs_of_nonneg (hw0 t ω)]
      have h2 : 0 ≤ P' t ω := le_max_left _ _
      have h3 : P' t ω ≤ 1 := max_le zero_le_one (min_le_left _ _)
      have h4 : |Set.indicator (E t) (fun _ => (1 : ℝ)) ω - P' t ω| ≤ 1 := by
        rw [Set.indicator_apply]
        split
        · rw [abs_of_nonneg] <;> linarith
        · rw [zero_sub, abs_neg, abs_of_nonneg h2]; exact h3
      calc _ ≤ lr t * 1 := mul_le_mul (hwl t ω) h4 (abs_nonneg _) (h0 t)
        _ = _ := mul_one _
    · have hi : Integrable (P' t) μ := (integrable_congr (hP t)).2 integrable_condExp
      have h4 := condExp_stronglyMeasurable_mul_of_bound (ℱ.le t) (hwm t).stronglyMeasurable ((hEi t).sub hi) (lr t) (Eventually.of_forall fun ω => by rw [Real.norm_eq_abs, abs_of_nonneg (hw0 t ω)]; exact hwl t ω)
      have h5 := condExp_sub (hEi t) hi (ℱ t)
      have h6 : μ[P' t | ℱ t] = P' t := condExp_of_stronglyMeasurable (ℱ.le t) (hP'm t).stronglyMeasurable hi
      filter_upwards [h4, h5, hP t] with ω h7 h8 h9
      rw [h7, Pi.mul_apply, h8, Pi.sub_apply, h6, h9]
      show w t ω * (P t ω - P t ω) = 0
      ring
  filter_upwards [hnoise, ae_all_iff.2 hp, ae_all_iff.2 hP] with ω ⟨S, hS⟩ h1 h2 hinf hsum
  refine hinf ?_
  have h3 : Summable fun t => w t ω * P' t ω := by
    obtain ⟨S', hS'⟩ := hsum
    have h4 : Tendsto (fun t => ∑ k ∈ Finset.range t, w k ω * P' k ω) atTop (𝓝 (S' - S)) := by
      refine (hS'.tendsto_sum_nat.sub hS).congr fun t => ?_
      rw [← Finset.sum_sub_distrib]
      refine Finset.sum_congr rfl fun k _ => ?_
      show Set.indicator (D k ∩ E k) (fun _ => lr k) ω - w k ω * (Set.indicator (E k) (fun _ => (1 : ℝ)) ω - P' k ω) = w k ω * P' k ω
      simp only [w, Set.indicator_apply, Set.mem_inter_iff]
      by_cases hd : ω ∈ D k <;> by_cases hee : ω ∈ E k <;> simp only [hd, hee, and_self, and_true, and_false, if_true, if_false] <;> ring
    refine ⟨S' - S, (hasSum_iff_tendsto_nat_of_nonneg (fun t => mul_nonneg (hw0 t ω) (le_max_left _ _)) _).2 h4⟩
  refine Summable.of_nonneg_of_le (fun t => hw0 t ω) (fun t => ?_) (h3.mul_left eps⁻¹)
  show w t ω ≤ _
  by_cases hd : ω ∈ D t
  · have h4 := h1 t hd
    have h5 : eps ≤ P' t ω := by rw [h2 t]; exact h4
    rw [inv_mul_eq_div, le_div_iff₀ he]
    exact mul_le_mul_of_nonneg_left h5 (hw0 t ω)
  · simp [w, hd]

/-- The filtration at the times `2 t + c`. -/
def sub2 (ℋ : Filtration ℕ m0) (c : ℕ) : Filtration ℕ m0 := ⟨fun t => ℋ (2 * t + c), fun _ _ h => ℋ.mono (by omega), fun _ => ℋ.le _⟩

/-- Steps with learning rates of which the sum is infinite visit every state and action often enough. -/
theorem Steps.visits [Fintype σ] {μ : Measure Ω} [IsProbabilityMeasure μ] {ℋ : Filtration ℕ m0} {e : Mdp σ n m} {xs : ℕ → Ω → Step σ (Fin n) ℝ} {out : ℕ → Ω → Fin m} (h : Steps e μ ℋ xs out) {eps : ℝ} (he : 0 < eps) (hx : Explores μ ℋ xs eps)
    (hc : e.Connected) (hreset : ∀ t ω, (xs (t + 1) ω).s = e.next (xs t ω).s (xs t ω).a (out t ω)) {lr : ℕ → ℝ} (h0 : ∀ t, 0 ≤ lr t) (hs : Summable fun t => lr t ^ 2) (hi : ¬ Summable lr) {C : ℝ} (hC : ∀ t, lr t ≤ C * lr (t + 1)) :
    ∀ᵐ ω ∂μ, ∀ s a, ¬ Summable fun t => Set.indicator {ω | (xs t ω).s = s ∧ (xs t ω).a = a} (fun _ => lr t) ω := by
  classical
  have hact : ∀ᵐ ω ∂μ, ∀ (s : σ) (a : Fin n), ¬ Summable (fun t => Set.indicator {ω | (xs t ω).s = s} (fun _ => lr t) ω) → ¬ Summable (fun t => Set.indicator {ω | (xs t ω).s = s ∧ (xs t ω).a = a} (fun _ => lr t) ω) := by
    refine ae_all_iff.2 fun s => ae_all_iff.2 fun a => ?_
    exact happens_often (ℱ := sub2 ℋ 0) (D := fun t => {ω | (xs t ω).s = s}) (E := fun t => {ω | (xs t ω).a = a}) he (fun t => h.s_known t s)
      (fun t => ℋ.mono (by omega) _ (h.a_known t a)) h0 hs fun t => (hx t a).mono fun ω h2 _ => h2
  have hout : ∀ᵐ ω ∂μ, ∀ (s : σ) (a : Fin n) (j : Fin m), 0 < e.prob s a j → ¬ Summable (fun t => Set.indicator {ω | (xs t ω).s = s ∧ (xs t ω).a = a} (fun _ => lr t) ω) →
      ¬ Summable (fun t => Set.indicator ({ω | (xs t ω).s = s ∧ (xs t ω).a = a} ∩ {ω | out t ω = j}) (fun _ => lr t) ω) := by
    refine ae_all_iff.2 fun s => ae_all_iff.2 fun a => ae_all_iff.2 fun j => ?_
    by_cases hp : 0 < e.prob s a j
    · refine (happens_often (ℱ := sub2 ℋ 1) (D := fun t => {ω | (xs t ω).s = s ∧ (xs t ω).a = a}) (E := fun t => {ω | out t ω = j}) hp (fun t => ?_)
        (fun t => ℋ.mono (by omega) _ (h.out_known t j)) h0 hs fun t => (h.law t j).mono fun ω h2 h3 => ?_).mono fun ω h2 _ => h2
      · exact MeasurableSet.inter (ℋ.mono (by omega) _ (h.s_known t s)) (h.a_known t a)
      · have h4 : (μ[Set.indicator {ω | out t ω = j} (fun _ => (1 : ℝ)) | (sub2 ℋ 1) t]) ω = e.prob (xs t ω).s (xs t ω).a j := h2
        rw [h4, h3.1, h3.2]
    · exact Eventually.of_forall fun ω h2 => absurd h2 hp
  filter_upwards [hact, hout] with ω h1 h2 s a
  refine h1 s a ?_
  -- some state
  have hsome : ∃ s0, ¬ Summable (fun t => Set.indicator {ω | (xs t ω).s = s0} (fun _ => lr t) ω) := by
    by_contra hno
    push Not at hno
    refine hi ((summable_sum (s := Finset.univ) fun s0 _ => hno s0).congr fun t => ?_)
    simp [Set.indicator_apply]
  obtain ⟨s0, hs0⟩ := hsome
  refine Relation.ReflTransGen.head_induction_on (motive := fun x _ => ¬ Summable (fun t => Set.indicator {ω | (xs t ω).s = x} (fun _ => lr t) ω) → ¬ Summable (fun t => Set.indicator {ω | (xs t ω).s = s} (fun _ => lr t) ω))
    (hc s0 s) (fun h => h) (fun {x y} hxy _ ih hxs => ih ?_) hs0
  obtain ⟨a', j, hp, rfl⟩ := hxy
  have h3 := h2 x a' j hp (h1 x a' hxs)
  intro hsum
  refine h3 (Summable.of_nonneg_of_le (fun t => Set.indicator_nonneg (fun _ _ => h0 t) ω) (fun t => ?_) (((summable_nat_add_iff 1).2 hsum).mul_left C))
  rw [Set.indicator_apply, Set.indicator_apply]
  split
  · rename_i hin
    have h4 : (xs (t + 1) ω).s = e.next x a' j := by rw [hreset t ω, hin.1.1, hin.1.2, show out t ω = j from hin.2]
    rw [if_pos (show ω ∈ {ω | (xs (t + 1) ω).s = e.next x a' j} from h4)]
    exact hC t
  · split
    · exact (h0 t).trans (hC t)
    · simp

/-! ### The online loop -/

variable [DecidableEq σ]

theorem onlineS_append {lr : ℕ → ℝ} {L : LossFn} {updateRule} {type1 : Bool} {s s' : NStep σ (Fin n) ℝ × (σ → Fin n → ℝ) × ℕ} {xs : List (Step σ (Fin n) ℝ × Bool)} (h : onlineS lr L updateRule type1 s xs = .ok s')
    (ys : List (Step σ (Fin n) ℝ × Bool)) : onlineS lr L updateRule type1 s (xs ++ ys) = onlineS lr L updateRule type1 s' ys := by
  induction xs generalizing s with
  | nil => cases h; rfl
  | cons x xs ih =>
    obtain ⟨t, θ⟩ := s
    obtain ⟨x, d⟩ := x
    rw [onlineS] at h
    rw [List.cons_append, onlineS]
    split at h
    · cases h
    · split at h
      · cases h
      · exact ih h

/-- The online loop does one update for each step, with the transition of this step; the last step waits for its successor. -/
theorem onlineS_learn {lr : ℕ → ℝ} {gamma : ℝ} (h0 : 0 ≤ gamma) (h1 : gamma ≤ 1) {L : LossFn} {updateRule} {type1 : Bool} {xs : ℕ → Step σ (Fin n) ℝ} {dn : ℕ → Bool} (hlogp : ∀ t, (xs t).logp ≤ 0) (hw : ∀ t, 0 < (xs t).w)
    {θ0 : σ → Fin n → ℝ} {θ : ℕ → σ → Fin n → ℝ} (hθ0 : θ 0 = θ0) (hθ : ∀ j, sgdUpdate (lr j) L updateRule type1 (θ j) (θ j) [rowOf gamma (xs j) (xs (j + 1)) (dn j)] = .ok (θ (j + 1))) (k : ℕ) :
    onlineS lr L updateRule type1 (NStep.init 1 gamma false, θ0, 0) ((List.range k).map fun t => (xs t, dn t)) =
      .ok (match k with
        | 0 => (tracerWith gamma [] false, θ 0, 0)
        | j + 1 => if dn j then (tracerWith gamma [] true, θ (j + 1), j + 1) else (tracerWith gamma [xs j] false, θ j, j)) := by
  induction k with
  | zero =>
    rw [hθ0]
    simp [onlineS, NStep.init, NStep.reset, tracerWith]
  | succ k ih =>
    rw [List.range_succ, List.map_append, onlineS_append ih]
    have done : ∀ fuel θ', learnPopsS lr L updateRule type1 (fuel + 1) (tracerWith gamma [] true) θ' = .ok (tracerWith gamma [] true, θ') := by
      intro fuel θ'
      obtain ⟨θ', c⟩ := θ'
      simp [learnPopsS, tracerWith, NStep.bool, NStep.len]
    have wait : ∀ fuel x θ', learnPopsS lr L updateRule type1 (fuel + 1) (tracerWith gamma [x] false) θ' = .ok (tracerWith gamma [x] false, θ') := by
      intro fuel x θ'
      obtain ⟨θ', c⟩ := θ'
      simp [learnPopsS, tracerWith, NStep.bool, NStep.len]
    have last : ∀ fuel, dn k = true → learnPopsS lr L updateRule type1 (fuel + 2) (tracerWith gamma [xs k] true) (θ k, k) = .ok (tracerWith gamma [] true, θ (k + 1), k + 1) := by
      intro fuel he
      rw [learnPopsS, if_neg (by simp [tracerWith, NStep.bool, NStep.len]), pop_last h0 h1 (hlogp k) (hw k) (xs (k + 1))]
      simp only
      have := hθ k
      rw [he] at this
      rw [this]
      simp only
      rw [done]
    have idle : ∀ d0, onlineS lr L updateRule type1 (tracerWith gamma [] d0, θ k, k) ([k].map fun t => (xs t, dn t)) =
        .ok (if dn k then (tracerWith gamma [] true, θ (k + 1), k + 1) else (tracerWith gamma [xs k] false, θ k, k)) := by
      intro d0
      have ha : (tracerWith gamma [] d0).add (xs k) (dn k) = (tracerWith gamma [xs k] (dn k), none) := by
        simp [NStep.add, tracerWith, NStep.len]
      rw [List.map_singleton, onlineS, ha]
      simp only
      show (match learnPopsS lr L updateRule type1 2 _ _ with | Except.error e => Except.error e | Except.ok s => onlineS lr L updateRule type1 s []) = _
      cases he : dn k with
      | true => rw [last 0 he]; simp [onlineS]
      | false => rw [wait 1]; simp [onlineS]
    cases k with
    | zero => exact idle false
    | succ j =>
      simp only
      cases hj : dn j with
      | true =>
        rw [if_pos rfl]
        exact idle true
      | false =>
        rw [if_neg (by simp)]
        have ha : (tracerWith gamma [xs j] false).add (xs (j + 1)) (dn (j + 1)) = (tracerWith gamma [xs j, xs (j + 1)] (dn (j + 1)), none) := by
          simp [NStep.add, tracerWith, NStep.len]
        rw [List.map_singleton, onlineS, ha]
        simp only
        have h2 : learnPopsS lr L updateRule type1 3 (tracerWith gamma [xs j, xs (j + 1)] (dn (j + 1))) (θ j, j) =
            learnPopsS lr L updateRule type1 2 (tracerWith gamma [xs (j + 1)] (dn (j + 1))) (θ (j + 1), j + 1) := by
          rw [learnPopsS, if_neg (by simp [tracerWith, NStep.bool, NStep.len]), pop_two h0 h1 (hlogp j) (hlogp (j + 1)) (hw j)]
          simp only
          have := hθ j
          rw [hj] at this
          rw [this]
        show (match learnPopsS lr L updateRule type1 3 _ _ with | Except.error e => Except.error e | Except.ok s => onlineS lr L updateRule type1 s []) = _
        rw [h2]
        cases he : dn (j + 1) with
        | true => rw [last 0 he]; simp [onlineS]
        | false => rw [wait 1]; simp [onlineS]

omit [DecidableEq σ] in
theorem Steps.samples {μ : Measure Ω} {ℋ : Filtration ℕ m0} {e : Mdp σ n m} {xs : ℕ → Ω → Step σ (Fin n) ℝ} {out : ℕ → Ω → Fin m} (h : Steps e μ ℋ xs out) (gamma : ℝ) :
    Samples e gamma μ (sub2 ℋ 1) (fun t ω => rowOf gamma (xs t ω) (xs (t + 1) ω) (e.ends (xs t ω).s (xs t ω).a (out t ω))) out where
  at_known t s a := MeasurableSet.inter (ℋ.mono (by omega) _ (h.s_known t s)) (h.a_known t a)
  w_known t := h.w_known t
  out_known t j := ℋ.mono (by omega) _ (h.out_known t j)
  law t j := h.law t j
  rn t ω := h.reward t ω
  ended t ω he := by
    replace he : e.ends (xs t ω).s (xs t ω).a (out t ω) = true := he
    simp [rowOf, he]
  goes t ω he := by
    replace he : e.ends (xs t ω).s (xs t ω).a (out t ω) = false := he
    simp [rowOf, he, h.next t ω he]
  s_next t ω := rfl
  a_next t ω := rfl

/-- The learning rates of the online loop. -/
structure Schedule (μ : Measure Ω) (xs : ℕ → Ω → Step σ (Fin n) ℝ) (lr : ℕ → ℝ) : Prop where
  nonneg : ∀ t, 0 ≤ lr t
  le : ∀ t ω, lr t * min (max (xs t ω).w 0.1) 10 ≤ 1
  squares : Summable fun t => lr t ^ 2

theorem onlineS_converges [Fintype σ] {μ : Measure Ω} [IsProbabilityMeasure μ] {ℋ : Filtration ℕ m0} {updateRule} {type1 : Bool} {boot : σ → (Fin n → ℝ) → ℝ → Prop} (hr : Rule updateRule type1 boot) (hn : 0 < n) {e : Mdp σ n m} (he : e.Proper)
    {gamma : ℝ} (h0 : 0 ≤ gamma) (h1 : gamma < 1) {lr : ℕ → ℝ} {xs : ℕ → Ω → Step σ (Fin n) ℝ} {out : ℕ → Ω → Fin m} (hx : Steps e μ ℋ xs out) (hl : Schedule μ xs lr)
    (hv : ∀ s a, ∀ᵐ ω ∂μ, ¬ Summable fun t => if (xs t ω).s = s ∧ (xs t ω).a = a then lr t else 0) {best : σ → Fin n → ℝ} (hbest : e.Solves gamma boot best) (θ0 : σ → Fin n → ℝ) :
    ∃ θ : ℕ → Ω → σ → Fin n → ℝ,
      (∀ k ω, ∃ t c, onlineS lr mse1 updateRule type1 (NStep.init 1 gamma false, θ0, 0) ((List.range k).map fun t => (xs t ω, e.ends (xs t ω).s (xs t ω).a (out t ω))) = .ok (t, θ k ω, c)) ∧
      ∀ᵐ ω ∂μ, ∀ s a, Tendsto (fun k => θ k ω s a) atTop (𝓝 (best s a)) := by
  let dn : ℕ → Ω → Bool := fun t ω => e.ends (xs t ω).s (xs t ω).a (out t ω)
  have hrates : Rates μ (fun t ω => rowOf gamma (xs t ω) (xs (t + 1) ω) (dn t ω)) lr (fun _ => 1) :=
    ⟨hl.nonneg, hl.le, hl.squares, hv, fun _ => zero_le_one, fun _ => le_rfl, fun h => by simpa using h.tendsto_atTop_zero⟩
  obtain ⟨θ, θT, h2, h3⟩ := learnS_converges hr hn he h0 h1 (hx.samples gamma) hrates hbest θ0 θ0
  have start : ∀ ω, (θ 0 ω, θT 0 ω) = (θ0, θ0) := fun ω => (Except.ok.inj (h2 0 ω)).symm
  have step : ∀ j ω, ∃ θ', sgdUpdate (lr j) mse1 updateRule type1 (θT j ω) (θ j ω) [rowOf gamma (xs j ω) (xs (j + 1) ω) (dn j ω)] = .ok θ' ∧ θ (j + 1) ω = θ' ∧ θT (j + 1) ω = θ' := by
    intro j ω
    have h4 := h2 (j + 1) ω
    rw [List.range_succ, List.map_append, learnS_append (h2 j ω)] at h4
    simp only [List.map_cons, List.map_nil, List.length_map, List.length_range, Nat.zero_add] at h4
    rw [learnS] at h4
    split at h4
    · cases h4
    · rename_i θ' he
      rw [learnS, softTable_one] at h4
      have h5 := Prod.ext_iff.1 (Except.ok.inj h4)
      exact ⟨θ', he, h5.1.symm, h5.2.symm⟩
  have same : ∀ j ω, θT j ω = θ j ω := by
    intro j ω
    cases j with
    | zero => have := Prod.ext_iff.1 (start ω); exact this.2.trans this.1.symm
    | succ j => obtain ⟨θ', -, a, b⟩ := step j ω; rw [a, b]
  have step' : ∀ ω j, sgdUpdate (lr j) mse1 updateRule type1 (θ j ω) (θ j ω) [rowOf gamma (xs j ω) (xs (j + 1) ω) (dn j ω)] = .ok (θ (j + 1) ω) := by
    intro ω j
    obtain ⟨θ', a, b, -⟩ := step j ω
    rw [same] at a
    rw [a, b]
  have main := fun ω => onlineS_learn (dn := fun t => dn t ω) (θ := fun t => θ t ω) h0 h1.le (fun t => hx.logp t ω) (fun t => hx.w t ω) (Prod.ext_iff.1 (start ω)).1 (step' ω)
  refine ⟨fun k ω => match k with | 0 => θ 0 ω | j + 1 => if dn j ω then θ (j + 1) ω else θ j ω, fun k ω => ?_, ?_⟩
  · rw [main ω k]
    cases k with
    | zero => exact ⟨_, _, rfl⟩
    | succ j =>
      simp only
      split
      · exact ⟨_, _, rfl⟩
      · exact ⟨_, _, rfl⟩
  · filter_upwards [h3] with ω h3 s a
    rw [Metric.tendsto_atTop]
    intro ε hε
    obtain ⟨N, hN⟩ := Metric.tendsto_atTop.1 (h3 s a).1 ε hε
    refine ⟨N + 1, fun k hk => ?_⟩
    obtain ⟨j, rfl⟩ : ∃ j, k = j + 1 := ⟨k - 1, by omega⟩
    simp only
    split
    · exact hN _ (by omega)
    · exact hN _ (by omega)

/-- An agent that explores a connected environment, with learning rates that decrease slowly. -/
structure Explorer (e : Mdp σ n m) (μ : Measure Ω) (ℋ : Filtration ℕ m0) (xs : ℕ → Ω → Step σ (Fin n) ℝ) (out : ℕ → Ω → Fin m) (lr : ℕ → ℝ) : Prop where
  steps : Steps e μ ℋ xs out
  explores : ∃ eps, 0 < eps ∧ Explores μ ℋ xs eps
  connected : e.Connected
  reset : ∀ t ω, (xs (t + 1) ω).s = e.next (xs t ω).s (xs t ω).a (out t ω)
  schedule : Schedule μ xs lr
  infinite : ¬ Summable lr
  slow : ∃ C, ∀ t, lr t ≤ C * lr (t + 1)

theorem Explorer.converges [Fintype σ] {μ : Measure Ω} [IsProbabilityMeasure μ] {ℋ : Filtration ℕ m0} {updateRule} {type1 : Bool} {boot : σ → (Fin n → ℝ) → ℝ → Prop} (hr : Rule updateRule type1 boot) (hn : 0 < n) {e : Mdp σ n m} (he : e.Proper)
    {gamma : ℝ} (h0 : 0 ≤ gamma) (h1 : gamma < 1) {lr : ℕ → ℝ} {xs : ℕ → Ω → Step σ (Fin n) ℝ} {out : ℕ → Ω → Fin m} (hx : Explorer e μ ℋ xs out lr) {best : σ → Fin n → ℝ} (hbest : e.Solves gamma boot best) (θ0 : σ → Fin n → ℝ) :
    ∃ θ : ℕ → Ω → σ → Fin n → ℝ,
      (∀ k ω, ∃ t c, onlineS lr mse1 updateRule type1 (NStep.init 1 gamma false, θ0, 0) ((List.range k).map fun t => (xs t ω, e.ends (xs t ω).s (xs t ω).a (out t ω))) = .ok (t, θ k ω, c)) ∧
      ∀ᵐ ω ∂μ, ∀ s a, Tendsto (fun k => θ k ω s a) atTop (𝓝 (best s a)) := by
  obtain ⟨eps, h2, h3⟩ := hx.explores
  obtain ⟨C, hC⟩ := hx.slow
  have hv := hx.steps.visits h2 h3 hx.connected hx.reset hx.schedule.nonneg hx.schedule.squares hx.infinite hC
  refine onlineS_converges hr hn he h0 h1 hx.steps hx.schedule (fun s a => hv.mono fun ω h4 => ?_) hbest θ0
  intro hsum
  classical
  refine h4 s a (hsum.congr fun t => ?_)
  rw [Set.indicator_apply]
  by_cases hp : (xs t ω).s = s ∧ (xs t ω).a = a <;> simp [hp]

/-- **C119** for the online loop with `QLearning` and an `NStep` tracer with `n = 1`: if the environment is connected, the agent tries every action with at least some probability and the learning rates decrease slowly, then the params
converge almost surely to the solution of the Bellman equation.  Nothing raises. -/
theorem C119_online_q_learning [Fintype σ] (hn : 0 < n) {e : Mdp σ n m} (he : e.Proper) {gamma : ℝ} (h0 : 0 ≤ gamma) (h1 : gamma < 1) {μ : Measure Ω} [IsProbabilityMeasure μ] {ℋ : Filtration ℕ m0} {lr : ℕ → ℝ}
    {xs : ℕ → Ω → Step σ (Fin n) ℝ} {out : ℕ → Ω → Fin m} (hx : Explorer e μ ℋ xs out lr) {best : σ → Fin n → ℝ} (hbest : e.Solves gamma Greedy best) (type1 : Bool) (θ0 : σ → Fin n → ℝ) :
    ∃ θ : ℕ → Ω → σ → Fin n → ℝ,
      (∀ k ω, ∃ t c, onlineS lr mse1 (qLearning n) type1 (NStep.init 1 gamma false, θ0, 0) ((List.range k).map fun t => (xs t ω, e.ends (xs t ω).s (xs t ω).a (out t ω))) = .ok (t, θ k ω, c)) ∧
      ∀ᵐ ω ∂μ, ∀ s a, Tendsto (fun k => θ k ω s a) atTop (𝓝 (best s a)) :=
  Explorer.converges (rule_qLearning hn type1) hn he h0 h1 hx hbest θ0

/-- **C119** for the online loop with `ExpectedSarsa` and an `NStep` tracer with `n = 1`: if the environment is connected, the agent tries every action with at least some probability and the learning rates decrease slowly, then the params
converge almost surely to the solution of the Bellman equation.  Nothing raises. -/
theorem C119_online_expected_sarsa [Fintype σ] (hn : 0 < n) {e : Mdp σ n m} (he : e.Proper) {gamma : ℝ} (h0 : 0 ≤ gamma) (h1 : gamma < 1) (logits : σ → Fin n → ℝ) {μ : Measure Ω} [IsProbabilityMeasure μ] {ℋ : Filtration ℕ m0} {lr : ℕ → ℝ}
    {xs : ℕ → Ω → Step σ (Fin n) ℝ} {out : ℕ → Ω → Fin m} (hx : Explorer e μ ℋ xs out lr) {best : σ → Fin n → ℝ} (hbest : e.Solves gamma (Mean (fun s a => Real.exp (logits s a) / ∑ b, Real.exp (logits s b))) best) (type1 : Bool) (θ0 : σ → Fin n → ℝ) :
    ∃ θ : ℕ → Ω → σ → Fin n → ℝ,
      (∀ k ω, ∃ t c, onlineS lr mse1 (fun q qTarg => expectedSarsa n (fun S => S.map fun s => (List.finRange n).map (logits s)) q qTarg) type1 (NStep.init 1 gamma false, θ0, 0) ((List.range k).map fun t => (xs t ω, e.ends (xs t ω).s (xs t ω).a (out t ω))) = .ok (t, θ k ω, c)) ∧
      ∀ᵐ ω ∂μ, ∀ s a, Tendsto (fun k => θ k ω s a) atTop (𝓝 (best s a)) :=
  Explorer.converges (rule_expectedSarsa hn type1 logits) hn he h0 h1 hx hbest θ0

/-- **C119** for the online loop with `SoftQLearning` and an `NStep` tracer with `n = 1`: if the environment is connected, the agent tries every action with at least some probability and the learning rates decrease slowly, then the params
converge almost surely to the solution of the Bellman equation.  Nothing raises. -/
theorem C119_online_soft_q_learning [Fintype σ] (hn : 0 < n) {e : Mdp σ n m} (he : e.Proper) {gamma : ℝ} (h0 : 0 ≤ gamma) (h1 : gamma < 1) {temp : ℝ} (ht : 0 < temp) {μ : Measure Ω} [IsProbabilityMeasure μ] {ℋ : Filtration ℕ m0} {lr : ℕ → ℝ}
    {xs : ℕ → Ω → Step σ (Fin n) ℝ} {out : ℕ → Ω → Fin m} (hx : Explorer e μ ℋ xs out lr) {best : σ → Fin n → ℝ} (hbest : e.Solves gamma (Soft temp) best) (type1 : Bool) (θ0 : σ → Fin n → ℝ) :
    ∃ θ : ℕ → Ω → σ → Fin n → ℝ,
      (∀ k ω, ∃ t c, onlineS lr mse1 (fun q qTarg => softQLearning n temp q qTarg) type1 (NStep.init 1 gamma false, θ0, 0) ((List.range k).map fun t => (xs t ω, e.ends (xs t ω).s (xs t ω).a (out t ω))) = .ok (t, θ k ω, c)) ∧
      ∀ᵐ ω ∂μ, ∀ s a, Tendsto (fun k => θ k ω s a) atTop (𝓝 (best s a)) :=
  Explorer.converges (rule_softQLearning hn type1 ht) hn he h0 h1 hx hbest θ0

omit [DecidableEq σ] in
/-- **C119**, `EpsilonGreedy` explores: if actions are drawn from an epsilon-greedy policy, for whatever values at that time, then each action has at least this probability, which is positive even for `epsilon = 0`. -/
theorem C119_epsilon_greedy_explores {μ : Measure Ω} {ℋ : Filtration ℕ m0} {xs : ℕ → Ω → Step σ (Fin n) ℝ} {ε : ℝ} (h0 : 0 ≤ ε) (h1 : ε ≤ 1) {q : ℕ → Ω → σ → Fin n → ℝ}
    (law : ∀ t a, μ[Set.indicator {ω | (xs t ω).a = a} (fun _ => (1 : ℝ)) | ℋ (2 * t)] =ᵐ[μ] fun ω => Dists.meanRow (epsilonGreedyLogits ε (q t ω (xs t ω).s)) a) :
    Explores μ ℋ xs ((ε * (1 / n) + 1e-15) / (1 + n * 1e-15)) ∧ 0 < (ε * (1 / n) + 1e-15) / (1 + (n : ℝ) * 1e-15) := by
  constructor
  · intro t a
    filter_upwards [law t a] with ω h
    rw [h, C52_probabilities h0 h1]
    refine div_le_div_of_nonneg_right ?_ (by positivity)
    unfold epsilonGreedy
    have : 0 ≤ (1 - ε) * (if a ∈ greedy (q t ω (xs t ω).s) then 1 / ((greedy (q t ω (xs t ω).s)).card : ℝ) else 0) := by
      refine mul_nonneg (by linarith) ?_
      split
      · positivity
      · exact le_rfl
    linarith
  · positivity

omit [DecidableEq σ] in
/-- **C119**, `BoltzmannPolicy` explores as long as the values of the actions of a state differ by at most `w`. -/
theorem C119_boltzmann_explores {μ : Measure Ω} {ℋ : Filtration ℕ m0} {xs : ℕ → Ω → Step σ (Fin n) ℝ} {τ w : ℝ} (hτ : 0 < τ) {q : ℕ → Ω → σ → Fin n → ℝ} (hw : ∀ t ω s a b, q t ω s b - q t ω s a ≤ w)
    (law : ∀ t a, μ[Set.indicator {ω | (xs t ω).a = a} (fun _ => (1 : ℝ)) | ℋ (2 * t)] =ᵐ[μ] fun ω => Dists.meanRow (boltzmannLogits τ (q t ω (xs t ω).s)) a) :
    Explores μ ℋ xs (1 / n * Real.exp (-(w / τ))) := by
  intro t a
  filter_upwards [law t a] with ω h
  rw [h]
  exact (C53_limits hτ (q t ω (xs t ω).s) a).2 w fun b => hw t ω _ a b

/-! ### A case -/

/-- Infinitely many fair coins. -/
noncomputable def coins : Measure (ℕ → Bool) := Measure.infinitePi fun _ => (PMF.uniformOfFintype Bool).toMeasure

noncomputable instance : IsProbabilityMeasure coins := by unfold coins; infer_instance

/-- Coin `i` shows heads. -/
def heads (i : ℕ) : Set (ℕ → Bool) := {ω | ω i = true}

theorem heads_measurable (i : ℕ) : MeasurableSet (heads i) := by
  have h : Measurable fun ω : ℕ → Bool => ω i := measurable_pi_apply i
  exact h (MeasurableSet.singleton true)

theorem coin_real (b : Bool) : (PMF.uniformOfFintype Bool).toMeasure {b} = 2⁻¹ := by
  rw [PMF.toMeasure_apply_singleton _ _ (MeasurableSet.singleton b), PMF.uniformOfFintype_apply]
  simp

theorem heads_inter (S : Finset ℕ) : coins (⋂ i ∈ S, heads i) = ∏ i ∈ S, (2⁻¹ : ENNReal) := by
  have : (⋂ i ∈ S, heads i) = Set.pi S fun _ => {true} := by
    ext ω
    simp [heads, Set.mem_pi]
  rw [this, coins, Measure.infinitePi_pi _ fun _ _ => MeasurableSet.singleton true]
  exact Finset.prod_congr rfl fun i _ => coin_real true

theorem heads_prob (i : ℕ) : coins (heads i) = 2⁻¹ := by simpa using heads_inter {i}

theorem heads_indep : ProbabilityTheory.iIndepSet heads coins := by
  rw [ProbabilityTheory.iIndepSet_iff_meas_biInter heads_measurable]
  intro S
  rw [heads_inter]
  exact Finset.prod_congr rfl fun i _ => (heads_prob i).symm

/-- What is known after coins 0, ..., i. -/
noncomputable def flips : Filtration ℕ (inferInstance : MeasurableSpace (ℕ → Bool)) := filtrationOfSet heads_measurable

theorem flips_known {i j : ℕ} (h : j ≤ i) (b : Bool) : MeasurableSet[flips i] {ω : ℕ → Bool | ω j = b} := by
  have h2 : MeasurableSet[flips i] (heads j) := measurableSet_filtrationOfSet heads_measurable i h
  cases b
  · have : {ω : ℕ → Bool | ω j = false} = (heads j)ᶜ := by
      ext ω
      simp [heads]
    rw [this]
    exact h2.compl
  · exact h2

theorem flips_fair {i j : ℕ} (h : i < j) (b : Bool) : coins[Set.indicator {ω : ℕ → Bool | ω j = b} (fun _ => (1 : ℝ)) | flips i] =ᵐ[coins] fun _ => 1 / 2 := by
  have h2 : coins[Set.indicator (heads j) (fun _ => (1 : ℝ)) | flips i] =ᵐ[coins] fun _ => 1 / 2 := by
    refine (heads_indep.condExp_indicator_filtrationOfSet_ae_eq heads_measurable h).trans (Eventually.of_forall fun ω => ?_)
    simp [Measure.real, heads_prob]
  cases b
  · have e1 : Set.indicator {ω : ℕ → Bool | ω j = false} (fun _ => (1 : ℝ)) = (fun _ => (1 : ℝ)) - Set.indicator (heads j) (fun _ => (1 : ℝ)) := by
      funext ω
      cases hω : ω j <;> simp [heads, hω]
    rw [e1]
    have h3 := condExp_sub (μ := coins) (integrable_const (1 : ℝ)) ((integrable_const (1 : ℝ)).indicator (heads_measurable j)) (flips i)
    filter_upwards [h2, h3] with ω h4 h5
    rw [h5, Pi.sub_apply, h4, condExp_const (flips.le i)]
    norm_num
  · exact h2

/-- Two states; action 0 leads to `false` and action 1 to `true`; action 1 in `true` gives the reward 0 or 2, each with probability 1/2, and ends the episode. -/
noncomputable def twoCoins : Mdp Bool 2 2 := ⟨fun _ _ _ => 1 / 2, fun s a j => if s && a == 1 && j == 1 then 2 else 0, fun _ a _ => a == 1, fun s a _ => s && a == 1⟩

/-- An agent that flips coins. -/
noncomputable def coinSteps (t : ℕ) (ω : ℕ → Bool) : Step Bool (Fin 2) ℝ :=
  let s : Bool := match t with | 0 => false | t + 1 => ω (2 * t + 1)
  let a : Fin 2 := if ω (2 * t + 1) then 1 else 0
  ⟨s, a, twoCoins.reward s a (if ω (2 * t + 2) then 1 else 0), 0, 1⟩

theorem fin2_known {i j : ℕ} (h : j ≤ i) (a : Fin 2) : MeasurableSet[flips i] {ω : ℕ → Bool | (if ω j then (1 : Fin 2) else 0) = a} := by
  have : {ω : ℕ → Bool | (if ω j then (1 : Fin 2) else 0) = a} = {ω | ω j = (a == 1)} := by
    ext ω
    cases hω : ω j <;> fin_cases a <;> simp [hω]
  rw [this]
  exact flips_known h _

theorem fin2_fair {i j : ℕ} (h : i < j) (a : Fin 2) : coins[Set.indicator {ω : ℕ → Bool | (if ω j then (1 : Fin 2) else 0) = a} (fun _ => (1 : ℝ)) | flips i] =ᵐ[coins] fun _ => 1 / 2 := by
  have : {ω : ℕ → Bool | (if ω j then (1 : Fin 2) else 0) = a} = {ω | ω j = (a == 1)} := by
    ext ω
    cases hω : ω j <;> fin_cases a <;> simp [hω]
  rw [this]
  exact flips_fair h _

theorem coin_explorer : Explorer twoCoins coins flips coinSteps (fun t ω => if ω (2 * t + 2) then 1 else 0) (fun t => 1 / ((t : ℝ) + 1)) where
  steps :=
    { s_known := fun t s => by
        cases t with
        | zero => exact MeasurableSet.const (false = s)
        | succ t => exact flips_known (by omega) s
      a_known := fun t a => fin2_known le_rfl a
      w_known := fun t => measurable_const
      out_known := fun t j => fin2_known le_rfl j
      law := fun t j => fin2_fair (by omega) j
      reward := fun t ω => rfl
      next := fun t ω _ => by
        cases hω : ω (2 * t + 1) <;> simp [coinSteps, twoCoins, hω]
      logp := fun t ω => le_rfl
      w := fun t ω => one_pos }
  explores := ⟨1 / 2, by norm_num, fun t a => (fin2_fair (by omega) a).mono fun ω h => h.ge⟩
  connected s s' := .single ⟨if s' then 1 else 0, 0, by norm_num [twoCoins], by cases s' <;> simp [twoCoins]⟩
  reset t ω := by cases hω : ω (2 * t + 1) <;> simp [coinSteps, twoCoins, hω]
  schedule :=
    { nonneg := fun t => by positivity
      le := fun t ω => by
        have h2 : (1 : ℝ) / ((t : ℝ) + 1) ≤ 1 := by
          rw [div_le_one (by positivity)]
          linarith [(Nat.cast_nonneg t : (0 : ℝ) ≤ t)]
        have h3 : min (max (coinSteps t ω).w 0.1) 10 = (1 : ℝ) := by
          show min (max (1 : ℝ) 0.1) 10 = 1
          norm_num
        rw [h3, mul_one]
        exact h2
      squares := by
        have := (summable_nat_add_iff 1).2 (Real.summable_one_div_nat_pow.2 (by norm_num : 1 < 2))
        refine this.congr fun t => ?_
        push_cast
        rw [div_pow, one_pow] }
  infinite h := by
    refine Real.not_summable_one_div_natCast ((summable_nat_add_iff 1).1 (h.congr fun t => ?_))
    push_cast
    rfl
  slow := ⟨2, fun t => by
    push_cast
    rw [mul_one_div, div_le_div_iff₀ (by positivity) (by positivity)]
    linarith [(Nat.cast_nonneg t : (0 : ℝ) ≤ t)]⟩

theorem coins_solves : twoCoins.Solves (1 / 2) Greedy twoBest := by
  refine ⟨fun s => if s then 1 else 1 / 2, fun s => ?_, fun s a => ?_⟩
  · cases s
    · exact ⟨⟨1, by simp [twoBest]⟩, by rintro _ ⟨a, rfl⟩; fin_cases a <;> norm_num [twoBest]⟩
    · exact ⟨⟨1, by simp [twoBest]⟩, by rintro _ ⟨a, rfl⟩; fin_cases a <;> norm_num [twoBest]⟩
  · cases s <;> fin_cases a <;> norm_num [twoBest, twoCoins, Fin.sum_univ_two]

/-- The hypotheses of C119 are met: the values learned online are 1/4, 1/2, 1/4 and 1 in the limit, almost surely. -/
example (θ0 : Bool → Fin 2 → ℝ) : ∃ θ : ℕ → (ℕ → Bool) → Bool → Fin 2 → ℝ,
    (∀ k ω, ∃ t c, onlineS (fun t => 1 / ((t : ℝ) + 1)) mse1 (qLearning 2) true (NStep.init 1 (1 / 2) false, θ0, 0)
      ((List.range k).map fun t => (coinSteps t ω, twoCoins.ends (coinSteps t ω).s (coinSteps t ω).a (if ω (2 * t + 2) then 1 else 0))) = .ok (t, θ k ω, c)) ∧
    ∀ᵐ ω ∂coins, Tendsto (fun k => θ k ω false 0) atTop (𝓝 (1 / 4)) ∧ Tendsto (fun k => θ k ω false 1) atTop (𝓝 (1 / 2)) ∧ Tendsto (fun k => θ k ω true 1) atTop (𝓝 1) := by
  have hp : twoCoins.Proper := ⟨fun _ _ _ => by norm_num [twoCoins], fun _ _ => by norm_num [twoCoins]⟩
  obtain ⟨θ, h, h'⟩ := C119_online_q_learning (by norm_num) hp (by norm_num) (by norm_num) coin_explorer coins_solves true θ0
  exact ⟨θ, h, h'.mono fun ω h' => ⟨by simpa [twoBest] using h' false 0, by simpa [twoBest] using h' false 1, by simpa [twoBest] using h' true 1⟩⟩

end Coax.Loop
