import Verif.Loop.Closed
import Verif.Loop.OptimalProps
import Verif.Loop.ReplayLemmas
import Mathlib.Probability.Independence.Conditional
import Mathlib.Probability.ConditionalExpectation

/-! Random processes with countably many values, and conditional expectations given such. -/

namespace Coax.Loop

open Coax.RewardTracing Coax.TD Coax.Core Coax.Values Coax.Pol Filter Topology MeasureTheory

variable {Ω α β U : Type _}

/-- A quantity with countably many values that is known. -/
structure Knows (F : MeasurableSpace Ω) (f : Ω → α) : Prop where
  countable : (Set.range f).Countable
  fiber : ∀ x, MeasurableSet[F] (f ⁻¹' {x})

theorem Knows.preimage {F : MeasurableSpace Ω} {f : Ω → α} (h : Knows F f) (B : Set α) : MeasurableSet[F] (f ⁻¹' B) := by
  have : f ⁻¹' B = ⋃ x ∈ Set.range f ∩ B, f ⁻¹' {x} := by
    ext ω
    simp
  rw [this]
  exact MeasurableSet.biUnion (h.countable.mono Set.inter_subset_left) fun x _ => h.fiber x

theorem Knows.mono {F F' : MeasurableSpace Ω} (hF : F ≤ F') {f : Ω → α} (h : Knows F f) : Knows F' f := ⟨h.countable, fun x => hF _ (h.fiber x)⟩

theorem Knows.const (F : MeasurableSpace Ω) (x : α) : Knows F (fun _ : Ω => x) := ⟨(Set.countable_singleton x).mono (by rintro _ ⟨_, rfl⟩; rfl), fun _ => MeasurableSet.const _⟩

theorem Knows.map {F : MeasurableSpace Ω} {f : Ω → α} (h : Knows F f) (g : α → β) : Knows F (fun ω => g (f ω)) :=
  ⟨by rw [show (fun ω => g (f ω)) = g ∘ f from rfl, Set.range_comp]; exact h.countable.image g, fun x => h.preimage (g ⁻¹' {x})⟩

theorem Knows.pair {F : MeasurableSpace Ω} {f : Ω → α} {g : Ω → β} (h : Knows F f) (h' : Knows F g) : Knows F (fun ω => (f ω, g ω)) :=
  ⟨(h.countable.prod h'.countable).mono (by rintro _ ⟨ω, rfl⟩; exact ⟨⟨ω, rfl⟩, ⟨ω, rfl⟩⟩), fun x => by
    have : (fun ω => (f ω, g ω)) ⁻¹' {x} = f ⁻¹' {x.1} ∩ g ⁻¹' {x.2} := by
      ext ω
      simp [Prod.ext_iff]
    rw [this]
    exact (h.fiber _).inter (h'.fiber _)⟩

theorem Knows.draw {F F' : MeasurableSpace Ω} [MeasurableSpace U] (hF : F ≤ F') {f : Ω → α} (h : Knows F f) {u : Ω → U} (hu : Measurable[F'] u) {E : α → Set U} (hE : ∀ x, MeasurableSet (E x)) : MeasurableSet[F'] {ω | u ω ∈ E (f ω)} := by
  have : {ω | u ω ∈ E (f ω)} = ⋃ x ∈ Set.range f, f ⁻¹' {x} ∩ u ⁻¹' (E x) := by
    ext ω
    simp only [Set.mem_iUnion, Set.mem_inter_iff, Set.mem_preimage, Set.mem_singleton_iff, exists_prop]
    exact ⟨fun h => ⟨f ω, ⟨ω, rfl⟩, rfl, h⟩, fun ⟨x, _, hx, h⟩ => by rw [← hx] at h; exact h⟩
  rw [this]
  exact MeasurableSet.biUnion h.countable fun x _ => (hF _ (h.fiber x)).inter (hu (hE x))

/-- What is drawn independently has its law also if the event depends on what is known. -/
theorem freeze {F m0 : MeasurableSpace Ω} {μ : Measure Ω} [IsProbabilityMeasure μ] [MeasurableSpace U] (hF : F ≤ m0) {f : Ω → α} (h : Knows F f) {u : Ω → U} (hu : Measurable u) (hind : ProbabilityTheory.Indep (MeasurableSpace.comap u inferInstance) F μ)
    {ν : Measure U} (hlaw : μ.map u = ν) {E : α → Set U} (hE : ∀ x, MeasurableSet (E x)) : μ[Set.indicator {ω | u ω ∈ E (f ω)} (fun _ => (1 : ℝ)) | F] =ᵐ[μ] fun ω => ν.real (E (f ω)) := by
  classical
  have hm : MeasurableSet {ω | u ω ∈ E (f ω)} := h.draw hF hu hE
  have key : ∀ x ∈ Set.range f, ∀ᵐ ω ∂μ, f ω = x → (μ[Set.indicator {ω | u ω ∈ E (f ω)} (fun _ => (1 : ℝ)) | F]) ω = ν.real (E x) := by
    intro x _
    have e : (f ⁻¹' {x}).indicator (Set.indicator {ω | u ω ∈ E (f ω)} fun _ => (1 : ℝ)) = (f ⁻¹' {x}).indicator (Set.indicator (u ⁻¹' E x) fun _ => (1 : ℝ)) := by
      funext ω
      by_cases hx : f ω = x
      · have h1 : ω ∈ f ⁻¹' {x} := hx
        rw [Set.indicator_of_mem h1, Set.indicator_of_mem h1]
        rw [Set.indicator_apply, Set.indicator_apply]
        exact if_congr (by rw [← hx]; rfl) rfl rfl
      · have h1 : ω ∉ f ⁻¹' {x} := hx
        rw [Set.indicator_of_notMem h1, Set.indicator_of_notMem h1]
    have h1 := condExp_indicator (μ := μ) (m := F) ((integrable_const (1 : ℝ)).indicator hm) (h.fiber x)
    have h2 := condExp_indicator (μ := μ) (m := F) ((integrable_const (1 : ℝ)).indicator (hu (hE x))) (h.fiber x)
    have h3 : μ[Set.indicator (u ⁻¹' E x) (fun _ => (1 : ℝ)) | F] =ᵐ[μ] fun _ => ∫ ω, Set.indicator (u ⁻¹' E x) (fun _ => (1 : ℝ)) ω ∂μ :=
      condExp_indep_eq hu.comap_le hF ((stronglyMeasurable_const.indicator ⟨E x, hE x, rfl⟩)) hind
    rw [e] at h1
    filter_upwards [h1, h2, h3] with ω g1 g2 g3 hx
    have hmem : ω ∈ f ⁻¹' {x} := hx
    rw [g1, Set.indicator_of_mem hmem, Set.indicator_of_mem hmem, g3] at g2
    rw [g2, integral_indicator (hu (hE x))]
    rw [← hlaw, map_measureReal_apply hu (hE x)]
    simp
  filter_upwards [(ae_ball_iff h.countable).2 key] with ω hω
  exact hω (f ω) ⟨ω, rfl⟩ rfl

/-! ### One path -/

variable {σ V : Type _} {n m : Nat} [DecidableEq σ]

/-- The update with one transition of weight 1 does not raise, and keeps the values within a bound `B` if rewards are bounded by `R` and `P R B`. -/
def Updates (updateRule : QFn (σ → Fin n → ℝ) σ (List ℝ) → QFn (σ → Fin n → ℝ) σ (List ℝ) → TBatch σ (List ℝ) → Except Err (List ℝ)) (type1 : Bool) (gamma : ℝ) (P : ℝ → ℝ → Prop) : Prop :=
  ∀ (lr : ℝ) (x y : Step σ (Fin n) ℝ) (d : Bool), x.w = 1 → ∀ θ : σ → Fin n → ℝ, ∃ θ', sgdUpdate lr mse1 updateRule type1 θ θ [rowOf gamma x y d] = .ok θ' ∧
    ∀ R B, 0 ≤ lr → lr ≤ 1 → |x.r| ≤ R → P R B → (∀ s a, |θ s a| ≤ B) → ∀ s a, |θ' s a| ≤ B

/-- The update with one transition of weight 1 does not raise, and keeps the values within a bound. -/
theorem single_update {updateRule} {type1 : Bool} {boot : σ → (Fin n → ℝ) → ℝ → Prop} (hr : Rule updateRule type1 boot) (hn : 0 < n) {gamma : ℝ} (h0 : 0 ≤ gamma) (lr : ℝ) (x y : Step σ (Fin n) ℝ) (d : Bool) (hw : x.w = 1) (θ : σ → Fin n → ℝ) :
    ∃ θ', sgdUpdate lr mse1 updateRule type1 θ θ [rowOf gamma x y d] = .ok θ' ∧
      ∀ R c B, 0 ≤ lr → lr ≤ 1 → |x.r| ≤ R → 0 ≤ c → (∀ s z, boot s (fun _ => 0) z → |z| ≤ c) → R + gamma * (c + B) ≤ B → (∀ s a, |θ s a| ≤ B) → ∀ s a, |θ' s a| ≤ B := by
  choose val hval using hr.value
  obtain ⟨b, hb, ht⟩ := rule_rows hr hval (rows := [rowOf gamma x y d]) (by simp [rowOf]) θ θ
  refine ⟨_, sgdUpdate_rows mse1_meanOf hn (by simp) hb ht lr, ?_⟩
  intro R c B l0 l1 hR c0 hc hB hθ s a
  have hB0 : 0 ≤ B := (abs_nonneg _).trans (hθ s a)
  simp only [List.map_cons, List.map_nil, List.sum_cons, List.sum_nil, add_zero, List.length_singleton, Nat.cast_one, div_one]
  split
  · have hwt : weight (rowOf gamma x y d) = 1 := by
      simp only [weight, rowOf, hw]
      norm_num
    rw [hwt, one_mul]
    set T : ℝ := (rowOf gamma x y d).Rn + (rowOf gamma x y d).In * ((rowOf gamma x y d).S_next.elim 0 fun s => val s (θ s)) with hT
    have hTB : |T| ≤ B := by
      have hv : ∀ s, |val s (θ s)| ≤ c + B := by
        intro s
        have h1 := hr.close s (θ s) (fun _ => 0) _ _ B (hval s _) (hval s _) fun a => by simpa using hθ s a
        have h2 := hc s _ (hval s fun _ => 0)
        have h3 := abs_sub_abs_le_abs_sub (val s (θ s)) (val s fun _ => 0)
        linarith
      have hT' : T = x.r + (gamma * (1 - if d then 1 else 0)) * val (if d then x.s else y.s) (θ (if d then x.s else y.s)) := rfl
      rw [hT']
      refine (abs_add_le _ _).trans (le_trans (add_le_add hR ?_) hB)
      rw [abs_mul]
      refine mul_le_mul ?_ (hv _) (abs_nonneg _) h0
      cases d <;> simp [abs_of_nonneg h0, h0]
    have e : θ s a - lr * (θ s a - T) = (1 - lr) * θ s a + lr * T := by ring
    rw [e]
    refine (abs_add_le _ _).trans ?_
    rw [abs_mul, abs_mul, abs_of_nonneg l0, abs_of_nonneg (sub_nonneg.2 l1)]
    have g1 := mul_le_mul_of_nonneg_left (hθ s a) (sub_nonneg.2 l1)
    have g2 := mul_le_mul_of_nonneg_left hTB l0
    linarith
  · simpa using hθ s a

theorem Rule.updates {updateRule} {type1 : Bool} {boot : σ → (Fin n → ℝ) → ℝ → Prop} (hr : Rule updateRule type1 boot) (hn : 0 < n) {gamma : ℝ} (h0 : 0 ≤ gamma) :
    Updates updateRule type1 gamma fun R B => ∃ c, 0 ≤ c ∧ (∀ s z, boot s (fun _ => 0) z → |z| ≤ c) ∧ R + gamma * (c + B) ≤ B := by
  intro lr x y d hw θ
  obtain ⟨θ', h1, h2⟩ := single_update hr hn h0 lr x y d hw θ
  exact ⟨θ', h1, fun R B l0 l1 hR ⟨c, c0, hc, hB⟩ => h2 R c B l0 l1 hR c0 hc hB⟩

end Coax.Loop
