import Verif.Loop.LinearDataProps
import Verif.Loop.SiegmundLemmas
import Verif.Loop.ClosedLemmas

/-! Property C149: learning linear value functions with mini-batches. -/

namespace Coax.Loop

open Coax.RewardTracing Coax.TD Coax.Core Coax.Values Coax.Pol Filter Topology MeasureTheory

/-! ### Specification -/

/-- Mini-batches of `B` transitions, each of which is any of the `N` transitions with the same probability, whatever was drawn before.  They may be drawn with or without replacement. -/
structure Uniform {Ω : Type _} {m0 : MeasurableSpace Ω} (μ : Measure Ω) (ℱ : Filtration ℕ m0) {B N : ℕ} (I : ℕ → Ω → Fin B → Fin N) : Prop where
  known : ∀ t j i, MeasurableSet[ℱ (t + 1)] {ω | I t ω j = i}
  law : ∀ t j i, μ[Set.indicator {ω | I t ω j = i} (fun _ => (1 : ℝ)) | ℱ t] =ᵐ[μ] fun _ => 1 / N

/-! ### One update with a mini-batch -/

section

variable {N d : Nat}

/-- How the params move, relative to the limit, where `e i` are the differences in the limit and `p i` is the share of the transition `i` in the batch. -/
def drift (x y : Fin N → Fin d → ℝ) (e : Fin N → ℝ) (p : Fin N → ℝ) (w : Fin d → ℝ) : Fin d → ℝ := ∑ i, (p i * (e i - (x i ⬝ᵥ w - y i ⬝ᵥ w))) • x i

theorem drift_sq (x y : Fin N → Fin d → ℝ) (e : Fin N → ℝ) {p : Fin N → ℝ} (hp0 : ∀ i, 0 ≤ p i) (hp1 : ∑ i, p i = 1) {F : ℝ} (hF : ∀ i, x i ⬝ᵥ x i ≤ F) (w : Fin d → ℝ) :
    drift x y e p w ⬝ᵥ drift x y e p w ≤ F * ∑ i, (e i - (x i ⬝ᵥ w - y i ⬝ᵥ w)) ^ 2 := by
  set a : Fin N → ℝ := fun i => e i - (x i ⬝ᵥ w - y i ⬝ᵥ w)
  have hp2 : ∑ i, p i ^ 2 ≤ 1 := by
    rw [← hp1]
    refine Finset.sum_le_sum fun i _ => ?_
    have : p i ≤ 1 := by
      rw [← hp1]
      exact Finset.single_le_sum (fun j _ => hp0 j) (Finset.mem_univ i)
    nlinarith [hp0 i]
  have h1 : ∀ k, drift x y e p w k = ∑ i, p i * (a i * x i k) := fun k => by
    simp only [drift, Finset.sum_apply, Pi.smul_apply, smul_eq_mul]
    exact Finset.sum_congr rfl fun i _ => by ring
  have h2 : ∀ k, drift x y e p w k * drift x y e p w k ≤ ∑ i, (a i * x i k) ^ 2 := fun k => by
    rw [← sq, h1 k]
    refine (Finset.sum_mul_sq_le_sq_mul_sq _ _ _).trans ?_
    have : 0 ≤ ∑ i, (a i * x i k) ^ 2 := Finset.sum_nonneg fun i _ => sq_nonneg _
    nlinarith
  have h3 : drift x y e p w ⬝ᵥ drift x y e p w ≤ ∑ k, ∑ i, (a i * x i k) ^ 2 := Finset.sum_le_sum fun k _ => h2 k
  refine h3.trans ?_
  rw [Finset.sum_comm, Finset.mul_sum]
  refine Finset.sum_le_sum fun i _ => ?_
  have h4 : ∑ k, (a i * x i k) ^ 2 = (x i ⬝ᵥ x i) * a i ^ 2 := by
    simp only [dotProduct, Finset.sum_mul]
    exact Finset.sum_congr rfl fun k _ => by ring
  rw [h4]
  exact mul_le_mul_of_nonneg_right (hF i) (sq_nonneg _)

theorem drift_dot (x y : Fin N → Fin d → ℝ) (e : Fin N → ℝ) (p : Fin N → ℝ) (w : Fin d → ℝ) : w ⬝ᵥ drift x y e p w = ∑ i, (e i - (x i ⬝ᵥ w - y i ⬝ᵥ w)) * (x i ⬝ᵥ w) * p i := by
  unfold drift
  rw [dotProduct_sum]
  refine Finset.sum_congr rfl fun i _ => ?_
  rw [dotProduct_smul, smul_eq_mul, dotProduct_comm w]
  ring

/-- The squared distance after an update. -/
theorem drift_step (x y : Fin N → Fin d → ℝ) (e : Fin N → ℝ) {p : Fin N → ℝ} (hp0 : ∀ i, 0 ≤ p i) (hp1 : ∑ i, p i = 1) {F : ℝ} (hF : ∀ i, x i ⬝ᵥ x i ≤ F) (w : Fin d → ℝ) (eta : ℝ) :
    (w + eta • drift x y e p w) ⬝ᵥ (w + eta • drift x y e p w) ≤
      w ⬝ᵥ w + eta ^ 2 * (F * ∑ i, (e i - (x i ⬝ᵥ w - y i ⬝ᵥ w)) ^ 2) + ∑ i, 2 * eta * ((e i - (x i ⬝ᵥ w - y i ⬝ᵥ w)) * (x i ⬝ᵥ w)) * p i := by
  have h1 := mul_le_mul_of_nonneg_left (drift_sq x y e hp0 hp1 hF w) (sq_nonneg eta)
  have h2 : (w + eta • drift x y e p w) ⬝ᵥ (w + eta • drift x y e p w) = w ⬝ᵥ w + 2 * eta * (w ⬝ᵥ drift x y e p w) + eta ^ 2 * (drift x y e p w ⬝ᵥ drift x y e p w) := by
    simp only [dotProduct, Pi.add_apply, Pi.smul_apply, smul_eq_mul, Finset.mul_sum]
    rw [← Finset.sum_add_distrib, ← Finset.sum_add_distrib]
    exact Finset.sum_congr rfl fun k _ => by ring
  have h3 : ∑ i, 2 * eta * ((e i - (x i ⬝ᵥ w - y i ⬝ᵥ w)) * (x i ⬝ᵥ w)) * p i = 2 * eta * (w ⬝ᵥ drift x y e p w) := by
    rw [drift_dot, Finset.mul_sum]
    exact Finset.sum_congr rfl fun i _ => by ring
  rw [h2, h3]
  linarith

/-- The mean of the bound. -/
theorem drift_mean {x y : Fin N → Fin d → ℝ} {e : Fin N → ℝ} (he : ∀ k, ∑ i, e i * x i k = 0) {g : ℝ} (hg : 0 ≤ g) {F : ℝ} (hF0 : 0 ≤ F) {w : Fin d → ℝ} (hP : ∑ i, (y i ⬝ᵥ w) ^ 2 ≤ g ^ 2 * ∑ i, (x i ⬝ᵥ w) ^ 2) {eta : ℝ} (heta : 0 ≤ eta)
    (hs : eta * (2 * F * (1 + g) ^ 2) ≤ (1 - g) / N) :
    w ⬝ᵥ w + eta ^ 2 * (F * ∑ i, (e i - (x i ⬝ᵥ w - y i ⬝ᵥ w)) ^ 2) + ∑ i, 2 * eta * ((e i - (x i ⬝ᵥ w - y i ⬝ᵥ w)) * (x i ⬝ᵥ w)) * (1 / N) ≤
      w ⬝ᵥ w - eta * ((1 - g) / N) * ∑ i, (x i ⬝ᵥ w) ^ 2 + eta ^ 2 * (2 * F * ∑ i, e i ^ 2) := by
  have h1 := sum_cross hg hP
  have h2 := sum_diff hg hP
  have h3 : ∑ i, (e i - (x i ⬝ᵥ w - y i ⬝ᵥ w)) ^ 2 ≤ 2 * ∑ i, e i ^ 2 + 2 * ((1 + g) ^ 2 * ∑ i, (x i ⬝ᵥ w) ^ 2) := by
    have h4 : ∑ i, (e i - (x i ⬝ᵥ w - y i ⬝ᵥ w)) ^ 2 ≤ ∑ i, (2 * e i ^ 2 + 2 * (x i ⬝ᵥ w - y i ⬝ᵥ w) ^ 2) := Finset.sum_le_sum fun i _ => by nlinarith [sq_nonneg (e i + (x i ⬝ᵥ w - y i ⬝ᵥ w))]
    rw [Finset.sum_add_distrib, ← Finset.mul_sum, ← Finset.mul_sum] at h4
    linarith
  have h5 : ∑ i, e i * (x i ⬝ᵥ w) = 0 := by
    have : ∑ i, e i * (x i ⬝ᵥ w) = ∑ k, (∑ i, e i * x i k) * w k := by
      simp only [dotProduct, Finset.mul_sum, Finset.sum_mul]
      rw [Finset.sum_comm]
      exact Finset.sum_congr rfl fun k _ => Finset.sum_congr rfl fun i _ => by ring
    rw [this]
    exact Finset.sum_eq_zero fun k _ => by rw [he k, zero_mul]
  have h6 : ∑ i, 2 * eta * ((e i - (x i ⬝ᵥ w - y i ⬝ᵥ w)) * (x i ⬝ᵥ w)) * (1 / N) = 2 * eta / N * (∑ i, (y i ⬝ᵥ w) * (x i ⬝ᵥ w) - ∑ i, (x i ⬝ᵥ w) ^ 2) := by
    have : ∑ i, 2 * eta * ((e i - (x i ⬝ᵥ w - y i ⬝ᵥ w)) * (x i ⬝ᵥ w)) * (1 / N) = 2 * eta / N * (∑ i, e i * (x i ⬝ᵥ w) + (∑ i, (y i ⬝ᵥ w) * (x i ⬝ᵥ w) - ∑ i, (x i ⬝ᵥ w) ^ 2)) := by
      rw [← Finset.sum_sub_distrib, ← Finset.sum_add_distrib, Finset.mul_sum]
      exact Finset.sum_congr rfl fun i _ => by ring
    rw [this, h5, zero_add]
  set X : ℝ := ∑ i, (x i ⬝ᵥ w) ^ 2 with hX
  have hX0 : 0 ≤ X := Finset.sum_nonneg fun i _ => sq_nonneg _
  have h7 : eta ^ 2 * (F * ∑ i, (e i - (x i ⬝ᵥ w - y i ⬝ᵥ w)) ^ 2) ≤ eta ^ 2 * (F * (2 * ∑ i, e i ^ 2 + 2 * ((1 + g) ^ 2 * X))) := mul_le_mul_of_nonneg_left (mul_le_mul_of_nonneg_left h3 hF0) (sq_nonneg _)
  have h8 : 2 * eta / N * (∑ i, (y i ⬝ᵥ w) * (x i ⬝ᵥ w) - X) ≤ 2 * eta / N * (g * X - X) := mul_le_mul_of_nonneg_left (by linarith) (by positivity)
  have h9 : eta * (eta * (2 * F * (1 + g) ^ 2)) * X ≤ eta * ((1 - g) / N) * X := mul_le_mul_of_nonneg_right (mul_le_mul_of_nonneg_left hs heta) hX0
  rw [h6]
  have h10 : 2 * eta / N * (g * X - X) = -2 * (eta * ((1 - g) / N) * X) := by ring
  rw [h10] at h8
  have h11 : eta ^ 2 * (F * (2 * ∑ i, e i ^ 2 + 2 * ((1 + g) ^ 2 * X))) = eta ^ 2 * (2 * F * ∑ i, e i ^ 2) + eta * (eta * (2 * F * (1 + g) ^ 2)) * X := by ring
  rw [h11] at h7
  linarith

/-! ### The process -/

/-- The share of each transition in a batch. -/
noncomputable def shareOf {B : ℕ} (I : Fin B → Fin N) (i : Fin N) : ℝ := ∑ j, (if I j = i then 1 else 0) / (B : ℝ)

theorem shareOf_nonneg {B : ℕ} (I : Fin B → Fin N) (i : Fin N) : 0 ≤ shareOf I i := Finset.sum_nonneg fun j _ => by split <;> positivity

theorem shareOf_sum {B : ℕ} (hB : 0 < B) (I : Fin B → Fin N) : ∑ i, shareOf I i = 1 := by
  unfold shareOf
  rw [Finset.sum_comm]
  have h1 : ∀ j, ∑ i, (if I j = i then 1 else 0) / (B : ℝ) = 1 / B := fun j => by rw [← Finset.sum_div, Finset.sum_ite_eq, if_pos (Finset.mem_univ _)]
  simp only [h1, Finset.sum_const, Finset.card_univ, Fintype.card_fin, nsmul_eq_mul]
  field_simp

/-- The sum over a batch. -/
theorem shareOf_batch {B : ℕ} (I : Fin B → Fin N) (f : Fin N → ℝ) : ∑ i, shareOf I i * f i = (∑ j, f (I j)) / B := by
  unfold shareOf
  simp only [Finset.sum_mul]
  rw [Finset.sum_comm, Finset.sum_div]
  refine Finset.sum_congr rfl fun j _ => ?_
  rw [Finset.sum_eq_single (I j)]
  · rw [if_pos rfl]; ring
  · intro i _ hi
    rw [if_neg (fun h => hi h.symm)]
    simp
  · simp

variable {Ω : Type _} {m0 : MeasurableSpace Ω} {μ : Measure Ω} [IsProbabilityMeasure μ] {ℱ : Filtration ℕ m0}

/-- Params that move with the mini-batches. -/
noncomputable def walk (x y : Fin N → Fin d → ℝ) (e : Fin N → ℝ) (lr : ℕ → ℝ) {B : ℕ} (I : ℕ → Ω → Fin B → Fin N) (w0 : Fin d → ℝ) : ℕ → Ω → Fin d → ℝ
  | 0, _ => w0
  | t + 1, ω => walk x y e lr I w0 t ω + lr t • drift x y e (shareOf (I t ω)) (walk x y e lr I w0 t ω)

omit [IsProbabilityMeasure μ] in
theorem Uniform.knows {B : ℕ} {I : ℕ → Ω → Fin B → Fin N} (h : Uniform μ ℱ I) (t : ℕ) : Knows (ℱ (t + 1)) (I t) := by
  refine ⟨(Set.toFinite _).countable, fun g => ?_⟩
  have : I t ⁻¹' {g} = ⋂ j, {ω | I t ω j = g j} := by
    ext ω
    simp [funext_iff]
  rw [this]
  exact MeasurableSet.iInter fun j => h.known t j (g j)

omit [IsProbabilityMeasure μ] in
theorem walk_knows (x y : Fin N → Fin d → ℝ) (e : Fin N → ℝ) (lr : ℕ → ℝ) {B : ℕ} {I : ℕ → Ω → Fin B → Fin N} (h : Uniform μ ℱ I) (w0 : Fin d → ℝ) (t : ℕ) : Knows (ℱ t) (walk x y e lr I w0 t) ∧ (Set.range (walk x y e lr I w0 t)).Finite := by
  induction t with
  | zero => exact ⟨Knows.const _ _, (Set.finite_singleton w0).subset (by rintro _ ⟨ω, rfl⟩; rfl)⟩
  | succ t ih =>
    refine ⟨((ih.1.mono (ℱ.mono (Nat.le_succ t))).pair (h.knows t)).map fun z : (Fin d → ℝ) × (Fin B → Fin N) => z.1 + lr t • drift x y e (shareOf z.2) z.1, ?_⟩
    refine ((ih.2.prod (Set.finite_univ (α := Fin B → Fin N))).image fun z : (Fin d → ℝ) × (Fin B → Fin N) => z.1 + lr t • drift x y e (shareOf z.2) z.1).subset ?_
    rintro _ ⟨ω, rfl⟩
    exact ⟨(walk x y e lr I w0 t ω, I t ω), ⟨⟨ω, rfl⟩, Set.mem_univ _⟩, rfl⟩

theorem walk_span (x y : Fin N → Fin d → ℝ) (e : Fin N → ℝ) (lr : ℕ → ℝ) {B : ℕ} (I : ℕ → Ω → Fin B → Fin N) {w0 : Fin d → ℝ} (h0 : w0 ∈ Submodule.span ℝ (Set.range x)) (t : ℕ) (ω : Ω) : walk x y e lr I w0 t ω ∈ Submodule.span ℝ (Set.range x) := by
  induction t with
  | zero => exact h0
  | succ t ih =>
    refine Submodule.add_mem _ ih (Submodule.smul_mem _ _ ?_)
    exact Submodule.sum_mem _ fun i _ => Submodule.smul_mem _ _ (Submodule.subset_span ⟨i, rfl⟩)

omit [IsProbabilityMeasure μ] in
theorem known_measurable {α : Type _} {F : MeasurableSpace Ω} {f : Ω → α} (h : Knows F f) (g : α → ℝ) : StronglyMeasurable[F] fun ω => g (f ω) := Measurable.stronglyMeasurable fun s _ => h.preimage (g ⁻¹' s)

omit [IsProbabilityMeasure μ] m0 in
theorem finite_bound {α : Type _} {f : Ω → α} (h : (Set.range f).Finite) (g : α → ℝ) : ∃ M, ∀ ω, |g (f ω)| ≤ M := by
  obtain ⟨M, hM⟩ := (h.image fun a => |g a|).bddAbove
  exact ⟨M, fun ω => hM ⟨f ω, ⟨ω, rfl⟩, rfl⟩⟩

theorem Uniform.share {B : ℕ} (hB : 0 < B) {I : ℕ → Ω → Fin B → Fin N} (h : Uniform μ ℱ I) (t : ℕ) (i : Fin N) : Integrable (fun ω => shareOf (I t ω) i) μ ∧ μ[fun ω => shareOf (I t ω) i | ℱ t] =ᵐ[μ] fun _ => 1 / N := by
  classical
  have hj : ∀ j, Integrable (Set.indicator {ω | I t ω j = i} fun _ => (1 : ℝ)) μ := fun j => (integrable_const (1 : ℝ)).indicator (ℱ.le _ _ (h.known t j i))
  have e : (fun ω => shareOf (I t ω) i) = ∑ j, (1 / (B : ℝ)) • Set.indicator {ω | I t ω j = i} fun _ => (1 : ℝ) := by
    funext ω
    simp only [shareOf, Finset.sum_apply, Pi.smul_apply, smul_eq_mul, Set.indicator_apply, Set.mem_ofPred_eq]
    exact Finset.sum_congr rfl fun j _ => by split <;> ring
  rw [e]
  refine ⟨integrable_finset_sum' _ fun j _ => (hj j).smul _, ?_⟩
  refine (condExp_finsetSum (fun j _ => (hj j).smul _) (ℱ t)).trans ?_
  have h2 : ∀ j, μ[(1 / (B : ℝ)) • Set.indicator {ω | I t ω j = i} fun _ => (1 : ℝ) | ℱ t] =ᵐ[μ] fun _ => 1 / B * (1 / N) := fun j => by
    filter_upwards [condExp_smul (μ := μ) (1 / (B : ℝ)) (Set.indicator {ω | I t ω j = i} fun _ => (1 : ℝ)) (ℱ t), h.law t j i] with ω h3 h4
    rw [h3, Pi.smul_apply, h4, smul_eq_mul]
  filter_upwards [ae_all_iff.2 h2] with ω h3
  rw [Finset.sum_apply]
  simp only [h3, Finset.sum_const, Finset.card_univ, Fintype.card_fin, nsmul_eq_mul]
  field_simp

/-- The params converge to the limit, almost surely. -/
theorem walk_tendsto {x y : Fin N → Fin d → ℝ} {e : Fin N → ℝ} (he : ∀ k, ∑ i, e i * x i k = 0) {g : ℝ} (hg : 0 ≤ g) (hg1 : g < 1) (hP : ∀ w, ∑ i, (y i ⬝ᵥ w) ^ 2 ≤ g ^ 2 * ∑ i, (x i ⬝ᵥ w) ^ 2) {lr : ℕ → ℝ} (hlr : ∀ t, 0 ≤ lr t)
    (hsq : Summable fun t => lr t ^ 2) (hdiv : ¬ Summable lr) {B : ℕ} (hB : 0 < B) {I : ℕ → Ω → Fin B → Fin N} (hI : Uniform μ ℱ I) {w0 : Fin d → ℝ} (h0 : w0 ∈ Submodule.span ℝ (Set.range x)) :
    ∀ᵐ ω ∂μ, Tendsto (fun t => walk x y e lr I w0 t ω) atTop (𝓝 0) := by
  obtain ⟨ω0⟩ : Nonempty Ω := nonempty_of_isProbabilityMeasure μ
  have hN : 0 < N := (I 0 ω0 ⟨0, hB⟩).pos
  have hN' : (0 : ℝ) < N := by exact_mod_cast hN
  set F : ℝ := ∑ i, x i ⬝ᵥ x i
  have hx0 : ∀ i, 0 ≤ x i ⬝ᵥ x i := fun i => Finset.sum_nonneg fun k _ => mul_self_nonneg _
  have hF : ∀ i, x i ⬝ᵥ x i ≤ F := fun i => Finset.single_le_sum (fun j _ => hx0 j) (Finset.mem_univ i)
  have hF0 : 0 ≤ F := Finset.sum_nonneg fun i _ => hx0 i
  set D : ℝ := ∑ i, e i ^ 2
  have hD0 : 0 ≤ D := Finset.sum_nonneg fun i _ => sq_nonneg _
  set w : ℕ → Ω → Fin d → ℝ := walk x y e lr I w0 with hw
  have hk : ∀ t, Knows (ℱ t) (w t) ∧ (Set.range (w t)).Finite := walk_knows x y e lr hI w0
  let V : (Fin d → ℝ) → ℝ := fun w => w ⬝ᵥ w
  let X : (Fin d → ℝ) → ℝ := fun w => ∑ i, (x i ⬝ᵥ w) ^ 2
  choose MV hMV using fun t => finite_bound (hk t).2 V
  choose MX hMX using fun t => finite_bound (hk t).2 X
  -- small learning rates
  have hsmall : ∃ T, ∀ t, T ≤ t → lr t * (2 * F * (1 + g) ^ 2) ≤ (1 - g) / N := by
    have h1 : Tendsto (fun t => Real.sqrt (lr t ^ 2)) atTop (𝓝 0) := by
      have := (Real.continuous_sqrt.tendsto 0).comp hsq.tendsto_atTop_zero
      rwa [Real.sqrt_zero] at this
    have h2 : Tendsto (fun t => lr t * (2 * F * (1 + g) ^ 2)) atTop (𝓝 0) := by
      have := (h1.congr fun t => Real.sqrt_sq (hlr t)).mul_const (2 * F * (1 + g) ^ 2)
      rwa [zero_mul] at this
    have h3 : 0 < (1 - g) / N := div_pos (by linarith) hN'
    obtain ⟨T, hT⟩ := eventually_atTop.1 (h2.eventually_lt_const h3)
    exact ⟨T, fun t ht => (hT t ht).le⟩
  obtain ⟨T, hT⟩ := hsmall
  have hstep : ∀ t, T ≤ t → μ[(fun ω => V (w (t + 1) ω)) | ℱ t] ≤ᵐ[μ] fun ω => V (w t ω) - lr t * ((1 - g) / N) * X (w t ω) + lr t ^ 2 * (2 * F * D) := by
    intro t ht
    let A : (Fin d → ℝ) → ℝ := fun w => w ⬝ᵥ w + lr t ^ 2 * (F * ∑ i, (e i - (x i ⬝ᵥ w - y i ⬝ᵥ w)) ^ 2)
    let b : Fin N → (Fin d → ℝ) → ℝ := fun i w => 2 * lr t * ((e i - (x i ⬝ᵥ w - y i ⬝ᵥ w)) * (x i ⬝ᵥ w))
    obtain ⟨MA, hMA⟩ := finite_bound (hk t).2 A
    choose Mb hMb using fun i => finite_bound (hk t).2 (b i)
    have hAm := known_measurable (hk t).1 A
    have hAi : Integrable (fun ω => A (w t ω)) μ := Integrable.of_bound (hAm.mono (ℱ.le _)).aestronglyMeasurable MA (Eventually.of_forall fun ω => by rw [Real.norm_eq_abs]; exact hMA ω)
    have hbm := fun i => known_measurable (hk t).1 (b i)
    have hbi : ∀ i, Integrable ((fun ω => b i (w t ω)) * fun ω => shareOf (I t ω) i) μ := fun i =>
      (hI.share hB t i).1.bdd_mul ((hbm i).mono (ℱ.le _)).aestronglyMeasurable (Eventually.of_forall fun ω => by rw [Real.norm_eq_abs]; exact hMb i ω)
    have hVi : Integrable (fun ω => V (w (t + 1) ω)) μ := Integrable.of_bound ((known_measurable (hk (t + 1)).1 V).mono (ℱ.le _)).aestronglyMeasurable (MV (t + 1)) (Eventually.of_forall fun ω => by rw [Real.norm_eq_abs]; exact hMV _ ω)
    have hsum : Integrable (∑ i, (fun ω => b i (w t ω)) * fun ω => shareOf (I t ω) i) μ := integrable_finset_sum' _ fun i _ => hbi i
    have hle : (fun ω => V (w (t + 1) ω)) ≤ᵐ[μ] (fun ω => A (w t ω)) + ∑ i, (fun ω => b i (w t ω)) * fun ω => shareOf (I t ω) i := Eventually.of_forall fun ω => by
      have := drift_step x y e (shareOf_nonneg (I t ω)) (shareOf_sum hB (I t ω)) hF (w t ω) (lr t)
      show V (w (t + 1) ω) ≤ A (w t ω) + (∑ i, (fun ω => b i (w t ω)) * fun ω => shareOf (I t ω) i) ω
      rw [Finset.sum_apply]
      exact this
    have h1 := condExp_mono (m := ℱ t) hVi (hAi.add hsum) hle
    have h2 := condExp_add hAi hsum (ℱ t)
    have h3 : μ[fun ω => A (w t ω) | ℱ t] = fun ω => A (w t ω) := condExp_of_stronglyMeasurable (ℱ.le t) hAm hAi
    have h4 := condExp_finsetSum (μ := μ) (s := Finset.univ) (fun i _ => hbi i) (ℱ t)
    have h5 : ∀ i, μ[(fun ω => b i (w t ω)) * fun ω => shareOf (I t ω) i | ℱ t] =ᵐ[μ] fun ω => b i (w t ω) * (1 / N) := fun i => by
      have h6 := condExp_stronglyMeasurable_mul_of_bound (ℱ.le t) (hbm i) (hI.share hB t i).1 (Mb i) (Eventually.of_forall fun ω => by rw [Real.norm_eq_abs]; exact hMb i ω)
      filter_upwards [h6, (hI.share hB t i).2] with ω h7 h8
      rw [h7, Pi.mul_apply, h8]
    filter_upwards [h1, h2, h4, ae_all_iff.2 h5] with ω g1 g2 g4 g5
    refine g1.trans ?_
    rw [g2, Pi.add_apply, h3, g4, Finset.sum_apply]
    simp only [g5]
    exact drift_mean he hg hF0 (hP (w t ω)) (hlr t) (hT t ht)
  have hmain := siegmund_eventually (μ := μ) (ℱ := ℱ) (V := fun t ω => V (w t ω)) (X := fun t ω => X (w t ω)) (M := fun t => max (MV t) (MX t)) (a := fun t => lr t * ((1 - g) / N)) (c := fun t => lr t ^ 2 * (2 * F * D))
    (fun t => known_measurable (hk t).1 V) (fun t => known_measurable (hk t).1 X) (fun t ω => Finset.sum_nonneg fun k _ => mul_self_nonneg _) (fun t ω => Finset.sum_nonneg fun i _ => sq_nonneg _)
    (fun t ω => ((le_abs_self _).trans (hMV t ω)).trans (le_max_left _ _)) (fun t ω => ((le_abs_self _).trans (hMX t ω)).trans (le_max_right _ _)) (fun t => mul_nonneg (hlr t) (div_nonneg (by linarith) hN'.le))
    (fun t => mul_nonneg (sq_nonneg _) (by positivity)) (hsq.mul_right _) T hstep
  obtain ⟨C, hC⟩ := span_sq x
  filter_upwards [hmain] with ω hω
  obtain ⟨hs, v, hv⟩ := hω
  have hv0 : 0 ≤ v := ge_of_tendsto' hv fun t => Finset.sum_nonneg fun k _ => mul_self_nonneg _
  have hvz : v = 0 := by
    by_contra hne
    have hpos : 0 < v := lt_of_le_of_ne hv0 (Ne.symm hne)
    have hC' : ∀ t, V (w t ω) ≤ (|C| + 1) * X (w t ω) := fun t => (hC _ (walk_span x y e lr I h0 t ω)).trans (mul_le_mul_of_nonneg_right (by linarith [le_abs_self C]) (Finset.sum_nonneg fun i _ => sq_nonneg _))
    have hc : 0 < |C| + 1 := by positivity
    obtain ⟨T', hT'⟩ := eventually_atTop.1 (hv.eventually_const_lt (show v / 2 < v by linarith))
    apply hdiv
    rw [← summable_nat_add_iff T']
    have hs' := (summable_nat_add_iff T').2 hs
    have hq : 0 < (1 - g) / N := div_pos (by linarith) hN'
    refine Summable.of_nonneg_of_le (fun t => hlr _) (fun t => ?_) (hs'.mul_left (2 * (|C| + 1) / v / ((1 - g) / N)))
    have h1 : v / 2 ≤ (|C| + 1) * X (w (t + T') ω) := (hT' (t + T') (by omega)).le.trans (hC' _)
    have h2 : 1 ≤ 2 * (|C| + 1) / v * X (w (t + T') ω) := by
      rw [div_mul_eq_mul_div, le_div_iff₀ hpos]
      linarith
    have h3 : 2 * (|C| + 1) / v / ((1 - g) / N) * (lr (t + T') * ((1 - g) / N) * X (w (t + T') ω)) = lr (t + T') * (2 * (|C| + 1) / v * X (w (t + T') ω)) := by
      have hg' : 1 - g ≠ 0 := by linarith
      field_simp
    rw [h3]
    exact le_mul_of_one_le_right (hlr _) h2
  rw [hvz] at hv
  rw [tendsto_pi_nhds]
  intro k
  have h2 : Tendsto (fun t => (w t ω k) ^ 2) atTop (𝓝 0) := by
    refine squeeze_zero (fun t => sq_nonneg _) (fun t => ?_) hv
    rw [sq]
    exact Finset.single_le_sum (f := fun k => w t ω k * w t ω k) (fun j _ => mul_self_nonneg _) (Finset.mem_univ k)
  have h3 : Tendsto (fun t => |w t ω k|) atTop (𝓝 0) := by
    have h4 := (Real.continuous_sqrt.tendsto 0).comp h2
    rw [Real.sqrt_zero] at h4
    exact h4.congr fun t => Real.sqrt_sq_eq_abs _
  exact (tendsto_zero_iff_abs_tendsto_zero _).2 h3

end

/-! ### Learning -/

variable {σ : Type _} {n d : Nat}

theorem affineLearn_append {lr : ℕ → ℝ} {L : LossFn} {base : σ → ℝ} {phi : σ → Fin d → ℝ} {k : ℕ} {θ θ' : Fin d → ℝ} {bs : List (List (Out σ (Fin n) ℝ))} (h : affineLearn lr L base phi k θ bs = .ok θ') (bs' : List (List (Out σ (Fin n) ℝ))) :
    affineLearn lr L base phi k θ (bs ++ bs') = affineLearn lr L base phi (k + bs.length) θ' bs' := by
  induction bs generalizing k θ with
  | nil =>
    simp only [affineLearn, Except.ok.injEq] at h
    subst h
    rfl
  | cons rows bs ih =>
    rw [List.cons_append, affineLearn]
    rw [affineLearn] at h
    cases hu : affineUpdate (lr k) L base phi θ θ rows with
    | error e => rw [hu] at h; simp at h
    | ok θ2 =>
      rw [hu] at h
      simp only at h ⊢
      rw [ih h, List.length_cons, show k + 1 + bs.length = k + (bs.length + 1) by omega]

theorem affineUpdate_batch (lr : ℝ) (base : σ → ℝ) (phi : σ → Fin d → ℝ) {rows : List (Out σ (Fin n) ℝ)} (hs : ∀ o ∈ rows, o.S_next.isSome) (hw : ∀ o ∈ rows, o.W = 1) {B : ℕ} (hB : 0 < B) (I : Fin B → Fin rows.length) (best w : Fin d → ℝ) :
    affineUpdate lr mse1 base phi (best + w) (best + w) (List.ofFn fun j => rows[I j]) =
      .ok (best + (w + lr • drift (feats phi rows) (ahead phi rows) (fun i => tdErr (lin base phi best) rows[i]) (shareOf I) w)) := by
  have hmem : ∀ o ∈ List.ofFn (fun j => rows[I j]), o ∈ rows := fun o ho => by
    obtain ⟨j, rfl⟩ := (List.mem_ofFn' _ _).1 ho
    exact List.getElem_mem _
  rw [C149_update lr base phi _ _ (by simp; omega) fun o ho => hs o (hmem o ho)]
  congr 1
  funext k
  have e1 : ((List.ofFn fun j => rows[I j]).map fun o => min (max o.W 0.1) 10 * ((o.Rn + o.In * o.S_next.elim 0 (lin base phi (best + w)) - lin base phi (best + w) o.S) * phi o.S k)) =
      (List.ofFn fun j => rows[I j]).map fun o => tdErr (lin base phi (best + w)) o * phi o.S k := by
    refine List.map_congr_left fun o ho => ?_
    rw [hw o (hmem o ho)]
    norm_num [tdErr]
  rw [e1, List.map_ofFn, List.sum_ofFn, List.length_ofFn]
  have e2 := shareOf_batch I fun i => tdErr (lin base phi (best + w)) rows[i] * feats phi rows i k
  have e3 : (∑ j, ((fun o => tdErr (lin base phi (best + w)) o * phi o.S k) ∘ fun j => rows[I j]) j) / (B : ℝ) = ∑ i, shareOf I i * (tdErr (lin base phi (best + w)) rows[i] * feats phi rows i k) := e2.symm
  rw [e3]
  simp only [Pi.add_apply, Pi.smul_apply, smul_eq_mul, drift, Finset.sum_apply]
  have e4 : ∀ i : Fin rows.length, tdErr (lin base phi (best + w)) rows[i] = tdErr (lin base phi best) rows[i] - (feats phi rows i ⬝ᵥ w - ahead phi rows i ⬝ᵥ w) := fun i => by
    have := tdErr_sub hs base phi (best + w) best i
    rw [add_sub_cancel_left] at this
    linarith
  rw [add_assoc]
  congr 3
  refine Finset.sum_congr rfl fun i _ => ?_
  rw [e4]
  ring

/-- Claim C149, mini-batches: if a buffer contains transitions that lead to its states as often as these occur, such as those of complete episodes, then learning with mini-batches that are drawn uniformly from it converges almost surely, to params whose
values are the projection of what the transitions say about them.  The learning rates satisfy the conditions of Robbins and Monro.  Nothing raises. -/
theorem C149_minibatches {Ω : Type _} {m0 : MeasurableSpace Ω} {μ : Measure Ω} [IsProbabilityMeasure μ] {ℱ : Filtration ℕ m0} {gamma : ℝ} (h0 : 0 ≤ gamma) (h1 : gamma < 1) {rows : List (Out σ (Fin n) ℝ)} (hp : OnPolicy gamma rows) (base : σ → ℝ)
    (phi : σ → Fin d → ℝ) {lr : ℕ → ℝ} (hlr : ∀ t, 0 ≤ lr t) (hsq : Summable fun t => lr t ^ 2) (hdiv : ¬ Summable lr) {B : ℕ} (hB : 0 < B) {I : ℕ → Ω → Fin B → Fin rows.length} (hI : Uniform μ ℱ I) (θ0 : Fin d → ℝ) :
    ∃ best, Projected base phi rows best ∧ ∃ θ : ℕ → Ω → Fin d → ℝ, (∀ t ω, affineLearn lr mse1 base phi 0 θ0 ((List.range t).map fun k => List.ofFn fun j => rows[I k ω j]) = .ok (θ t ω)) ∧
      ∀ᵐ ω ∂μ, Tendsto (fun t => θ t ω) atTop (𝓝 best) := by
  obtain ⟨v, hv, hr⟩ := resid_exists h0 h1 (hp.feats phi) fun i => tdErr (lin base phi θ0) rows[i]
  have hb : Projected base phi rows (θ0 + v) := by
    refine (projectedLin_iff base phi _).2 fun k => ?_
    rw [sum_tdErr hp.s_next base phi (θ0 + v) θ0 k, add_sub_cancel_left, hr, sub_self]
  refine ⟨θ0 + v, hb, fun t ω => θ0 + v + walk (feats phi rows) (ahead phi rows) (fun i => tdErr (lin base phi (θ0 + v)) rows[i]) lr I (-v) t ω, fun t ω => ?_, ?_⟩
  · induction t with
    | zero => simp [affineLearn, walk]
    | succ t ih =>
      rw [List.range_succ, List.map_append, affineLearn_append ih, List.map_singleton, affineLearn, List.length_map, List.length_range, zero_add, affineUpdate_batch (lr t) base phi hp.s_next hp.w hB (I t ω)]
      rfl
  · have := walk_tendsto (μ := μ) ((projectedLin_iff base phi _).1 hb) h0 h1 (hp.feats phi) hlr hsq hdiv hB hI (w0 := -v) (Submodule.neg_mem _ hv)
    filter_upwards [this] with ω hω
    simpa using hω.const_add (θ0 + v)

end Coax.Loop
