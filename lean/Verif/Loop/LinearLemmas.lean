import Verif.Loop.Linear
import Verif.Loop.TabularProps
import Mathlib.LinearAlgebra.Matrix.DotProduct
import Mathlib.Algebra.Order.BigOperators.Ring.Finset
import Mathlib.LinearAlgebra.FiniteDimensional.Basic
import Mathlib.LinearAlgebra.Span.Basic
import Mathlib.Topology.Algebra.InfiniteSum.Real
import Mathlib.Topology.Algebra.InfiniteSum.Order

/-! Facts about least squares with bootstrapping, for property C149. -/

namespace Coax.Loop

open Filter Topology

section

variable {ι : Type _} [Fintype ι] {d : Nat}

/-! ### Sums of squares -/

theorem sum_cross {g : ℝ} (hg : 0 ≤ g) {a b : ι → ℝ} (h : ∑ i, b i ^ 2 ≤ g ^ 2 * ∑ i, a i ^ 2) : ∑ i, b i * a i ≤ g * ∑ i, a i ^ 2 := by
  rcases hg.eq_or_lt with rfl | hg
  · have h0 : ∀ i ∈ Finset.univ, 0 ≤ b i ^ 2 := fun i _ => sq_nonneg _
    have h1 := (Finset.sum_eq_zero_iff_of_nonneg h0).1 (le_antisymm (by simpa using h) (Finset.sum_nonneg h0))
    rw [zero_mul, Finset.sum_eq_zero fun i hi => by rw [pow_eq_zero_iff two_ne_zero |>.1 (h1 i hi), zero_mul]]
  have h1 : ∑ i, 2 * g * (b i * a i) ≤ ∑ i, (b i ^ 2 + g ^ 2 * a i ^ 2) := Finset.sum_le_sum fun i _ => by nlinarith [sq_nonneg (b i - g * a i)]
  rw [← Finset.mul_sum, Finset.sum_add_distrib, ← Finset.mul_sum] at h1
  have h2 : 2 * g * ∑ i, b i * a i ≤ 2 * g * (g * ∑ i, a i ^ 2) := by nlinarith
  exact le_of_mul_le_mul_left h2 (by positivity)

theorem sum_diff {g : ℝ} (hg : 0 ≤ g) {a b : ι → ℝ} (h : ∑ i, b i ^ 2 ≤ g ^ 2 * ∑ i, a i ^ 2) : ∑ i, (a i - b i) ^ 2 ≤ (1 + g) ^ 2 * ∑ i, a i ^ 2 := by
  have h0 : ∑ i, (-b i) ^ 2 ≤ g ^ 2 * ∑ i, a i ^ 2 := by simpa using h
  have h1 := sum_cross hg h0
  have h2 : ∑ i, (a i - b i) ^ 2 = ∑ i, a i ^ 2 + 2 * ∑ i, -b i * a i + ∑ i, b i ^ 2 := by
    rw [Finset.mul_sum, ← Finset.sum_add_distrib, ← Finset.sum_add_distrib]
    exact Finset.sum_congr rfl fun i _ => by ring
  rw [h2]
  nlinarith

/-! ### The iteration -/

/-- The mean residual, without its constant part. -/
def resid (x y : ι → Fin d → ℝ) (w : Fin d → ℝ) : Fin d → ℝ := fun k => ∑ i, (x i ⬝ᵥ w - y i ⬝ᵥ w) * x i k

theorem resid_dot (x y : ι → Fin d → ℝ) (w v : Fin d → ℝ) : v ⬝ᵥ resid x y w = ∑ i, (x i ⬝ᵥ w - y i ⬝ᵥ w) * (x i ⬝ᵥ v) := by
  simp only [dotProduct, resid, Finset.mul_sum]
  rw [Finset.sum_comm]
  refine Finset.sum_congr rfl fun i _ => Finset.sum_congr rfl fun k _ => by ring

theorem resid_sq (x y : ι → Fin d → ℝ) {F : ℝ} (hF : ∀ i, x i ⬝ᵥ x i ≤ F) (w : Fin d → ℝ) : resid x y w ⬝ᵥ resid x y w ≤ Fintype.card ι * F * ∑ i, (x i ⬝ᵥ w - y i ⬝ᵥ w) ^ 2 := by
  have h1 : resid x y w ⬝ᵥ resid x y w ≤ ∑ k, (∑ i, (x i ⬝ᵥ w - y i ⬝ᵥ w) ^ 2) * ∑ i, x i k ^ 2 := by
    refine Finset.sum_le_sum fun k _ => ?_
    rw [← sq]
    exact Finset.sum_mul_sq_le_sq_mul_sq _ _ _
  refine h1.trans ?_
  rw [← Finset.mul_sum, Finset.sum_comm, mul_comm]
  refine mul_le_mul_of_nonneg_right ?_ (Finset.sum_nonneg fun i _ => sq_nonneg _)
  have h2 : ∑ i, ∑ k, x i k ^ 2 ≤ ∑ _i : ι, F := Finset.sum_le_sum fun i _ => by
    have := hF i
    simp only [dotProduct, ← sq] at this
    exact this
  simpa using h2

theorem resid_step {x y : ι → Fin d → ℝ} {F g eta : ℝ} (hg : 0 ≤ g) (heta : 0 ≤ eta) (hF : ∀ i, x i ⬝ᵥ x i ≤ F) {w : Fin d → ℝ} (hP : ∑ i, (y i ⬝ᵥ w) ^ 2 ≤ g ^ 2 * ∑ i, (x i ⬝ᵥ w) ^ 2) (hF0 : 0 ≤ F) :
    (w - eta • resid x y w) ⬝ᵥ (w - eta • resid x y w) ≤ w ⬝ᵥ w - eta * (2 * (1 - g) - eta * (Fintype.card ι * F * (1 + g) ^ 2)) * ∑ i, (x i ⬝ᵥ w) ^ 2 := by
  have h1 := sum_cross hg hP
  have h2 := sum_diff hg hP
  have h3 := resid_sq x y hF w
  have h4 : (w - eta • resid x y w) ⬝ᵥ (w - eta • resid x y w) = w ⬝ᵥ w - 2 * eta * (w ⬝ᵥ resid x y w) + eta ^ 2 * (resid x y w ⬝ᵥ resid x y w) := by
    simp only [dotProduct, Pi.sub_apply, Pi.smul_apply, smul_eq_mul, Finset.mul_sum]
    rw [← Finset.sum_sub_distrib, ← Finset.sum_add_distrib]
    exact Finset.sum_congr rfl fun k _ => by ring
  have h5 : w ⬝ᵥ resid x y w = ∑ i, (x i ⬝ᵥ w) ^ 2 - ∑ i, (y i ⬝ᵥ w) * (x i ⬝ᵥ w) := by
    rw [resid_dot, ← Finset.sum_sub_distrib]
    exact Finset.sum_congr rfl fun i _ => by ring
  have h6 : resid x y w ⬝ᵥ resid x y w ≤ Fintype.card ι * F * ((1 + g) ^ 2 * ∑ i, (x i ⬝ᵥ w) ^ 2) := h3.trans (mul_le_mul_of_nonneg_left h2 (by positivity))
  rw [h4, h5]
  have h7 := mul_le_mul_of_nonneg_left h6 (sq_nonneg eta)
  have h8 := mul_le_mul_of_nonneg_left h1 (by positivity : 0 ≤ 2 * eta)
  nlinarith

theorem resid_tendsto {x y : ι → Fin d → ℝ} {F g eta : ℝ} (hg : 0 ≤ g) (heta : 0 < eta) (hF : ∀ i, x i ⬝ᵥ x i ≤ F) (hF0 : 0 ≤ F) (hP : ∀ w, ∑ i, (y i ⬝ᵥ w) ^ 2 ≤ g ^ 2 * ∑ i, (x i ⬝ᵥ w) ^ 2)
    (hs : eta * (Fintype.card ι * F * (1 + g) ^ 2) < 2 * (1 - g)) {w : ℕ → Fin d → ℝ} (hw : ∀ t, w (t + 1) = w t - eta • resid x y (w t)) (i : ι) : Tendsto (fun t => x i ⬝ᵥ w t) atTop (𝓝 0) := by
  set c : ℝ := eta * (2 * (1 - g) - eta * (Fintype.card ι * F * (1 + g) ^ 2)) with hc
  have hc0 : 0 < c := mul_pos heta (by linarith)
  have hstep : ∀ t, w (t + 1) ⬝ᵥ w (t + 1) ≤ w t ⬝ᵥ w t - c * ∑ i, (x i ⬝ᵥ w t) ^ 2 := fun t => by
    rw [hw t]
    exact resid_step hg heta.le hF (hP (w t)) hF0
  have hsum : ∀ T, c * ∑ t ∈ Finset.range T, ∑ i, (x i ⬝ᵥ w t) ^ 2 ≤ w 0 ⬝ᵥ w 0 - w T ⬝ᵥ w T := fun T => by
    induction T with
    | zero => simp
    | succ T ih =>
      rw [Finset.sum_range_succ, mul_add]
      linarith [hstep T]
  have hS : Summable fun t => ∑ i, (x i ⬝ᵥ w t) ^ 2 := by
    refine summable_of_sum_range_le (c := (w 0 ⬝ᵥ w 0) / c) (fun t => Finset.sum_nonneg fun i _ => sq_nonneg _) fun T => ?_
    rw [le_div_iff₀ hc0, mul_comm]
    have h0 : 0 ≤ w T ⬝ᵥ w T := Finset.sum_nonneg fun k _ => mul_self_nonneg _
    linarith [hsum T]
  have h2 : Tendsto (fun t => (x i ⬝ᵥ w t) ^ 2) atTop (𝓝 0) :=
    squeeze_zero (fun t => sq_nonneg _) (fun t => Finset.single_le_sum (f := fun i => (x i ⬝ᵥ w t) ^ 2) (fun j _ => sq_nonneg _) (Finset.mem_univ i)) hS.tendsto_atTop_zero
  have h3 : Tendsto (fun t => |x i ⬝ᵥ w t|) atTop (𝓝 0) := by
    have h4 := (Real.continuous_sqrt.tendsto 0).comp h2
    rw [Real.sqrt_zero] at h4
    exact h4.congr fun t => Real.sqrt_sq_eq_abs _
  exact (tendsto_zero_iff_abs_tendsto_zero _).2 h3

/-! ### The limit -/

theorem resid_zero {x y : ι → Fin d → ℝ} {g : ℝ} (hg : 0 ≤ g) (hg1 : g < 1) {w : Fin d → ℝ} (hP : ∑ i, (y i ⬝ᵥ w) ^ 2 ≤ g ^ 2 * ∑ i, (x i ⬝ᵥ w) ^ 2) (h : resid x y w = 0) (i : ι) : x i ⬝ᵥ w = 0 := by
  have h1 := sum_cross hg hP
  have h5 : w ⬝ᵥ resid x y w = ∑ i, (x i ⬝ᵥ w) ^ 2 - ∑ i, (y i ⬝ᵥ w) * (x i ⬝ᵥ w) := by
    rw [resid_dot, ← Finset.sum_sub_distrib]
    exact Finset.sum_congr rfl fun i _ => by ring
  rw [h, dotProduct_zero] at h5
  have h0 : ∀ i ∈ Finset.univ, 0 ≤ (x i ⬝ᵥ w) ^ 2 := fun i _ => sq_nonneg _
  have h6 : ∑ i, (x i ⬝ᵥ w) ^ 2 = 0 := le_antisymm (by nlinarith) (Finset.sum_nonneg h0)
  have := (Finset.sum_eq_zero_iff_of_nonneg h0).1 h6 i (Finset.mem_univ i)
  exact pow_eq_zero_iff (two_ne_zero) |>.1 this

/-- The residual as a linear map. -/
def residL (x y : ι → Fin d → ℝ) : (Fin d → ℝ) →ₗ[ℝ] Fin d → ℝ where
  toFun := resid x y
  map_add' a b := by
    funext k
    simp only [resid, dotProduct_add, Pi.add_apply, ← Finset.sum_add_distrib]
    exact Finset.sum_congr rfl fun i _ => by ring
  map_smul' c a := by
    funext k
    simp only [resid, dotProduct_smul, Pi.smul_apply, smul_eq_mul, RingHom.id_apply, Finset.mul_sum]
    exact Finset.sum_congr rfl fun i _ => by ring

theorem resid_mem (x : ι → Fin d → ℝ) (c : ι → ℝ) : (fun k => ∑ i, c i * x i k) ∈ Submodule.span ℝ (Set.range x) := by
  have : (fun k => ∑ i, c i * x i k) = ∑ i, c i • x i := by
    funext k
    simp [Finset.sum_apply]
  rw [this]
  exact Submodule.sum_mem _ fun i _ => Submodule.smul_mem _ _ (Submodule.subset_span ⟨i, rfl⟩)

theorem span_orth {x : ι → Fin d → ℝ} {w : Fin d → ℝ} (h : ∀ i, x i ⬝ᵥ w = 0) {v : Fin d → ℝ} (hv : v ∈ Submodule.span ℝ (Set.range x)) : v ⬝ᵥ w = 0 := by
  induction hv using Submodule.span_induction with
  | mem v hv =>
    obtain ⟨i, rfl⟩ := hv
    exact h i
  | zero => exact zero_dotProduct _
  | add a b _ _ ha hb => rw [add_dotProduct, ha, hb, add_zero]
  | smul c a _ ha => rw [smul_dotProduct, ha, smul_zero]

theorem span_tendsto {x : ι → Fin d → ℝ} {w : ℕ → Fin d → ℝ} (h : ∀ i, Tendsto (fun t => x i ⬝ᵥ w t) atTop (𝓝 0)) {v : Fin d → ℝ} (hv : v ∈ Submodule.span ℝ (Set.range x)) : Tendsto (fun t => v ⬝ᵥ w t) atTop (𝓝 0) := by
  induction hv using Submodule.span_induction with
  | mem v hv =>
    obtain ⟨i, rfl⟩ := hv
    exact h i
  | zero => simp
  | add a b _ _ ha hb => simpa [add_dotProduct] using ha.add hb
  | smul c a _ ha => simpa [smul_dotProduct] using ha.const_mul c

theorem resid_exists {x y : ι → Fin d → ℝ} {g : ℝ} (hg : 0 ≤ g) (hg1 : g < 1) (hP : ∀ w, ∑ i, (y i ⬝ᵥ w) ^ 2 ≤ g ^ 2 * ∑ i, (x i ⬝ᵥ w) ^ 2) (c : ι → ℝ) :
    ∃ w ∈ Submodule.span ℝ (Set.range x), resid x y w = fun k => ∑ i, c i * x i k := by
  let W := Submodule.span ℝ (Set.range x)
  let f : W →ₗ[ℝ] W := ((residL x y).comp W.subtype).codRestrict W fun w => resid_mem x _
  have hinj : Function.Injective f := by
    rw [← LinearMap.ker_eq_bot, LinearMap.ker_eq_bot']
    intro w hw
    have h1 : resid x y w = 0 := congrArg Subtype.val hw
    have h2 : (w : Fin d → ℝ) ⬝ᵥ (w : Fin d → ℝ) = 0 := span_orth (resid_zero hg hg1 (hP w) h1) w.2
    exact Subtype.ext (dotProduct_self_eq_zero.1 h2)
  obtain ⟨w, hw⟩ := LinearMap.injective_iff_surjective.1 hinj ⟨_, resid_mem x c⟩
  exact ⟨w, w.2, congrArg Subtype.val hw⟩

/-- On the span of the features, the values determine the params. -/
theorem span_sq (x : ι → Fin d → ℝ) : ∃ C : ℝ, ∀ w ∈ Submodule.span ℝ (Set.range x), w ⬝ᵥ w ≤ C * ∑ i, (x i ⬝ᵥ w) ^ 2 := by
  classical
  let W := Submodule.span ℝ (Set.range x)
  let f : W →ₗ[ℝ] ι → ℝ :=
    { toFun := fun w i => x i ⬝ᵥ (w : Fin d → ℝ)
      map_add' := fun a b => by
        funext i
        simp [dotProduct_add]
      map_smul' := fun c a => by
        funext i
        simp [dotProduct_smul] }
  have hf : LinearMap.ker f = ⊥ := by
    rw [LinearMap.ker_eq_bot']
    intro w hw
    have h2 : (w : Fin d → ℝ) ⬝ᵥ (w : Fin d → ℝ) = 0 := span_orth (fun i => congrFun hw i) w.2
    exact Subtype.ext (dotProduct_self_eq_zero.1 h2)
  obtain ⟨g, hg⟩ := f.exists_leftInverse_of_injective hf
  refine ⟨∑ k, ∑ i, ((g (Pi.single i 1) : W) : Fin d → ℝ) k ^ 2, fun w hw => ?_⟩
  have e : ∀ k, w k = ∑ i, (x i ⬝ᵥ w) * ((g (Pi.single i 1) : W) : Fin d → ℝ) k := fun k => by
    have h1 : g (f ⟨w, hw⟩) = ⟨w, hw⟩ := by
      have := congrArg (fun h => h ⟨w, hw⟩) hg
      simpa using this
    have h2 := LinearMap.pi_apply_eq_sum_univ g (f ⟨w, hw⟩)
    rw [h1] at h2
    have h3 := congrArg (fun v : W => (v : Fin d → ℝ) k) h2
    simp only [Submodule.coe_sum, Submodule.coe_smul, Finset.sum_apply, Pi.smul_apply, smul_eq_mul] at h3
    rw [h3]
    refine Finset.sum_congr rfl fun i _ => ?_
    have h5 : (fun j => if i = j then (1 : ℝ) else 0) = Pi.single i 1 := by
      funext j
      simp [Pi.single_apply, eq_comm]
    rw [h5]
    rfl
  have h4 : ∀ k, w k * w k ≤ (∑ i, ((g (Pi.single i 1) : W) : Fin d → ℝ) k ^ 2) * ∑ i, (x i ⬝ᵥ w) ^ 2 := fun k => by
    rw [← sq, mul_comm]
    conv_lhs => rw [e k]
    exact Finset.sum_mul_sq_le_sq_mul_sq _ _ _
  rw [Finset.sum_mul]
  exact Finset.sum_le_sum fun k _ => h4 k

end

end Coax.Loop
