import Mathlib.Analysis.Calculus.MeanValue
import Mathlib.Analysis.Calculus.FDeriv.Mul
import Mathlib.Algebra.BigOperators.Field
import Mathlib.Analysis.Normed.Operator.Bilinear
import Mathlib.Topology.Algebra.InfiniteSum.Real
import Mathlib.Analysis.Normed.Group.InfiniteSum

/-! Stochastic gradient ascent along one path: if the noise sums up to something finite, the function converges and its gradient tends to zero. -/

namespace Coax.Loop

open Filter Topology

variable {E : Type _} [NormedAddCommGroup E] [NormedSpace ℝ E]

/-- `f` is bounded, and has the gradient `g` (with respect to the bilinear form `B`), which is bounded and Lipschitz continuous. -/
structure Smooth (B : E →L[ℝ] E →L[ℝ] ℝ) (f : E → ℝ) (g : E → E) (L : ℝ) : Prop where
  nonneg : 0 ≤ L
  le : ∀ x, |f x| ≤ L
  grad_le : ∀ x, ‖g x‖ ≤ L
  lip : ∀ x y, ‖g x - g y‖ ≤ L * ‖x - y‖
  deriv : ∀ x, HasFDerivAt f (B (g x)) x

variable {B : E →L[ℝ] E →L[ℝ] ℝ} {f f1 f2 : E → ℝ} {g g1 g2 : E → E} {L L1 L2 : ℝ}

theorem Smooth.close (h : Smooth B f g L) (x y : E) : |f x - f y| ≤ ‖B‖ * L * ‖x - y‖ := by
  have := Convex.norm_image_sub_le_of_norm_hasFDerivWithin_le (𝕜 := ℝ) (f := f) (f' := fun z => B (g z)) (C := ‖B‖ * L) (s := Set.univ) (x := y) (y := x) (fun z _ => (h.deriv z).hasFDerivWithinAt)
    (fun z _ => (B.le_opNorm _).trans (mul_le_mul_of_nonneg_left (h.grad_le z) (norm_nonneg _))) convex_univ (Set.mem_univ _) (Set.mem_univ _)
  simpa using this

theorem Smooth.taylor (h : Smooth B f g L) (x y : E) : |f y - f x - B (g x) (y - x)| ≤ ‖B‖ * L * ‖y - x‖ ^ 2 := by
  have := Convex.norm_image_sub_le_of_norm_hasFDerivWithin_le' (𝕜 := ℝ) (f := f) (f' := fun z => B (g z)) (φ := B (g x)) (C := ‖B‖ * (L * ‖y - x‖)) (s := Metric.closedBall x ‖y - x‖) (x := x) (y := y) (fun z _ => (h.deriv z).hasFDerivWithinAt)
    (fun z hz => by
      rw [← map_sub]
      refine (B.le_opNorm _).trans (mul_le_mul_of_nonneg_left ((h.lip z x).trans ?_) (norm_nonneg _))
      exact mul_le_mul_of_nonneg_left (by simpa [dist_eq_norm] using hz) h.nonneg) (convex_closedBall _ _) (by simp) (by simp [dist_eq_norm])
  rw [Real.norm_eq_abs] at this
  calc _ ≤ _ := this
    _ = _ := by ring

theorem Smooth.const (B : E →L[ℝ] E →L[ℝ] ℝ) (c : ℝ) : Smooth B (fun _ => c) (fun _ => 0) |c| :=
  ⟨abs_nonneg c, fun _ => le_rfl, fun _ => by simp, fun _ _ => by simp; positivity, fun x => by simpa using hasFDerivAt_const c x⟩

theorem Smooth.add (h1 : Smooth B f1 g1 L1) (h2 : Smooth B f2 g2 L2) : Smooth B (fun x => f1 x + f2 x) (fun x => g1 x + g2 x) (L1 + L2) where
  nonneg := add_nonneg h1.nonneg h2.nonneg
  le x := (abs_add_le _ _).trans (add_le_add (h1.le x) (h2.le x))
  grad_le x := (norm_add_le _ _).trans (add_le_add (h1.grad_le x) (h2.grad_le x))
  lip x y := by
    rw [add_sub_add_comm, add_mul]
    exact (norm_add_le _ _).trans (add_le_add (h1.lip x y) (h2.lip x y))
  deriv x := by
    rw [map_add]
    exact (h1.deriv x).add (h2.deriv x)

theorem Smooth.mul (h1 : Smooth B f1 g1 L1) (h2 : Smooth B f2 g2 L2) : Smooth B (fun x => f1 x * f2 x) (fun x => f1 x • g2 x + f2 x • g1 x) ((2 + 2 * ‖B‖) * (L1 * L2)+ L1 * L2) where
  nonneg := by
    have := mul_nonneg h1.nonneg h2.nonneg
    positivity
  le x := by
    have h := mul_nonneg h1.nonneg h2.nonneg
    rw [abs_mul]
    have := mul_le_mul (h1.le x) (h2.le x) (abs_nonneg _) h1.nonneg
    have : 0 ≤ (2 + 2 * ‖B‖) * (L1 * L2) := by positivity
    linarith
  grad_le x := by
    have h := mul_nonneg h1.nonneg h2.nonneg
    have e1 : ‖f1 x • g2 x‖ ≤ L1 * L2 := by
      rw [norm_smul]
      exact mul_le_mul (h1.le x) (h2.grad_le x) (norm_nonneg _) h1.nonneg
    have e2 : ‖f2 x • g1 x‖ ≤ L2 * L1 := by
      rw [norm_smul]
      exact mul_le_mul (h2.le x) (h1.grad_le x) (norm_nonneg _) h2.nonneg
    have : 0 ≤ 2 * ‖B‖ * (L1 * L2) := by positivity
    refine (norm_add_le _ _).trans ?_
    linarith
  lip x y := by
    have key : ∀ {f1 f2 : E → ℝ} {g1 g2 : E → E} {L1 L2 : ℝ}, Smooth B f1 g1 L1 → Smooth B f2 g2 L2 → ‖f1 x • g2 x - f1 y • g2 y‖ ≤ (1 + ‖B‖) * (L1 * L2) * ‖x - y‖ := by
      intro f1 f2 g1 g2 L1 L2 h1 h2
      have e : f1 x • g2 x - f1 y • g2 y = f1 x • (g2 x - g2 y) + (f1 x - f1 y) • g2 y := by
        rw [smul_sub, sub_smul]; abel
      rw [e]
      refine (norm_add_le _ _).trans ?_
      rw [norm_smul, norm_smul]
      have e1 := mul_le_mul (h1.le x) (h2.lip x y) (norm_nonneg _) h1.nonneg
      have e2 := mul_le_mul (h1.close x y) (h2.grad_le y) (norm_nonneg _) (by have := h1.nonneg; positivity)
      rw [Real.norm_eq_abs, Real.norm_eq_abs]
      calc _ ≤ _ := add_le_add e1 e2
        _ = _ := by ring
    have h := mul_nonneg h1.nonneg h2.nonneg
    rw [add_sub_add_comm]
    refine (norm_add_le _ _).trans ((add_le_add (key h1 h2) (key h2 h1)).trans ?_)
    have : 0 ≤ L1 * L2 * ‖x - y‖ := by positivity
    linarith
  deriv x := by
    have := (h1.deriv x).mul (h2.deriv x)
    rw [map_add, map_smul, map_smul]
    exact this

theorem Smooth.sum {ι : Type _} (s : Finset ι) {f : ι → E → ℝ} {g : ι → E → E} (h : ∀ i ∈ s, ∃ L, Smooth B (f i) (g i) L) : ∃ L, Smooth B (fun x => ∑ i ∈ s, f i x) (fun x => ∑ i ∈ s, g i x) L := by
  classical
  induction s using Finset.induction_on with
  | empty => exact ⟨_, by simpa using Smooth.const B 0⟩
  | insert i s hi ih =>
    obtain ⟨L1, h1⟩ := h i (Finset.mem_insert_self i s)
    obtain ⟨L2, h2⟩ := ih fun j hj => h j (Finset.mem_insert_of_mem hj)
    refine ⟨L1 + L2, ?_⟩
    simpa only [Finset.sum_insert hi] using h1.add h2

/-! ### Sequences -/

/-- If `u` is small whenever it can be seen, and cannot grow without being seen, it tends to zero. -/
theorem settles {u b : ℕ → ℝ} {M : ℝ} (hM : 0 ≤ M) (hu : ∀ k, 0 ≤ u k) (hb : ∀ k, 0 ≤ b k) (hs : Summable fun k => b k * u k ^ 2) (hd : ¬ Summable b) (hz : Tendsto b atTop (𝓝 0))
    (hg : ∀ δ > 0, ∀ᶠ k in atTop, ∀ l, k ≤ l → u l ≤ u k + M * ∑ i ∈ Finset.Ico k l, b i * u i + δ) : Tendsto u atTop (𝓝 0) := by
  rw [Metric.tendsto_atTop]
  intro ε' hε'
  set ε := ε' / 3 with he
  have hε : 0 < ε := by positivity
  have hb2 : ∀ᶠ k in atTop, M * b k < 1 / 2 := by
    have : Tendsto (fun k => M * b k) atTop (𝓝 (M * 0)) := hz.const_mul M
    rw [mul_zero] at this
    exact this.eventually_lt_const (by norm_num)
  have htail : ∀ᶠ k in atTop, ∀ l, k ≤ l → M * ∑ i ∈ Finset.Ico k l, b i * u i ^ 2 < ε ^ 2 / 2 := by
    have hc := (hs.hasSum.tendsto_sum_nat).cauchySeq
    rw [Metric.cauchySeq_iff'] at hc
    obtain ⟨N, hN⟩ := hc (ε ^ 2 / (8 * (M + 1))) (by positivity)
    filter_upwards [eventually_ge_atTop N] with k hk l hl
    have h1 := hN k hk
    have h2 := hN l (hk.trans hl)
    rw [Real.dist_eq] at h1 h2
    rw [Finset.sum_Ico_eq_sub _ hl]
    have e : (∑ i ∈ Finset.range l, b i * u i ^ 2) - ∑ i ∈ Finset.range k, b i * u i ^ 2 ≤ 2 * (ε ^ 2 / (8 * (M + 1))) := by
      have := (abs_lt.1 h1).1
      have := (abs_lt.1 h2).2
      linarith
    calc _ ≤ M * (2 * (ε ^ 2 / (8 * (M + 1)))) := mul_le_mul_of_nonneg_left e hM
      _ = ε ^ 2 / 4 * (M / (M + 1)) := by field_simp; ring
      _ ≤ ε ^ 2 / 4 * 1 := mul_le_mul_of_nonneg_left ((div_le_one (by linarith)).2 (by linarith)) (by positivity)
      _ < _ := by nlinarith
  obtain ⟨k0, hk0⟩ := eventually_atTop.1 ((hb2.and htail).and (hg (ε / 2) (by positivity)))
  have hfreq : ∃ j, k0 ≤ j ∧ u j < ε := by
    by_contra hcon
    push Not at hcon
    refine hd ?_
    have hs' : Summable fun k => (b (k + k0) * u (k + k0) ^ 2) / ε ^ 2 := ((summable_nat_add_iff k0).2 hs).div_const _
    refine (summable_nat_add_iff k0).1 (Summable.of_nonneg_of_le (fun k => hb _) (fun k => ?_) hs')
    rw [le_div_iff₀ (by positivity)]
    refine mul_le_mul_of_nonneg_left ?_ (hb _)
    exact pow_le_pow_left₀ hε.le (hcon _ (by omega)) 2
  obtain ⟨j, hj, hju⟩ := hfreq
  refine ⟨j, fun i hi => ?_⟩
  rw [Real.dist_eq, sub_zero, abs_of_nonneg (hu i)]
  by_cases hiu : u i < ε
  · linarith
  · classical
    have hne : ((Finset.Ico j i).filter fun l => u l < ε).Nonempty := by
      refine ⟨j, ?_⟩
      rw [Finset.mem_filter, Finset.mem_Ico]
      refine ⟨⟨le_rfl, lt_of_le_of_ne hi ?_⟩, hju⟩
      rintro rfl
      exact hiu hju
    set l := Finset.max' _ hne with hl
    have hmem := Finset.max'_mem _ hne
    rw [← hl, Finset.mem_filter, Finset.mem_Ico] at hmem
    obtain ⟨⟨hjl, hli⟩, hlu⟩ := hmem
    have hbig : ∀ p ∈ Finset.Ico (l + 1) i, ε ≤ u p := by
      intro p hp
      rw [Finset.mem_Ico] at hp
      by_contra hcon
      have := Finset.le_max' ((Finset.Ico j i).filter fun l => u l < ε) p (by
        rw [Finset.mem_filter, Finset.mem_Ico]
        exact ⟨⟨by omega, hp.2⟩, lt_of_not_ge hcon⟩)
      omega
    obtain ⟨⟨g1, _⟩, g3⟩ := hk0 l (by omega)
    obtain ⟨⟨_, g2⟩, _⟩ := hk0 (l + 1) (by omega)
    have h1 := g3 i hli.le
    have h2 := g2 i (by omega)
    rw [Finset.sum_eq_sum_Ico_succ_bot hli, mul_add] at h1
    have h3 : M * ∑ p ∈ Finset.Ico (l + 1) i, b p * u p ≤ ε / 2 := by
      have : ∑ p ∈ Finset.Ico (l + 1) i, b p * u p ≤ (∑ p ∈ Finset.Ico (l + 1) i, b p * u p ^ 2) / ε := by
        rw [Finset.sum_div]
        refine Finset.sum_le_sum fun p hp => ?_
        rw [le_div_iff₀ hε, mul_assoc, pow_two]
        exact mul_le_mul_of_nonneg_left (mul_le_mul_of_nonneg_left (hbig p hp) (hu p)) (hb p)
      calc _ ≤ M * ((∑ p ∈ Finset.Ico (l + 1) i, b p * u p ^ 2) / ε) := mul_le_mul_of_nonneg_left this hM
        _ = (M * ∑ p ∈ Finset.Ico (l + 1) i, b p * u p ^ 2) / ε := by ring
        _ ≤ (ε ^ 2 / 2) / ε := div_le_div_of_nonneg_right h2.le hε.le
        _ = ε / 2 := by field_simp
    have h4 : M * (b l * u l) ≤ 1 / 2 * ε := by
      rw [← mul_assoc]
      exact mul_le_mul g1.le hlu.le (hu l) (by norm_num)
    linarith

/-- Stochastic gradient ascent along one path.  `x` are the params, `y` are params that differ from these by little, and are moved by noise `a ξ`, in the direction `D`, and by something summable. -/
structure Ascent (B : E →L[ℝ] E →L[ℝ] ℝ) (g D : E → E) (x y ξ e : ℕ → E) (a b : ℕ → ℝ) (K : ℝ) : Prop where
  move : ∀ i, y (i + 1) = y i + a i • ξ i + b i • D (x i) + e i
  near : ∀ i, ‖y i - x i‖ ≤ K * a i
  noise_le : ∀ i, ‖ξ i‖ ≤ K
  b_nonneg : ∀ i, 0 ≤ b i
  b_le : ∀ i, b i ≤ a i
  squares : Summable fun i => a i ^ 2
  rest : Summable fun i => ‖e i‖
  forever : ¬ Summable b
  noise : ∃ S, Tendsto (fun k => ∑ i ∈ Finset.range k, a i • ξ i) atTop (𝓝 S)
  noise_grad : ∃ S, Tendsto (fun k => ∑ i ∈ Finset.range k, a i * B (g (x i)) (ξ i)) atTop (𝓝 S)

theorem Ascent.climbs {D : E → E} {x y ξ e : ℕ → E} {a b : ℕ → ℝ} {K : ℝ} (h : Ascent B g D x y ξ e a b K) (hK : 0 ≤ K) (hf : Smooth B f g L) (hup : ∀ z, ‖g z‖ ^ 2 ≤ B (g z) (D z)) (hdir : ∀ z, ‖D z‖ ≤ K * ‖g z‖) :
    (∃ J, Tendsto (fun i => f (x i)) atTop (𝓝 J)) ∧ Tendsto (fun i => g (x i)) atTop (𝓝 0) := by
  have ha : ∀ i, 0 ≤ a i := fun i => (h.b_nonneg i).trans (h.b_le i)
  have haz : Tendsto a atTop (𝓝 0) := by
    have h1 := h.squares.tendsto_atTop_zero.sqrt
    rw [Real.sqrt_zero] at h1
    refine h1.congr fun i => Real.sqrt_sq (ha i)
  have hbz : Tendsto b atTop (𝓝 0) := squeeze_zero h.b_nonneg h.b_le haz
  have hL := hf.nonneg
  have hN := norm_nonneg B
  -- steps
  set K' := K + K * L with hK'
  have hK0 : 0 ≤ K' := by positivity
  have hstep : ∀ i, ‖y (i + 1) - y i‖ ≤ K' * a i + ‖e i‖ := by
    intro i
    have e1 : y (i + 1) - y i = a i • ξ i + b i • D (x i) + e i := by rw [h.move]; abel
    rw [e1]
    refine (norm_add_le _ _).trans (add_le_add ((norm_add_le _ _).trans ?_) le_rfl)
    rw [norm_smul, norm_smul, Real.norm_eq_abs, Real.norm_eq_abs, abs_of_nonneg (ha i), abs_of_nonneg (h.b_nonneg i)]
    have g1 := mul_le_mul_of_nonneg_left (h.noise_le i) (ha i)
    have g2 : b i * ‖D (x i)‖ ≤ a i * (K * L) := mul_le_mul (h.b_le i) ((hdir _).trans (mul_le_mul_of_nonneg_left (hf.grad_le _) hK)) (norm_nonneg _) (ha i)
    rw [hK']
    linarith
  have hee : Summable fun i => ‖e i‖ ^ 2 := by
    have hz := h.rest.tendsto_atTop_zero
    obtain ⟨C, hC⟩ := hz.bddAbove_range
    refine Summable.of_nonneg_of_le (fun i => by positivity) (fun i => ?_) (h.rest.mul_left C)
    rw [pow_two]
    exact mul_le_mul_of_nonneg_right (hC ⟨i, rfl⟩) (norm_nonneg _)
  -- the function along `y`
  set r : ℕ → ℝ := fun i => f (y (i + 1)) - f (y i) - a i * B (g (x i)) (ξ i) - b i * B (g (x i)) (D (x i)) with hr
  have hrs : Summable fun i => |r i| := by
    have hsum : Summable fun i => (2 * (‖B‖ * L * K' ^ 2) * a i ^ 2 + 2 * (‖B‖ * L) * ‖e i‖ ^ 2) + ((‖B‖ * L * K) * (K' * a i ^ 2 + (a i ^ 2 + ‖e i‖ ^ 2)) + ‖B‖ * L * ‖e i‖) :=
      ((h.squares.mul_left _).add (hee.mul_left _)).add ((((h.squares.mul_left _).add (h.squares.add hee)).mul_left _).add (h.rest.mul_left _))
    refine Summable.of_nonneg_of_le (fun i => abs_nonneg _) (fun i => ?_) hsum
    have e1 : r i = (f (y (i + 1)) - f (y i) - B (g (y i)) (y (i + 1) - y i)) + (B (g (y i) - g (x i)) (y (i + 1) - y i) + B (g (x i)) (e i)) := by
      have e2 : y (i + 1) - y i = a i • ξ i + b i • D (x i) + e i := by rw [h.move]; abel
      have e3 : B (g (x i)) (y (i + 1) - y i) = a i * B (g (x i)) (ξ i) + b i * B (g (x i)) (D (x i)) + B (g (x i)) (e i) := by
        rw [e2, map_add, map_add, map_smul, map_smul, smul_eq_mul, smul_eq_mul]
      have e4 : B (g (y i) - g (x i)) (y (i + 1) - y i) = B (g (y i)) (y (i + 1) - y i) - B (g (x i)) (y (i + 1) - y i) := by rw [map_sub B, sub_apply]
      rw [e4, e3, hr]
      ring
    have hs := hstep i
    have hs0 : 0 ≤ K' * a i + ‖e i‖ := (norm_nonneg _).trans hs
    have b1 : |f (y (i + 1)) - f (y i) - B (g (y i)) (y (i + 1) - y i)| ≤ ‖B‖ * L * (K' * a i + ‖e i‖) ^ 2 :=
      (hf.taylor _ _).trans (mul_le_mul_of_nonneg_left (pow_le_pow_left₀ (norm_nonneg _) hs 2) (by positivity))
    have b2 : |B (g (y i) - g (x i)) (y (i + 1) - y i)| ≤ ‖B‖ * (L * (K * a i)) * (K' * a i + ‖e i‖) := by
      have := B.le_opNorm₂ (g (y i) - g (x i)) (y (i + 1) - y i)
      rw [Real.norm_eq_abs] at this
      refine this.trans (mul_le_mul (mul_le_mul_of_nonneg_left ((hf.lip _ _).trans (mul_le_mul_of_nonneg_left (h.near i) hL)) hN) hs (norm_nonneg _) ?_)
      have := ha i
      positivity
    have b3 : |B (g (x i)) (e i)| ≤ ‖B‖ * L * ‖e i‖ := by
      have := B.le_opNorm₂ (g (x i)) (e i)
      rw [Real.norm_eq_abs] at this
      exact this.trans (mul_le_mul_of_nonneg_right (mul_le_mul_of_nonneg_left (hf.grad_le _) hN) (norm_nonneg _))
    rw [e1]
    refine (abs_add_le _ _).trans (add_le_add (b1.trans ?_) ((abs_add_le _ _).trans (add_le_add (b2.trans ?_) b3)))
    · have h5 : (K' * a i + ‖e i‖) ^ 2 ≤ 2 * (K' * a i) ^ 2 + 2 * ‖e i‖ ^ 2 := by nlinarith [sq_nonneg (K' * a i - ‖e i‖)]
      calc _ ≤ ‖B‖ * L * (2 * (K' * a i) ^ 2 + 2 * ‖e i‖ ^ 2) := mul_le_mul_of_nonneg_left h5 (by positivity)
        _ = _ := by ring
    · have h5 : a i * ‖e i‖ ≤ a i ^ 2 + ‖e i‖ ^ 2 := by nlinarith [sq_nonneg (a i - ‖e i‖), sq_nonneg (a i), sq_nonneg ‖e i‖]
      calc _ = ‖B‖ * L * K * (K' * a i ^ 2 + a i * ‖e i‖) := by ring
        _ ≤ _ := mul_le_mul_of_nonneg_left (by linarith) (by positivity)
  have hpos : ∀ i, 0 ≤ b i * B (g (x i)) (D (x i)) := fun i => mul_nonneg (h.b_nonneg i) ((sq_nonneg _).trans (hup _))
  have htel : ∀ k, f (y k) = f (y 0) + ∑ i ∈ Finset.range k, a i * B (g (x i)) (ξ i) + ∑ i ∈ Finset.range k, b i * B (g (x i)) (D (x i)) + ∑ i ∈ Finset.range k, r i := by
    intro k
    induction k with
    | zero => simp
    | succ k ih =>
      rw [Finset.sum_range_succ, Finset.sum_range_succ, Finset.sum_range_succ]
      have : f (y (k + 1)) = f (y k) + a k * B (g (x k)) (ξ k) + b k * B (g (x k)) (D (x k)) + r k := by rw [hr]; ring
      rw [this, ih]
      ring
  obtain ⟨S, hS⟩ := h.noise_grad
  have hrsum := hrs.of_abs.hasSum.tendsto_sum_nat
  have hsb : Summable fun i => b i * B (g (x i)) (D (x i)) := by
    obtain ⟨C1, hC1⟩ := hS.bddBelow_range
    obtain ⟨C2, hC2⟩ := hrsum.bddBelow_range
    refine summable_of_sum_range_le (c := L + L - C1 - C2) hpos fun k => ?_
    have g1 : C1 ≤ _ := hC1 ⟨k, rfl⟩
    have g2 : C2 ≤ _ := hC2 ⟨k, rfl⟩
    have g3 := (abs_le.1 (hf.le (y k))).2
    have g4 := (abs_le.1 (hf.le (y 0))).1
    have := htel k
    simp only at g1 g2
    linarith
  have hyx : Tendsto (fun i => ‖y i - x i‖) atTop (𝓝 0) := by
    refine squeeze_zero (fun i => norm_nonneg _) h.near ?_
    simpa using haz.const_mul K
  refine ⟨⟨f (y 0) + S + ∑' i, b i * B (g (x i)) (D (x i)) + ∑' i, r i, ?_⟩, ?_⟩
  · have hy : Tendsto (fun k => f (y k)) atTop (𝓝 (f (y 0) + S + ∑' i, b i * B (g (x i)) (D (x i)) + ∑' i, r i)) := by
      refine Tendsto.congr (fun k => (htel k).symm) ?_
      exact ((hS.const_add _).add hsb.hasSum.tendsto_sum_nat).add hrsum
    have hd : Tendsto (fun k => f (y k) - f (x k)) atTop (𝓝 0) := by
      refine squeeze_zero_norm (fun k => hf.close _ _) ?_
      simpa using hyx.const_mul (‖B‖ * L)
    simpa using hy.sub hd
  · rw [tendsto_zero_iff_norm_tendsto_zero]
    have hsq : Summable fun i => b i * ‖g (x i)‖ ^ 2 := Summable.of_nonneg_of_le (fun i => mul_nonneg (h.b_nonneg i) (sq_nonneg _)) (fun i => mul_le_mul_of_nonneg_left (hup _) (h.b_nonneg i)) hsb
    refine settles (M := L * K) (by positivity) (fun i => norm_nonneg _) h.b_nonneg hsq h.forever hbz ?_
    intro δ hδ
    obtain ⟨S', hS'⟩ := h.noise
    set δ' := δ / (4 * (L + 1)) with hd'
    have hδ' : 0 < δ' := by positivity
    have c1 := Metric.cauchySeq_iff'.1 hS'.cauchySeq (δ' / 2) (by positivity)
    have c2 := Metric.cauchySeq_iff'.1 h.rest.hasSum.tendsto_sum_nat.cauchySeq (δ' / 2) (by positivity)
    have c3 := hyx.eventually_lt_const hδ'
    obtain ⟨N1, hN1⟩ := c1
    obtain ⟨N2, hN2⟩ := c2
    obtain ⟨N3, hN3⟩ := eventually_atTop.1 c3
    filter_upwards [eventually_ge_atTop N1, eventually_ge_atTop N2, eventually_ge_atTop N3] with k k1 k2 k3 l hl
    have etel : ∀ l, k ≤ l → y l - y k = (∑ i ∈ Finset.range l, a i • ξ i - ∑ i ∈ Finset.range k, a i • ξ i) + (∑ i ∈ Finset.Ico k l, b i • D (x i)) + ∑ i ∈ Finset.Ico k l, e i := by
      intro l hl
      induction l, hl using Nat.le_induction with
      | base => simp
      | succ l hl ih =>
        rw [Finset.sum_range_succ, Finset.sum_Ico_succ_top hl, Finset.sum_Ico_succ_top hl]
        have : y (l + 1) - y k = (y l - y k) + (a l • ξ l + b l • D (x l) + e l) := by rw [h.move]; abel
        rw [this, ih]
        abel
    have b1 : ‖∑ i ∈ Finset.range l, a i • ξ i - ∑ i ∈ Finset.range k, a i • ξ i‖ < δ' := by
      have g1 := hN1 l (k1.trans hl)
      have g2 := hN1 k k1
      rw [dist_comm] at g2
      have := dist_triangle (∑ i ∈ Finset.range l, a i • ξ i) (∑ i ∈ Finset.range N1, a i • ξ i) (∑ i ∈ Finset.range k, a i • ξ i)
      rw [← dist_eq_norm]
      linarith
    have b2 : ‖∑ i ∈ Finset.Ico k l, e i‖ < δ' := by
      refine (norm_sum_le _ _).trans_lt ?_
      rw [Finset.sum_Ico_eq_sub _ hl]
      have g1 := hN2 l (k2.trans hl)
      have g2 := hN2 k k2
      rw [Real.dist_eq] at g1 g2
      have := (abs_lt.1 g1).2
      have := (abs_lt.1 g2).1
      linarith
    have b3 : ‖∑ i ∈ Finset.Ico k l, b i • D (x i)‖ ≤ K * ∑ i ∈ Finset.Ico k l, b i * ‖g (x i)‖ := by
      refine (norm_sum_le _ _).trans ?_
      rw [Finset.mul_sum]
      refine Finset.sum_le_sum fun i _ => ?_
      rw [norm_smul, Real.norm_eq_abs, abs_of_nonneg (h.b_nonneg i)]
      calc _ ≤ b i * (K * ‖g (x i)‖) := mul_le_mul_of_nonneg_left (hdir _) (h.b_nonneg i)
        _ = _ := by ring
    have b4 := hN3 k k3
    have b5 := hN3 l (k3.trans hl)
    have hyy : ‖y l - y k‖ ≤ 2 * δ' + K * ∑ i ∈ Finset.Ico k l, b i * ‖g (x i)‖ := by
      rw [etel l hl]
      refine (norm_add_le _ _).trans ((add_le_add_left (norm_add_le _ _) _).trans ?_)
      linarith
    have hxx : ‖x l - x k‖ ≤ 4 * δ' + K * ∑ i ∈ Finset.Ico k l, b i * ‖g (x i)‖ := by
      have e1 : x l - x k = -(y l - x l) + (y l - y k) + (y k - x k) := by abel
      rw [e1]
      refine (norm_add_le _ _).trans ((add_le_add_left (norm_add_le _ _) _).trans ?_)
      rw [norm_neg]
      linarith
    have h1 := (norm_sub_norm_le (g (x l)) (g (x k))).trans ((hf.lip _ _).trans (mul_le_mul_of_nonneg_left hxx hL))
    have h2 : L * (4 * δ') ≤ δ := by
      rw [hd']
      calc L * (4 * (δ / (4 * (L + 1)))) = δ * (L / (L + 1)) := by field_simp
        _ ≤ δ * 1 := mul_le_mul_of_nonneg_left ((div_le_one (by linarith)).2 (by linarith)) hδ.le
        _ = δ := mul_one δ
    linarith

end Coax.Loop
