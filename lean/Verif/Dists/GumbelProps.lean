import Verif.Dists.CategoricalProps
import Verif.Core.ValuePolicy
import Mathlib.MeasureTheory.Constructions.Pi
import Mathlib.MeasureTheory.Integral.IntegralEqImproper
import Mathlib.Analysis.SpecialFunctions.Integrals.Basic
import Mathlib.MeasureTheory.Integral.IntervalIntegral.Basic
import Mathlib.Analysis.SpecialFunctions.Pow.Real
import Mathlib.Tactic

/-! Properties C62 and C63: the distribution of sampled discrete actions, and the log-propensity that comes with them. -/

namespace Coax.Dists

open MeasureTheory Set

variable {n : Nat}

/-- Independent uniform random numbers in (0, 1). -/
noncomputable def uniforms (n : Nat) : Measure (Fin n → ℝ) := Measure.pi (fun _ => volume.restrict (Ioo (0 : ℝ) 1))

theorem restrict_Iic {t : ℝ} (h0 : 0 ≤ t) (h1 : t ≤ 1) : (volume.restrict (Ioo (0 : ℝ) 1)) (Iic t) = ENNReal.ofReal t := by
  rw [Measure.restrict_apply measurableSet_Iic]
  rcases eq_or_lt_of_le h1 with rfl | h1
  · have : Iic (1 : ℝ) ∩ Ioo 0 1 = Ioo 0 1 := by ext x; simp; intro _ h; exact h.le
    rw [this]; simp
  · have : Iic t ∩ Ioo 0 1 = Ioc 0 t := by
      ext x; simp only [mem_inter_iff, mem_Iic, mem_Ioo, mem_Ioc]
      constructor
      · rintro ⟨a, b, _⟩; exact ⟨b, a⟩
      · rintro ⟨a, b⟩; exact ⟨b, a, by linarith⟩
    rw [this]; simp

/-- The volume of the set on which coordinate `a` wins the race with rates `p`. -/
theorem race {m : Nat} (a : Fin (m + 1)) (p : Fin (m + 1) → ℝ) (hp : ∀ j, 0 < p j) (hs : ∑ j, p j = 1) :
    uniforms (m + 1) {u | ∀ j, u (a.succAbove j) ≤ u a ^ (p (a.succAbove j) / p a)} = ENNReal.ofReal (p a) := by
  have hmp := measurePreserving_piFinSuccAbove (fun _ : Fin (m + 1) => volume.restrict (Ioo (0 : ℝ) 1)) a
  set W : Set (ℝ × (Fin m → ℝ)) := {x | ∀ j, x.2 j ≤ x.1 ^ (p (a.succAbove j) / p a)} with hW
  have hWm : MeasurableSet W := by
    have : W = ⋂ j, {x : ℝ × (Fin m → ℝ) | x.2 j ≤ x.1 ^ (p (a.succAbove j) / p a)} := by ext x; simp [hW]
    rw [this]
    refine MeasurableSet.iInter (fun j => measurableSet_le (by fun_prop) (by fun_prop))
  have hpre : {u : Fin (m + 1) → ℝ | ∀ j, u (a.succAbove j) ≤ u a ^ (p (a.succAbove j) / p a)} =
      (MeasurableEquiv.piFinSuccAbove (fun _ => ℝ) a) ⁻¹' W := rfl
  unfold uniforms
  rw [hpre, hmp.measure_preimage hWm.nullMeasurableSet, Measure.prod_apply hWm]
  set c : ℝ := ∑ j, p (a.succAbove j) / p a with hc
  have hc0 : 0 ≤ c := Finset.sum_nonneg (fun j _ => (div_pos (hp _) (hp _)).le)
  have hslice : ∀ t ∈ Ioo (0 : ℝ) 1, (Measure.pi (fun _ : Fin m => volume.restrict (Ioo (0 : ℝ) 1))) (Prod.mk t ⁻¹' W) = ENNReal.ofReal (t ^ c) := by
    intro t ht
    have : Prod.mk t ⁻¹' W = Set.pi univ (fun j => Iic (t ^ (p (a.succAbove j) / p a))) := by
      ext v; simp only [hW, mem_preimage, mem_ofPred_eq, Set.mem_pi, mem_univ, forall_const, mem_Iic]
    rw [this, Measure.pi_pi]
    have hr : ∀ j, (volume.restrict (Ioo (0 : ℝ) 1)) (Iic (t ^ (p (a.succAbove j) / p a))) = ENNReal.ofReal (t ^ (p (a.succAbove j) / p a)) :=
      fun j => restrict_Iic (Real.rpow_nonneg ht.1.le _) (Real.rpow_le_one ht.1.le ht.2.le (div_pos (hp _) (hp _)).le)
    simp only [hr]
    rw [← ENNReal.ofReal_prod_of_nonneg (fun j _ => Real.rpow_nonneg ht.1.le _), hc, Real.rpow_sum_of_pos ht.1]
  rw [setLIntegral_congr_fun measurableSet_Ioo hslice]
  have hint : IntegrableOn (fun t : ℝ => t ^ c) (Ioo 0 1) := by
    have := intervalIntegral.intervalIntegrable_rpow' (a := 0) (b := 1) (r := c) (by linarith)
    rw [intervalIntegrable_iff_integrableOn_Ioo_of_le (by norm_num)] at this
    exact this
  rw [← ofReal_integral_eq_lintegral_ofReal hint
    ((ae_restrict_iff' measurableSet_Ioo).2 (Filter.Eventually.of_forall (fun t ht => Real.rpow_nonneg ht.1.le _)))]
  congr 1
  have hv : ∫ t in Ioo (0 : ℝ) 1, t ^ c = 1 / (c + 1) := by
    have := integral_rpow (a := 0) (b := 1) (r := c) (.inl (by linarith))
    rw [intervalIntegral.integral_of_le (by norm_num), integral_Ioc_eq_integral_Ioo] at this
    rw [this, Real.one_rpow, Real.zero_rpow (by linarith), sub_zero]
  rw [hv]
  have hsum : c + 1 = 1 / p a := by
    rw [Fin.sum_univ_succAbove _ a] at hs
    rw [hc, ← Finset.sum_div, eq_div_iff (hp a).ne', add_mul, div_mul_cancel₀ _ (hp a).ne']
    linarith
  rw [hsum, one_div_one_div]

instance : IsProbabilityMeasure (volume.restrict (Ioo (0 : ℝ) 1)) := ⟨by simp⟩

instance : IsProbabilityMeasure (uniforms n) := by unfold uniforms; infer_instance

theorem uniforms_cube : uniforms n (Set.pi univ (fun _ => Ioo (0 : ℝ) 1))ᶜ = 0 := by
  rw [prob_compl_eq_zero_iff₀ (MeasurableSet.univ_pi (fun _ => measurableSet_Ioo)).nullMeasurableSet]
  unfold uniforms
  rw [Measure.pi_pi]; simp

/-- A coordinate is maximal among the perturbed log-probabilities exactly if it wins the race. -/
theorem wins {p u : Fin n → ℝ} (hp : ∀ j, 0 < p j) (hu : ∀ j, u j ∈ Ioo (0 : ℝ) 1) (a j : Fin n)
    (h : Real.log (p j) - Real.log (-Real.log (u j)) ≤ Real.log (p a) - Real.log (-Real.log (u a))) : u j ≤ u a ^ (p j / p a) := by
  have hl : ∀ j, 0 < -Real.log (u j) := fun j => by have := Real.log_neg (hu j).1 (hu j).2; linarith
  rw [← Real.log_div (hp j).ne' (hl j).ne', ← Real.log_div (hp a).ne' (hl a).ne',
    Real.log_le_log_iff (div_pos (hp j) (hl j)) (div_pos (hp a) (hl a)), div_le_div_iff₀ (hl j) (hl a)] at h
  rw [← Real.log_le_log_iff (hu j).1 (Real.rpow_pos_of_pos (hu a).1 _), Real.log_rpow (hu a).1, div_mul_eq_mul_div,
    le_div_iff₀ (hp a)]
  linarith

/-- C62.  With uniform random numbers, `sample` followed by `postprocess_variate` gives every action with exactly its
probability, whatever the sharpness of the Gumbel-softmax is and however ties are broken. -/
theorem C62_sample_distribution {draw : List (Fin n) → Option (Fin n)} (hd : Draws draw) {tau : ℝ} (htau : 0 < tau)
    (z : Fin n → ℝ) (a : Fin n) :
    uniforms n {u | argmax draw (sampleRow tau u z) = some a} = ENNReal.ofReal (meanRow z a) := by
  obtain ⟨m, rfl⟩ : ∃ m, n = m + 1 := ⟨n - 1, by have := a.pos; omega⟩
  have hp : ∀ j, 0 < meanRow z j := (C49_probabilities z).1
  have hs : ∑ j, meanRow z j = 1 := (C49_probabilities z).2 (by omega)
  -- every action is drawn with at most its probability
  have hle : ∀ b, uniforms (m + 1) {u | argmax draw (sampleRow tau u z) = some b} ≤ ENNReal.ofReal (meanRow z b) := by
    intro b
    rw [← race b (meanRow z) hp hs]
    refine measure_mono_ae ?_
    have h0 : ∀ᵐ u ∂uniforms (m + 1), u ∈ Set.pi univ (fun _ : Fin (m + 1) => Ioo (0 : ℝ) 1) := by
      rw [ae_iff]; exact uniforms_cube
    filter_upwards [h0] with u hu hb
    intro j
    obtain ⟨b', hb', hmax⟩ := (C49_sample hd (by omega) htau u z).2.2
    have e : some b' = some b := hb'.symm.trans hb
    cases e
    exact wins hp (fun j => hu j (mem_univ j)) _ _ (hmax _)
  -- some action is always drawn
  have hcover : (1 : ENNReal) ≤ ∑ b, uniforms (m + 1) {u | argmax draw (sampleRow tau u z) = some b} := by
    have : (univ : Set (Fin (m + 1) → ℝ)) ⊆ ⋃ b, {u | argmax draw (sampleRow tau u z) = some b} := by
      intro u _
      obtain ⟨b, hb, _⟩ := (C49_sample hd (by omega) htau u z).2.2
      exact mem_iUnion.2 ⟨b, hb⟩
    calc (1 : ENNReal) = uniforms (m + 1) univ := by simp
      _ ≤ _ := measure_mono this
      _ ≤ _ := measure_iUnion_fintype_le _ _
  refine le_antisymm (hle a) ?_
  have htot : ∑ b, ENNReal.ofReal (meanRow z b) = 1 := by
    rw [← ENNReal.ofReal_sum_of_nonneg (fun b _ => (hp b).le), hs, ENNReal.ofReal_one]
  rw [← htot, Fin.sum_univ_succAbove _ a, Fin.sum_univ_succAbove _ a] at hcover
  have hrest : ∑ j, uniforms (m + 1) {u | argmax draw (sampleRow tau u z) = some (a.succAbove j)} ≤ ∑ j, ENNReal.ofReal (meanRow z (a.succAbove j)) :=
    Finset.sum_le_sum (fun j _ => hle _)
  have hfin : ∑ j, ENNReal.ofReal (meanRow z (a.succAbove j)) ≠ ⊤ := ENNReal.sum_ne_top.2 (fun j _ => ENNReal.ofReal_ne_top)
  exact (ENNReal.add_le_add_iff_right hfin).1 (hcover.trans (add_le_add_right hrest _))

end Coax.Dists
