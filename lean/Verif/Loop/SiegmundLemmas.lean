import Verif.Loop.ApproxLemmas

/-! Nonnegative random processes that decrease in the conditional mean, up to summable errors. -/

namespace Coax.Loop

open Filter Topology MeasureTheory

variable {Ω : Type _} {m0 : MeasurableSpace Ω} {μ : Measure Ω} [IsProbabilityMeasure μ] {ℱ : Filtration ℕ m0}

/-- The theorem of Robbins and Siegmund, for processes that are bounded at each time. -/
theorem siegmund {V X : ℕ → Ω → ℝ} {M a c : ℕ → ℝ} (hV : ∀ t, StronglyMeasurable[ℱ t] (V t)) (hX : ∀ t, StronglyMeasurable[ℱ t] (X t)) (hV0 : ∀ t ω, 0 ≤ V t ω) (hX0 : ∀ t ω, 0 ≤ X t ω) (hVM : ∀ t ω, V t ω ≤ M t) (hXM : ∀ t ω, X t ω ≤ M t)
    (ha : ∀ t, 0 ≤ a t) (hc0 : ∀ t, 0 ≤ c t) (hc : Summable c) (hstep : ∀ t, μ[V (t + 1) | ℱ t] ≤ᵐ[μ] fun ω => V t ω - a t * X t ω + c t) :
    ∀ᵐ ω ∂μ, (Summable fun t => a t * X t ω) ∧ ∃ v, Tendsto (fun t => V t ω) atTop (𝓝 v) := by
  have hVi : ∀ t, Integrable (V t) μ := fun t => Integrable.of_bound ((hV t).mono (ℱ.le _)).aestronglyMeasurable (M t) (Eventually.of_forall fun ω => by rw [Real.norm_eq_abs, abs_of_nonneg (hV0 t ω)]; exact hVM t ω)
  have hXi : ∀ t, Integrable (X t) μ := fun t => Integrable.of_bound ((hX t).mono (ℱ.le _)).aestronglyMeasurable (M t) (Eventually.of_forall fun ω => by rw [Real.norm_eq_abs, abs_of_nonneg (hX0 t ω)]; exact hXM t ω)
  let Y : ℕ → Ω → ℝ := fun t ω => ∑ s ∈ Finset.range t, (a s * X s ω - c s)
  let W : ℕ → Ω → ℝ := fun t => V t + Y t
  have hYm : ∀ t, StronglyMeasurable[ℱ t] (Y (t + 1)) := fun t => Finset.stronglyMeasurable_fun_sum _ fun s hs =>
    (((hX s).mono (ℱ.mono (by have := Finset.mem_range.1 hs; omega))).const_mul (a s)).sub stronglyMeasurable_const
  have hYm' : ∀ t, StronglyMeasurable[ℱ t] (Y t) := fun t => Finset.stronglyMeasurable_fun_sum _ fun s hs =>
    (((hX s).mono (ℱ.mono (by have := Finset.mem_range.1 hs; omega))).const_mul (a s)).sub stronglyMeasurable_const
  have hYi : ∀ t, Integrable (Y t) μ := fun t => integrable_finset_sum _ fun s _ => ((hXi s).const_mul (a s)).sub (integrable_const _)
  have hWi : ∀ t, Integrable (W t) μ := fun t => (hVi t).add (hYi t)
  have hWm : ∀ t, StronglyMeasurable[ℱ t] (W t) := fun t => (hV t).add (hYm' t)
  have hsup : Supermartingale W ℱ μ := by
    refine supermartingale_nat hWm hWi fun t => ?_
    have h1 := condExp_add (hVi (t + 1)) (hYi (t + 1)) (ℱ t)
    have h2 : μ[Y (t + 1) | ℱ t] = Y (t + 1) := condExp_of_stronglyMeasurable (ℱ.le t) (hYm t) (hYi (t + 1))
    filter_upwards [h1, hstep t] with ω h3 h4
    show (μ[V (t + 1) + Y (t + 1) | ℱ t]) ω ≤ V t ω + Y t ω
    rw [h3, Pi.add_apply, h2]
    have h5 : Y (t + 1) ω = Y t ω + (a t * X t ω - c t) := Finset.sum_range_succ _ _
    rw [h5]
    linarith
  set K : ℝ := ∑' s, c s
  have hY : ∀ t ω, -K ≤ Y t ω := fun t ω => by
    have h1 : ∑ s ∈ Finset.range t, c s ≤ K := hc.sum_le_tsum _ fun s _ => hc0 s
    have h2 : 0 ≤ ∑ s ∈ Finset.range t, a s * X s ω := Finset.sum_nonneg fun s _ => mul_nonneg (ha s) (hX0 s ω)
    show -K ≤ ∑ s ∈ Finset.range t, (a s * X s ω - c s)
    rw [Finset.sum_sub_distrib]
    linarith
  have hW : ∀ t ω, -K ≤ W t ω := fun t ω => by
    have := hY t ω
    have := hV0 t ω
    show -K ≤ V t ω + Y t ω
    linarith
  have hK : 0 ≤ K := tsum_nonneg hc0
  have hint : ∀ t, ∫ ω, W t ω ∂μ ≤ ∫ ω, W 0 ω ∂μ := fun t => by
    have := hsup.setIntegral_le (Nat.zero_le t) (MeasurableSet.univ)
    simpa using this
  have hbdd : ∀ t, eLpNorm ((-W) t) 1 μ ≤ ((Real.toNNReal ((∫ ω, W 0 ω ∂μ) + 2 * K) : NNReal) : ENNReal) := fun t => by
    rw [Pi.neg_apply, eLpNorm_neg, eLpNorm_one_eq_lintegral_enorm, ← ofReal_integral_norm_eq_lintegral_enorm (hWi t)]
    refine ENNReal.ofReal_le_ofReal ?_
    calc ∫ ω, ‖W t ω‖ ∂μ ≤ ∫ ω, (W t ω + 2 * K) ∂μ := by
          refine integral_mono (hWi t).norm ((hWi t).add (integrable_const _)) fun ω => ?_
          rw [Real.norm_eq_abs]
          exact abs_le.2 ⟨by linarith [hW t ω], by linarith⟩
      _ = ∫ ω, W t ω ∂μ + 2 * K := by rw [integral_add (hWi t) (integrable_const _)]; simp
      _ ≤ _ := by linarith [hint t]
  filter_upwards [hsup.neg.exists_ae_tendsto_of_bdd hbdd] with ω hω
  obtain ⟨l, hl⟩ := hω
  have hl' : Tendsto (fun t => W t ω) atTop (𝓝 (-l)) := by simpa using hl.neg
  obtain ⟨B, hB⟩ := hl'.bddAbove_range
  have hsum : Summable fun t => a t * X t ω := by
    refine summable_of_sum_range_le (c := B + K) (fun t => mul_nonneg (ha t) (hX0 t ω)) fun t => ?_
    have h1 : V t ω + Y t ω ≤ B := hB ⟨t, rfl⟩
    have h2 : Y t ω = ∑ s ∈ Finset.range t, a s * X s ω - ∑ s ∈ Finset.range t, c s := Finset.sum_sub_distrib _ _
    have h3 : ∑ s ∈ Finset.range t, c s ≤ K := hc.sum_le_tsum _ fun s _ => hc0 s
    linarith [hV0 t ω]
  refine ⟨hsum, -l - ∑' t, (a t * X t ω - c t), ?_⟩
  have hY' : Tendsto (fun t => Y t ω) atTop (𝓝 (∑' t, (a t * X t ω - c t))) := (hsum.sub hc).hasSum.tendsto_sum_nat
  refine (hl'.sub hY').congr fun t => ?_
  show V t ω + Y t ω - Y t ω = V t ω
  ring

/-- It is enough that the process decreases from some time on. -/
theorem siegmund_eventually {V X : ℕ → Ω → ℝ} {M a c : ℕ → ℝ} (hV : ∀ t, StronglyMeasurable[ℱ t] (V t)) (hX : ∀ t, StronglyMeasurable[ℱ t] (X t)) (hV0 : ∀ t ω, 0 ≤ V t ω) (hX0 : ∀ t ω, 0 ≤ X t ω) (hVM : ∀ t ω, V t ω ≤ M t)
    (hXM : ∀ t ω, X t ω ≤ M t) (ha : ∀ t, 0 ≤ a t) (hc0 : ∀ t, 0 ≤ c t) (hc : Summable c) (T : ℕ) (hstep : ∀ t, T ≤ t → μ[V (t + 1) | ℱ t] ≤ᵐ[μ] fun ω => V t ω - a t * X t ω + c t) :
    ∀ᵐ ω ∂μ, (Summable fun t => a t * X t ω) ∧ ∃ v, Tendsto (fun t => V t ω) atTop (𝓝 v) := by
  have h := siegmund (μ := μ) (a := fun t => if t < T then 0 else a t) (c := fun t => if t < T then |M (t + 1)| else c t) hV hX hV0 hX0 hVM hXM (fun t => by beta_reduce; split; exact le_rfl; exact ha t)
    (fun t => by beta_reduce; split; exact abs_nonneg _; exact hc0 t) ?_ ?_
  · filter_upwards [h] with ω hω
    refine ⟨?_, hω.2⟩
    rw [← summable_nat_add_iff T] at hω ⊢
    refine hω.1.congr fun t => ?_
    rw [if_neg (by omega)]
  · rw [← summable_nat_add_iff T] at hc ⊢
    refine hc.congr fun t => ?_
    rw [if_neg (by omega)]
  · intro t
    by_cases ht : t < T
    · have h1 : μ[V (t + 1) | ℱ t] ≤ᵐ[μ] μ[(fun _ => |M (t + 1)| : Ω → ℝ) | ℱ t] := by
        refine condExp_mono ?_ (integrable_const _) (Eventually.of_forall fun ω => (hVM (t + 1) ω).trans (le_abs_self _))
        exact Integrable.of_bound ((hV (t + 1)).mono (ℱ.le _)).aestronglyMeasurable (M (t + 1)) (Eventually.of_forall fun ω => by rw [Real.norm_eq_abs, abs_of_nonneg (hV0 _ ω)]; exact hVM _ ω)
      rw [condExp_const (ℱ.le t)] at h1
      filter_upwards [h1] with ω h2
      simp only [if_pos ht]
      linarith [hV0 t ω]
    · filter_upwards [hstep t (by omega)] with ω h2
      simpa only [if_neg ht] using h2

end Coax.Loop
