import Verif.Utils.Quantiles
import Mathlib.Analysis.SumIntegralComparisons
import Mathlib.MeasureTheory.Constructions.Pi
import Mathlib.MeasureTheory.Integral.Pi
import Mathlib.MeasureTheory.Integral.Bochner.Set
import Mathlib.MeasureTheory.Measure.Lebesgue.Basic
import Mathlib.Tactic.Linarith
import Mathlib.Tactic.FieldSimp

/-! Property C80: quantile fractions and their embedding. -/

namespace Coax.Utils

open MeasureTheory

/-! ### Random fractions -/

theorem length_cumsum (a : ℝ) (l : List ℝ) : (cumsum a l).length = l.length := by
  induction l generalizing a with
  | nil => rfl
  | cons x xs ih => simp [cumsum, ih]

theorem getElem_cumsum (a : ℝ) (l : List ℝ) (i : Nat) (h : i < (cumsum a l).length) : (cumsum a l)[i] = a + (l.take (i + 1)).sum := by
  induction l generalizing a i with
  | nil => simp [cumsum] at h
  | cons x xs ih =>
    cases i with
    | zero => simp [cumsum]
    | succ i =>
      simp only [cumsum, List.getElem_cons_succ, List.take_succ_cons, List.sum_cons]
      rw [ih]; ring

/-- The end of the `i`-th part when the unit interval is split into parts with lengths proportional to `u`. -/
noncomputable def splitPoint {n : Nat} (u : Fin n → ℝ) (i : Fin n) : ℝ := (∑ j ∈ Finset.univ.filter (fun j => j ≤ i), u j) / ∑ j, u j

theorem sum_take_ofFn {n : Nat} (u : Fin n → ℝ) (i : Fin n) : ((List.ofFn u).take (i + 1)).sum = ∑ j ∈ Finset.univ.filter (fun j => j ≤ i), u j := by
  rw [List.sum_take_ofFn]
  refine Finset.sum_congr ?_ fun _ _ => rfl
  ext j
  simp only [Finset.mem_filter, Finset.mem_univ, true_and, Fin.le_def]
  omega

theorem uniform_row {n : Nat} (u : Fin n → ℝ) (h : 0 < ∑ i, u i) : quantilesUniformRow (List.ofFn u) = some (List.ofFn (splitPoint u)) := by
  unfold quantilesUniformRow
  rw [if_neg (by rw [List.sum_ofFn]; rintro ⟨-, h'⟩; exact h.ne' h')]
  congr 1
  apply List.ext_getElem
  · simp [length_cumsum]
  · intro i h1 h2
    have hi : i < n := by simpa using h2
    rw [getElem_cumsum, List.getElem_ofFn, List.map_ofFn, sum_take_ofFn _ ⟨i, hi⟩, zero_add, List.sum_ofFn]
    unfold splitPoint
    rw [Finset.sum_div]
    rfl

/-- C80: whatever the random numbers, the fractions split the unit interval: they do not decrease, they lie between 0 and 1, the last one is 1, and the lengths of the parts are proportional
to the random numbers. -/
theorem C80_split {n : Nat} (hn : 0 < n) (u : Fin n → ℝ) (h0 : ∀ i, 0 ≤ u i) (h : 0 < ∑ i, u i) :
    ∃ tau : Fin n → ℝ, quantilesUniformRow (List.ofFn u) = some (List.ofFn tau) ∧ Monotone tau ∧ (∀ i, 0 ≤ tau i ∧ tau i ≤ 1) ∧ tau ⟨n - 1, by omega⟩ = 1 ∧
      tau ⟨0, hn⟩ = u ⟨0, hn⟩ / ∑ j, u j ∧ ∀ i (hi : i + 1 < n), tau ⟨i + 1, hi⟩ - tau ⟨i, by omega⟩ = u ⟨i + 1, hi⟩ / ∑ j, u j := by
  have hmono : Monotone (splitPoint u) := by
    intro i j hij
    unfold splitPoint
    refine div_le_div_of_nonneg_right (Finset.sum_le_sum_of_subset_of_nonneg ?_ fun k _ _ => h0 k) h.le
    intro k hk
    simp only [Finset.mem_filter, Finset.mem_univ, true_and] at hk ⊢
    exact hk.trans hij
  have hlast : splitPoint u ⟨n - 1, by omega⟩ = 1 := by
    unfold splitPoint
    rw [Finset.filter_true_of_mem, div_self h.ne']
    intro j _
    have := j.2
    rw [Fin.le_def]; simp only; omega
  refine ⟨splitPoint u, uniform_row u h, hmono, fun i => ⟨?_, ?_⟩, hlast, ?_, ?_⟩
  · unfold splitPoint
    exact div_nonneg (Finset.sum_nonneg fun k _ => h0 k) h.le
  · rw [← hlast]
    refine hmono ?_
    rw [Fin.le_def]; have := i.2; simp only; omega
  · unfold splitPoint
    congr 1
    have : Finset.univ.filter (fun j : Fin n => j ≤ ⟨0, hn⟩) = {⟨0, hn⟩} := by
      ext j; simp [Fin.le_def, Fin.ext_iff]
    rw [this, Finset.sum_singleton]
  · intro i hi
    unfold splitPoint
    have : Finset.univ.filter (fun j : Fin n => j ≤ ⟨i + 1, hi⟩) = insert ⟨i + 1, hi⟩ (Finset.univ.filter (fun j : Fin n => j ≤ ⟨i, by omega⟩)) := by
      ext j; simp [Fin.le_def, Fin.ext_iff]; omega
    rw [this, Finset.sum_insert (by simp [Fin.le_def]), ← sub_div]
    congr 1
    ring

/-- `n` independent random numbers, uniform on the unit interval. -/
noncomputable def uniforms (n : Nat) : Measure (Fin n → ℝ) := Measure.pi fun _ => volume.restrict (Set.Icc 0 1)

instance : IsProbabilityMeasure (volume.restrict (Set.Icc (0 : ℝ) 1)) := ⟨by simp⟩

instance (n : Nat) : IsProbabilityMeasure (uniforms n) := by unfold uniforms; infer_instance

theorem ae_unit (n : Nat) : ∀ᵐ u ∂uniforms n, ∀ i, 0 ≤ u i := by
  rw [ae_all_iff]
  intro i
  have h : ∀ᵐ x ∂(volume.restrict (Set.Icc (0 : ℝ) 1)), 0 ≤ x := by
    filter_upwards [ae_restrict_mem (μ := (volume : Measure ℝ)) (s := Set.Icc (0 : ℝ) 1) measurableSet_Icc] with x hx using hx.1
  exact (Measure.quasiMeasurePreserving_eval (fun _ : Fin n => volume.restrict (Set.Icc (0 : ℝ) 1)) i).ae h

theorem ae_pos {n : Nat} (hn : 0 < n) : ∀ᵐ u ∂uniforms n, 0 < ∑ i, u i := by
  have h : ∀ᵐ x ∂(volume.restrict (Set.Icc (0 : ℝ) 1)), x ≠ 0 := by
    refine ae_restrict_of_ae ?_
    exact (measure_eq_zero_iff_ae_notMem.1 (measure_singleton (0 : ℝ))).mono fun x hx => by simpa using hx
  have h0 : ∀ᵐ u ∂uniforms n, u ⟨0, hn⟩ ≠ 0 := (Measure.quasiMeasurePreserving_eval (fun _ : Fin n => volume.restrict (Set.Icc (0 : ℝ) 1)) ⟨0, hn⟩).ae h
  filter_upwards [ae_unit n, h0] with u h1 h2
  exact Finset.sum_pos' (fun i _ => h1 i) ⟨_, Finset.mem_univ _, lt_of_le_of_ne (h1 _) h2.symm⟩

/-- The share of the `i`-th number. -/
noncomputable def share {n : Nat} (i : Fin n) (u : Fin n → ℝ) : ℝ := u i / ∑ j, u j

theorem measurable_share {n : Nat} (i : Fin n) : Measurable (share i) := by unfold share; fun_prop

theorem share_bound {n : Nat} (i : Fin n) : ∀ᵐ u ∂uniforms n, ‖share i u‖ ≤ 1 := by
  have hn : 0 < n := lt_of_le_of_lt (Nat.zero_le _) i.2
  filter_upwards [ae_unit n, ae_pos hn] with u h1 h2
  unfold share
  rw [Real.norm_eq_abs, abs_of_nonneg (div_nonneg (h1 i) h2.le), div_le_one h2]
  exact Finset.single_le_sum (fun j _ => h1 j) (Finset.mem_univ i)

theorem integrable_share {n : Nat} (i : Fin n) : Integrable (share i) (uniforms n) :=
  Integrable.of_bound (measurable_share i).aestronglyMeasurable 1 (share_bound i)

theorem share_perm {n : Nat} (i j : Fin n) : ∫ u, share i u ∂uniforms n = ∫ u, share j u ∂uniforms n := by
  have hp := measurePreserving_piCongrLeft (fun _ : Fin n => volume.restrict (Set.Icc (0 : ℝ) 1)) (Equiv.swap i j)
  have h := hp.integral_comp' (g := share i)
  unfold uniforms
  rw [← h]
  refine integral_congr_ae (Filter.Eventually.of_forall fun u => ?_)
  have hu : ∀ k, (MeasurableEquiv.piCongrLeft (fun _ : Fin n => ℝ) (Equiv.swap i j)) u k = u (Equiv.swap i j k) := by
    intro k
    have := Equiv.piCongrLeft_apply_apply (P := fun _ : Fin n => ℝ) (Equiv.swap i j) u (Equiv.swap i j k)
    have h2 : Equiv.swap i j (Equiv.swap i j k) = k := by simp
    rw [h2] at this
    exact this
  show share i _ = share j u
  unfold share
  have : ∑ k, (MeasurableEquiv.piCongrLeft (fun _ : Fin n => ℝ) (Equiv.swap i j)) u k = ∑ k, u k := by
    simp only [hu]
    exact Equiv.sum_comp (Equiv.swap i j) u
  rw [this, hu, Equiv.swap_apply_left]

theorem integral_share {n : Nat} (i : Fin n) : ∫ u, share i u ∂uniforms n = 1 / n := by
  have hn : 0 < n := lt_of_le_of_lt (Nat.zero_le _) i.2
  have hs : ∑ j, ∫ u, share j u ∂uniforms n = 1 := by
    rw [← integral_finsetSum _ fun j _ => integrable_share j]
    have : ∫ u, ∑ j, share j u ∂uniforms n = ∫ _, (1 : ℝ) ∂uniforms n := by
      refine integral_congr_ae ?_
      filter_upwards [ae_pos hn] with u h
      unfold share
      rw [← Finset.sum_div, div_self h.ne']
    rw [this]; simp
  rw [Finset.sum_congr rfl fun j _ => share_perm j i, Finset.sum_const, Finset.card_univ, Fintype.card_fin, nsmul_eq_mul] at hs
  have : (n : ℝ) ≠ 0 := by positivity
  field_simp
  linarith

/-- C80: all parts have the same expected length: the expectation of the `i`-th fraction is `(i+1)/n`. -/
theorem C80_expected {n : Nat} (i : Fin n) : ∫ u, splitPoint u i ∂uniforms n = ((i : ℝ) + 1) / n ∧ (∀ᵐ u ∂uniforms n, quantilesUniformRow (List.ofFn u) = some (List.ofFn (splitPoint u))) := by
  have hn : 0 < n := lt_of_le_of_lt (Nat.zero_le _) i.2
  refine ⟨?_, (ae_pos hn).mono fun u h => uniform_row u h⟩
  have e : ∀ u : Fin n → ℝ, splitPoint u i = ∑ j ∈ Finset.univ.filter (fun j => j ≤ i), share j u := by
    intro u; unfold splitPoint share; rw [Finset.sum_div]
  simp only [e]
  rw [integral_finsetSum _ fun j _ => integrable_share j, Finset.sum_congr rfl fun j _ => integral_share j, Finset.sum_const, nsmul_eq_mul]
  have hc : (Finset.univ.filter (fun j : Fin n => j ≤ i)).card = i + 1 := by
    have : Finset.univ.filter (fun j : Fin n => j ≤ i) = Finset.Iic i := by ext j; simp
    rw [this, Fin.card_Iic]
  rw [hc]; push_cast; ring

/-- So the fractions are not a sample of the uniform distribution: their expected average exceeds 1/2, for every number of quantiles. -/
theorem C80_uniform_biased {n : Nat} (hn : 0 < n) : (∑ i : Fin n, ∫ u, splitPoint u i ∂uniforms n) / n = 1 / 2 + 1 / (2 * n) := by
  simp only [fun i : Fin n => (C80_expected i).1]
  rw [← Finset.sum_div]
  have h : ∑ i : Fin n, ((i : ℝ) + 1) = n * (n + 1) / 2 := by
    rw [Finset.sum_range (fun i => (i : ℝ) + 1) |>.symm]
    clear hn
    induction n with
    | zero => simp
    | succ n ih => rw [Finset.sum_range_succ, ih]; push_cast; ring
  rw [h]
  have : (n : ℝ) ≠ 0 := by positivity
  field_simp

/-! ### Fixed fractions -/

/-- C80: `quantiles` returns for each sample the left ends of `n` intervals of equal length that make up the unit interval. -/
theorem C80_equal (B n : Nat) : (quantiles B n).length = B ∧ ∀ row ∈ quantiles B n, row = List.ofFn (fun i : Fin n => (i : ℝ) / n) := by
  unfold quantiles
  refine ⟨by simp, fun row h => ?_⟩
  rw [(List.mem_replicate.1 h).2]
  apply List.ext_getElem <;> simp

/-- The value of a distribution whose quantile function is `Q`, as it is estimated from exactly these quantiles with equal weights: it is never more than the mean of the distribution, and
falls short of it by at most `(Q 1 - Q 0)/n`. -/
theorem C80_value_bias {n : Nat} (hn : 0 < n) {Q : ℝ → ℝ} (hQ : MonotoneOn Q (Set.Icc 0 1)) (row : List ℝ) (h : row ∈ quantiles 1 n) :
    (row.map Q).sum / n ≤ ∫ t in (0 : ℝ)..1, Q t ∧ (∫ t in (0 : ℝ)..1, Q t) - (row.map Q).sum / n ≤ (Q 1 - Q 0) / n := by
  have hn' : (0 : ℝ) < n := by exact_mod_cast hn
  obtain rfl := (C80_equal 1 n).2 row h
  have hm : MonotoneOn (fun x => Q (x / n)) (Set.Icc (0 : ℝ) (0 + n)) := by
    intro x hx y hy hxy
    have hx' : 0 ≤ x ∧ x ≤ n := by simpa using hx
    have hy' : 0 ≤ y ∧ y ≤ n := by simpa using hy
    refine hQ ⟨div_nonneg hx'.1 hn'.le, (div_le_one hn').2 hx'.2⟩ ⟨div_nonneg hy'.1 hn'.le, (div_le_one hn').2 hy'.2⟩ (div_le_div_of_nonneg_right hxy hn'.le)
  have h1 := hm.sum_le_integral
  have h2 := hm.integral_le_sum
  have hi : ∫ x in (0 : ℝ)..(0 + n), Q (x / n) = n * ∫ t in (0 : ℝ)..1, Q t := by
    rw [intervalIntegral.integral_comp_div (fun t => Q t) hn'.ne', smul_eq_mul]
    congr 2
    · simp
    · rw [zero_add, div_self hn'.ne']
  rw [hi] at h1 h2
  have hs : ((List.ofFn (fun i : Fin n => (i : ℝ) / n)).map Q).sum = ∑ i ∈ Finset.range n, Q ((0 + (i : ℝ)) / n) := by
    rw [List.map_ofFn, List.sum_ofFn, Finset.sum_range]
    simp
  have htel : ∑ i ∈ Finset.range n, Q ((0 + ((i + 1 : ℕ) : ℝ)) / n) = ∑ i ∈ Finset.range n, Q ((0 + (i : ℝ)) / n) + (Q 1 - Q 0) := by
    have := Finset.sum_range_succ' (fun i : ℕ => Q ((0 + (i : ℝ)) / n)) n
    have h3 := Finset.sum_range_succ (fun i : ℕ => Q ((0 + (i : ℝ)) / n)) n
    simp only [zero_add, Nat.cast_zero, zero_div, div_self hn'.ne'] at this h3 ⊢
    linarith
  rw [hs]
  constructor
  · rw [div_le_iff₀ hn']; linarith
  · rw [htel] at h2
    rw [sub_le_iff_le_add, ← add_div, le_div_iff₀ hn']; linarith

/-! ### Embedding -/

/-- C80: with at least one feature, different fractions have different embeddings, whose entries lie between -1 and 1. -/
theorem C80_embedding {n : Nat} (hn : 0 < n) : Set.InjOn (cosEmbedding n) (Set.Icc 0 1) ∧
    ∀ tau, (cosEmbedding n tau).length = n ∧ ∀ x ∈ cosEmbedding n tau, -1 ≤ x ∧ x ≤ 1 := by
  constructor
  · intro a ha b hb h
    obtain ⟨m, rfl⟩ : ∃ m, n = m + 1 := ⟨n - 1, by omega⟩
    unfold cosEmbedding at h
    rw [List.range_succ_eq_map] at h
    simp only [List.map_cons, List.cons.injEq, Nat.cast_zero, zero_add, one_mul] at h
    have hpi := Real.pi_pos
    have := Real.injOn_cos ⟨by nlinarith [ha.1], by nlinarith [ha.2]⟩ ⟨by nlinarith [hb.1], by nlinarith [hb.2]⟩ h.1
    exact mul_left_cancel₀ hpi.ne' this
  · intro tau
    refine ⟨by simp [cosEmbedding], fun x hx => ?_⟩
    obtain ⟨i, -, rfl⟩ := List.mem_map.1 hx
    exact ⟨Real.neg_one_le_cos _, Real.cos_le_one _⟩

/-- The embedding of the documentation: features `0, ..., n-1`. -/
noncomputable def documentedEmbedding (n : Nat) (tau : ℝ) : List ℝ := (List.range n).map fun i : Nat => Real.cos (tau * i * Real.pi)

/-- The code's features are the documented ones shifted by one: the constant feature 0 is left out, and feature `n` is added. -/
theorem C80_embedding_shift (n : Nat) (tau : ℝ) : documentedEmbedding (n + 1) tau = 1 :: cosEmbedding n tau := by
  unfold documentedEmbedding cosEmbedding
  rw [List.range_succ_eq_map]
  simp only [List.map_cons, Nat.cast_zero, mul_zero, zero_mul, Real.cos_zero, List.map_map, List.cons.injEq, true_and]
  refine List.map_congr_left fun i _ => ?_
  simp only [Function.comp, Nat.succ_eq_add_one]
  push_cast
  congr 1
  ring

/-- So what is computed is not what is documented. -/
theorem C80_embedding_counterexample : cosEmbedding 1 1 ≠ documentedEmbedding 1 1 := by
  simp [cosEmbedding, documentedEmbedding, List.range_succ]
  norm_num

/-- C80, batches: each row of fractions is made of the random numbers of that row, and each entry of the embedding of a batch belongs to the fraction at the same place. -/
theorem C80_batch {B n : Nat} (u : Fin B → Fin n → ℝ) (h : ∀ b, 0 < ∑ i, u b i) (m : Nat) (tau : Fin B → Fin n → ℝ) :
    quantilesUniform (List.ofFn fun b => List.ofFn (u b)) = List.ofFn (fun b => some (List.ofFn fun i => (∑ j ∈ Finset.univ.filter (fun j => j ≤ i), u b j) / ∑ j, u b j)) ∧
      quantileCosEmbedding m (List.ofFn fun b => List.ofFn (tau b)) = List.ofFn fun b => List.ofFn fun i => List.ofFn fun k : Fin m => Real.cos (((k : ℝ) + 1) * Real.pi * tau b i) := by
  constructor
  · unfold quantilesUniform
    rw [List.map_ofFn]
    congr 1
    funext b
    exact uniform_row (u b) (h b)
  · unfold quantileCosEmbedding
    rw [List.map_ofFn]
    congr 1
    funext b
    simp only [Function.comp_apply]
    rw [List.map_ofFn]
    congr 1
    funext i
    unfold cosEmbedding
    apply List.ext_getElem <;> simp

example : quantilesUniformRow [1, 3] = some [1 / 4, 1] := by
  unfold quantilesUniformRow
  rw [if_neg (by norm_num)]
  simp [cumsum]
  norm_num

end Coax.Utils
