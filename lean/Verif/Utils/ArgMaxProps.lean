import Verif.Utils.ArgMax
import Verif.Dists.GumbelProps
import Mathlib.Analysis.SpecialFunctions.Log.Deriv

/-! Property C83: `argmax` returns a maximising index and breaks ties evenly. -/

namespace Coax.Utils

open MeasureTheory Set Coax.Dists

variable {n : Nat}

/-- The number of maximising indices. -/
noncomputable def ties (x : Fin n → ℝ) : Nat := (Finset.univ.filter fun k => ∀ j, x j ≤ x k).card

theorem firstMax_eq (x : Fin n → ℝ) : firstMax x = argmax List.head? x := by
  unfold firstMax argmax
  rw [List.head?_filter]

theorem draws_head : Draws (List.head? : List (Fin n) → Option (Fin n)) := by
  intro l hl
  cases l with
  | nil => exact absurd rfl hl
  | cons a l => exact ⟨a, by simp, rfl⟩

theorem firstMax_spec (hn : 0 < n) (x : Fin n → ℝ) : ∃ a, firstMax x = some a ∧ ∀ j, x j ≤ x a := by
  rw [firstMax_eq]; exact argmax_spec draws_head hn x

/-- Perturbing the logits and perturbing the log-probabilities of the softmax have the same winner. -/
theorem firstMax_gumbel (u z : Fin n → ℝ) : firstMax (fun k => gumbel (u k) + z k) = argmax List.head? (sampleRow 1 u z) := by
  rw [firstMax_eq]
  unfold argmax
  congr 1
  refine List.filter_congr fun k _ => ?_
  rw [decide_eq_decide]
  refine forall_congr' fun j => ?_
  unfold sampleRow gumbel
  rw [softmax_le_iff]
  simp only [div_one, logSoftmax]
  constructor <;> intro h <;> linarith

theorem tieLogits_of_max {x : Fin n → ℝ} {k : Fin n} (h : ∀ j, x j ≤ x k) : tieLogits x k = 50 := by
  simp only [tieLogits, if_pos h]; norm_num

theorem tieLogits_of_not_max {x : Fin n → ℝ} {k : Fin n} (h : ¬ ∀ j, x j ≤ x k) : tieLogits x k = -50 := by
  simp only [tieLogits, if_neg h]; norm_num

/-- C83: if the noise varies by less than 100 then a maximising index is returned. -/
theorem C83_maximiser (hn : 0 < n) (g x : Fin n → ℝ) (hg : ∀ i j, g i - g j < 100) : ∃ a, argmaxRng g x = some a ∧ ∀ j, x j ≤ x a := by
  obtain ⟨a, ha, h⟩ := firstMax_spec hn fun k => g k + tieLogits x k
  refine ⟨a, ha, ?_⟩
  by_contra hna
  have : Nonempty (Fin n) := ⟨⟨0, hn⟩⟩
  obtain ⟨m, hm⟩ := Finite.exists_max x
  have h1 := h m
  simp only [tieLogits_of_max hm, tieLogits_of_not_max hna] at h1
  have := hg a m
  linarith

/-- The float32 numbers that `jax.random.uniform` makes for Gumbel noise: between the smallest normal number and the greatest number below one. -/
def Float32Unit (u : ℝ) : Prop := (2 : ℝ)⁻¹ ^ 126 ≤ u ∧ u ≤ 1 - (2 : ℝ)⁻¹ ^ 24

/-- C83: the noise made of float32 numbers varies by less than 100 (by less than 31). -/
theorem C83_float_noise {u v : ℝ} (hu : Float32Unit u) (hv : Float32Unit v) : gumbel u - gumbel v < 31 := by
  have h126 : (0 : ℝ) < (2 : ℝ)⁻¹ ^ 126 := by positivity
  have h24 : (0 : ℝ) < (2 : ℝ)⁻¹ ^ 24 := by positivity
  have hl2 : Real.log 2 < 1 := by have := Real.log_lt_sub_one_of_pos (show (0 : ℝ) < 2 by norm_num) (by norm_num); linarith
  have hl2' : 0 < Real.log 2 := Real.log_pos (by norm_num)
  have hu0 : 0 < u := lt_of_lt_of_le h126 hu.1
  have hv0 : 0 < v := lt_of_lt_of_le h126 hv.1
  -- the double logarithm is at most `log 128`
  have hv1 : -Real.log v ≤ 126 * Real.log 2 := by
    have := Real.log_le_log h126 hv.1
    rw [Real.log_pow, Real.log_inv] at this
    push_cast at this
    linarith
  have hvpos : 0 < -Real.log v := by
    have := Real.log_neg hv0 (lt_of_le_of_lt hv.2 (by linarith))
    linarith
  have hv2 : Real.log (-Real.log v) ≤ 7 * Real.log 2 := by
    have : Real.log (-Real.log v) ≤ Real.log (2 ^ 7) := Real.log_le_log hvpos (by nlinarith)
    rw [Real.log_pow] at this
    push_cast at this
    exact this
  have hu1 : (2 : ℝ)⁻¹ ^ 24 ≤ -Real.log u := by
    have := Real.log_le_sub_one_of_pos hu0
    have := hu.2
    linarith
  have hu2 : -(24 * Real.log 2) ≤ Real.log (-Real.log u) := by
    have := Real.log_le_log h24 hu1
    rw [Real.log_pow, Real.log_inv] at this
    push_cast at this
    linarith
  unfold gumbel
  linarith

/-- C83: with the random numbers of the code, `argmax` returns a maximising index and `argmin` a minimising one, always. -/
theorem C83_float (hn : 0 < n) (u x : Fin n → ℝ) (hu : ∀ k, Float32Unit (u k)) :
    (∃ a, argmaxRng (fun k => gumbel (u k)) x = some a ∧ ∀ j, x j ≤ x a) ∧ ∃ a, argminRng (fun k => gumbel (u k)) x = some a ∧ ∀ j, x a ≤ x j := by
  have hg : ∀ i j, gumbel (u i) - gumbel (u j) < 100 := fun i j => (C83_float_noise (hu i) (hu j)).trans (by norm_num)
  refine ⟨C83_maximiser hn _ x hg, ?_⟩
  obtain ⟨a, ha, h⟩ := C83_maximiser hn _ (fun k => -x k) hg
  exact ⟨a, ha, fun j => by have := h j; linarith⟩

/-- C83: so the result is that of the model used elsewhere, for some way to draw from the candidates. -/
theorem C83_refines (hn : 0 < n) (g x : Fin n → ℝ) (hg : ∀ i j, g i - g j < 100) : ∃ draw, Draws draw ∧ argmaxRng g x = argmax draw x := by
  obtain ⟨a, ha, h⟩ := C83_maximiser hn g x hg
  refine ⟨fun l => if a ∈ l then some a else l.head?, ?_, ?_⟩
  · intro l hl
    by_cases hm : a ∈ l
    · exact ⟨a, hm, if_pos hm⟩
    · obtain ⟨b, hb, hb'⟩ := draws_head l hl
      exact ⟨b, hb, (if_neg hm).trans hb'⟩
  · rw [ha, argmax, if_pos (by simpa using h)]

/-- C83: with exact uniform random numbers, each of the maximising indices is returned with the same probability, and all other indices together with probability less than `(n - m) e⁻¹⁰⁰ / m`, where `m` is the number of
maximising indices. -/
theorem C83_even (x : Fin n → ℝ) (a : Fin n) :
    uniforms n {u | argmaxRng (fun k => gumbel (u k)) x = some a} =
      ENNReal.ofReal ((if ∀ j, x j ≤ x a then 1 else Real.exp (-100)) / (ties x + (n - ties x) * Real.exp (-100))) := by
  have h := C62_sample_distribution (draws_head (n := n)) one_pos (tieLogits x) a
  simp only [← firstMax_gumbel] at h
  rw [show {u : Fin n → ℝ | argmaxRng (fun k => gumbel (u k)) x = some a} = {u | firstMax (fun k => gumbel (u k) + tieLogits x k) = some a} from rfl, h]
  congr 1
  have e : ∀ k, Real.exp (tieLogits x k) = Real.exp 50 * (if ∀ j, x j ≤ x k then 1 else Real.exp (-100)) := by
    intro k
    by_cases hk : ∀ j, x j ≤ x k
    · rw [tieLogits_of_max hk, if_pos hk, mul_one]
    · rw [tieLogits_of_not_max hk, if_neg hk, ← Real.exp_add]; norm_num
  have hsum : ∑ k, (if ∀ j, x j ≤ x k then (1 : ℝ) else Real.exp (-100)) = ties x + (n - ties x) * Real.exp (-100) := by
    rw [Finset.sum_ite, Finset.sum_const, Finset.sum_const, nsmul_eq_mul, nsmul_eq_mul, mul_one]
    have hc : (Finset.univ.filter fun k => ∀ j, x j ≤ x k).card + (Finset.univ.filter fun k => ¬ ∀ j, x j ≤ x k).card = n := by
      rw [Finset.card_filter_add_card_filter_not]; simp
    congr 2
    unfold ties
    rw [eq_sub_iff_add_eq, add_comm]
    exact_mod_cast hc
  rw [meanRow, softmax]
  simp only [e]
  rw [← Finset.mul_sum, hsum, mul_div_mul_left _ _ (Real.exp_pos 50).ne']

/-- C83, what fails in exact arithmetic: without a bound on the noise, an index that is not maximising can be returned. -/
theorem C83_counterexample : ∃ g x : Fin 2 → ℝ, ∃ a, argmaxRng g x = some a ∧ ¬ ∀ j, x j ≤ x a := by
  refine ⟨![0, 101], ![1, 0], 1, ?_, by intro h; have := h 0; norm_num at this⟩
  obtain ⟨a, ha, h⟩ := firstMax_spec (n := 2) (by norm_num) fun k => (![0, 101] : Fin 2 → ℝ) k + tieLogits ![1, 0] k
  have h0 : tieLogits ![1, 0] (0 : Fin 2) = 50 := tieLogits_of_max (by intro j; fin_cases j <;> norm_num)
  have h1 : tieLogits ![1, 0] (1 : Fin 2) = -50 := tieLogits_of_not_max (by intro h; have := h 0; norm_num at this)
  have hk := h 1
  unfold argmaxRng
  rw [ha]
  fin_cases a
  · simp only [h1] at hk
    have hk' : (101 : ℝ) + -50 ≤ 0 + tieLogits ![1, 0] (0 : Fin 2) := hk
    rw [h0] at hk'
    norm_num at hk'
  · rfl

/-- Two of three entries are maximal: each is returned with probability `1 / (2 + e⁻¹⁰⁰)`. -/
example : uniforms 3 {u | argmaxRng (fun k => gumbel (u k)) ![1, 0, 1] = some 2} = ENNReal.ofReal (1 / (2 + Real.exp (-100))) ∧ Float32Unit (1 / 2) := by
  constructor
  · rw [C83_even, if_pos (by simp [Fin.forall_fin_succ])]
    have ht : ties (![1, 0, 1] : Fin 3 → ℝ) = 2 := by
      unfold ties
      rw [show (Finset.univ.filter fun k : Fin 3 => ∀ j, (![1, 0, 1] : Fin 3 → ℝ) j ≤ (![1, 0, 1] : Fin 3 → ℝ) k) = {0, 2} by
        ext k
        fin_cases k
        · simp [Fin.forall_fin_succ]
        · simp [Fin.forall_fin_succ]
        · simp [Fin.forall_fin_succ]]
      rfl
    rw [ht]
    norm_num
  · constructor <;> norm_num

end Coax.Utils
