import Verif.Values.LossesProps
import Mathlib.Topology.Order.IntermediateValue
import Mathlib.Topology.Algebra.Monoid
import Mathlib.Topology.Algebra.Order.Field
import Mathlib.Topology.Order.Lattice

/-! The least expected quantile Huber loss (property C126). -/

namespace Coax.Values

open Filter Topology

variable {ι : Type _} [Fintype ι]

/-- How strongly a target at distance `u` pulls a prediction for the fraction `tau` up (or down, if negative). -/
noncomputable def pull (tau u : ℝ) : ℝ := tau * min 1 (max u 0) - (1 - tau) * min 1 (max (-u) 0)

/-- The pulls of targets `t` with weights `w` at the prediction `y`. -/
noncomputable def pulls (w t : ι → ℝ) (tau y : ℝ) : ℝ := ∑ i, w i * pull tau (t i - y)

theorem pull_mono {tau : ℝ} (h0 : 0 < tau) (h1 : tau < 1) : Monotone (pull tau) := by
  intro u v huv
  unfold pull
  have a1 : min 1 (max u 0) ≤ min 1 (max v 0) := min_le_min le_rfl (max_le_max huv le_rfl)
  have a2 : min 1 (max (-v) 0) ≤ min 1 (max (-u) 0) := min_le_min le_rfl (max_le_max (by linarith) le_rfl)
  nlinarith

theorem pull_continuous (tau : ℝ) : Continuous (pull tau) := by
  unfold pull
  fun_prop

theorem pull_zero (tau : ℝ) : pull tau 0 = 0 := by simp [pull]

theorem pull_neg {tau u : ℝ} (h1 : tau < 1) (hu : u < 0) : pull tau u < 0 := by
  unfold pull
  rw [max_eq_right hu.le, max_eq_left (by linarith : (0 : ℝ) ≤ -u)]
  have : 0 < min 1 (-u) := lt_min one_pos (by linarith)
  have := mul_pos (sub_pos.2 h1) this
  simp only [zero_le_one, min_eq_right, mul_zero, zero_sub]
  linarith

theorem pull_pos {tau u : ℝ} (h0 : 0 < tau) (hu : 0 < u) : 0 < pull tau u := by
  unfold pull
  rw [max_eq_left hu.le, max_eq_right (by linarith : -u ≤ 0)]
  have : 0 < min 1 u := lt_min one_pos hu
  have := mul_pos h0 this
  simp only [zero_le_one, min_eq_right, mul_zero, sub_zero]
  linarith

/-- The loss as a function of the difference. -/
theorem elem_eq {tau : ℝ} (h0 : 0 < tau) (h1 : tau < 1) (y p : ℝ) : quantileHuberElem 1 y p tau =
    if 0 ≤ y - p then tau * (if y - p ≤ 1 then (y - p) ^ 2 / 2 else y - p - 1 / 2) else (1 - tau) * (if p - y ≤ 1 then (p - y) ^ 2 / 2 else p - y - 1 / 2) := by
  unfold quantileHuberElem
  dsimp only
  by_cases h : 0 ≤ y - p
  · rw [if_pos h, if_neg (not_lt.2 h), abs_of_nonneg h, sub_zero, abs_of_pos h0]
    by_cases h2 : y - p ≤ 1
    · rw [if_pos h2, min_eq_left h2]; ring
    · rw [if_neg h2, min_eq_right (not_le.1 h2).le]; ring
  · have h' := not_le.1 h
    rw [if_neg h, if_pos h', abs_of_neg h', abs_of_neg (by linarith : tau - 1 < 0)]
    by_cases h2 : p - y ≤ 1
    · rw [if_pos h2, min_eq_left (by linarith)]; ring
    · rw [if_neg h2, min_eq_right (by linarith)]; ring

theorem elem_convex {tau : ℝ} (h0 : 0 < tau) (h1 : tau < 1) (y p p' : ℝ) :
    quantileHuberElem 1 y p tau + pull tau (y - p) * (p - p') ≤ quantileHuberElem 1 y p' tau := by
  have hH : ∀ u v : ℝ, 0 ≤ u → 0 ≤ v → (if u ≤ 1 then u ^ 2 / 2 else u - 1 / 2) + min 1 u * (v - u) ≤ if v ≤ 1 then v ^ 2 / 2 else v - 1 / 2 := by
    intro u v hu hv
    by_cases h : u ≤ 1
    · rw [if_pos h, min_eq_right h]
      split_ifs with h2
      · nlinarith [sq_nonneg (u - v)]
      · nlinarith [sq_nonneg (u - 1)]
    · rw [if_neg h, min_eq_left (not_le.1 h).le]
      split_ifs with h2
      · nlinarith [sq_nonneg (v - 1)]
      · linarith
  have hpos : ∀ v : ℝ, 0 ≤ v → 0 ≤ if v ≤ 1 then v ^ 2 / 2 else v - 1 / 2 := by
    intro v hv
    split_ifs with h
    · positivity
    · linarith
  have hneg : ∀ u v : ℝ, 0 ≤ u → v ≤ 0 → (if u ≤ 1 then u ^ 2 / 2 else u - 1 / 2) + min 1 u * (v - u) ≤ 0 := by
    intro u v hu hv
    have := hH u 0 hu le_rfl
    simp only [zero_le_one, if_true] at this
    have hm : 0 ≤ min 1 u := le_min zero_le_one hu
    nlinarith
  rw [elem_eq h0 h1, elem_eq h0 h1]
  have t1 : 0 < 1 - tau := by linarith
  by_cases h : 0 ≤ y - p
  · have e : pull tau (y - p) = tau * min 1 (y - p) := by
      unfold pull; rw [max_eq_left h, max_eq_right (by linarith : -(y - p) ≤ 0)]; simp
    rw [if_pos h, e]
    by_cases h' : 0 ≤ y - p'
    · rw [if_pos h']
      have := mul_le_mul_of_nonneg_left (hH _ _ h h') h0.le
      linarith
    · rw [if_neg h']
      have a := mul_le_mul_of_nonneg_left (hneg (y - p) (y - p') h (by linarith)) h0.le
      have b := mul_nonneg t1.le (hpos (p' - y) (by linarith))
      linarith
  · have e : pull tau (y - p) = -((1 - tau) * min 1 (p - y)) := by
      unfold pull; rw [max_eq_right (by linarith : y - p ≤ 0), max_eq_left (by linarith : (0 : ℝ) ≤ -(y - p))]; simp
    rw [if_neg h, e]
    by_cases h' : 0 ≤ y - p'
    · rw [if_pos h']
      have a := mul_le_mul_of_nonneg_left (hneg (p - y) (p' - y) (by linarith) (by linarith)) t1.le
      have b := mul_nonneg h0.le (hpos (y - p') h')
      linarith
    · rw [if_neg h']
      have := mul_le_mul_of_nonneg_left (hH (p - y) (p' - y) (by linarith) (by linarith)) t1.le
      linarith

theorem pulls_anti {w t : ι → ℝ} (hw : ∀ i, 0 ≤ w i) {tau : ℝ} (h0 : 0 < tau) (h1 : tau < 1) : Antitone (pulls w t tau) := by
  intro y y' h
  exact Finset.sum_le_sum fun i _ => mul_le_mul_of_nonneg_left (pull_mono h0 h1 (by linarith)) (hw i)

theorem pulls_continuous (w t : ι → ℝ) (tau : ℝ) : Continuous (pulls w t tau) := by
  unfold pulls
  exact continuous_finsetSum _ fun i _ => continuous_const.mul ((pull_continuous tau).comp (by fun_prop))

/-- The expected loss is least where the pulls balance. -/
theorem least_iff {w t : ι → ℝ} (hw : ∀ i, 0 ≤ w i) {tau : ℝ} (h0 : 0 < tau) (h1 : tau < 1) (y : ℝ) :
    (∀ y', ∑ i, w i * quantileHuberElem 1 (t i) y tau ≤ ∑ i, w i * quantileHuberElem 1 (t i) y' tau) ↔ pulls w t tau y = 0 := by
  have key : ∀ y y', ∑ i, w i * quantileHuberElem 1 (t i) y tau + pulls w t tau y * (y - y') ≤ ∑ i, w i * quantileHuberElem 1 (t i) y' tau := by
    intro y y'
    unfold pulls
    rw [Finset.sum_mul, ← Finset.sum_add_distrib]
    refine Finset.sum_le_sum fun i _ => ?_
    have := mul_le_mul_of_nonneg_left (elem_convex h0 h1 (t i) y y') (hw i)
    linarith
  constructor
  · intro h
    by_contra hne
    rcases lt_or_gt_of_ne hne with hlt | hgt
    · have : ∀ᶠ x in 𝓝 y, pulls w t tau x < 0 := (pulls_continuous w t tau).continuousAt.eventually_lt continuousAt_const hlt
      obtain ⟨ε, hε, hb⟩ := Metric.eventually_nhds_iff.1 this
      have h2 := hb (y := y - ε / 2) (by rw [Real.dist_eq, abs_lt]; constructor <;> linarith)
      have h3 := key (y - ε / 2) y
      have h4 := h (y - ε / 2)
      nlinarith
    · have : ∀ᶠ x in 𝓝 y, 0 < pulls w t tau x := continuousAt_const.eventually_lt (pulls_continuous w t tau).continuousAt hgt
      obtain ⟨ε, hε, hb⟩ := Metric.eventually_nhds_iff.1 this
      have h2 := hb (y := y + ε / 2) (by rw [Real.dist_eq, abs_lt]; constructor <;> linarith)
      have h3 := key (y + ε / 2) y
      have h4 := h (y + ε / 2)
      nlinarith
  · intro h y'
    have := key y y'
    rw [h] at this
    linarith

theorem pulls_neg {w t : ι → ℝ} (hw : ∀ i, 0 ≤ w i) (hpos : ∃ i, 0 < w i) {tau : ℝ} (h1 : tau < 1) {y : ℝ} (hy : ∀ i, 0 < w i → t i < y) : pulls w t tau y < 0 := by
  obtain ⟨i, hi⟩ := hpos
  refine Finset.sum_neg' (fun j _ => ?_) ⟨i, Finset.mem_univ i, mul_neg_of_pos_of_neg hi (pull_neg h1 (by linarith [hy i hi]))⟩
  rcases (hw j).eq_or_lt with h | h
  · rw [← h]; simp
  · exact (mul_neg_of_pos_of_neg h (pull_neg h1 (by linarith [hy j h]))).le

theorem pulls_pos {w t : ι → ℝ} (hw : ∀ i, 0 ≤ w i) (hpos : ∃ i, 0 < w i) {tau : ℝ} (h0 : 0 < tau) {y : ℝ} (hy : ∀ i, 0 < w i → y < t i) : 0 < pulls w t tau y := by
  obtain ⟨i, hi⟩ := hpos
  refine Finset.sum_pos' (fun j _ => ?_) ⟨i, Finset.mem_univ i, mul_pos hi (pull_pos h0 (by linarith [hy i hi]))⟩
  rcases (hw j).eq_or_lt with h | h
  · rw [← h]; simp
  · exact (mul_pos h (pull_pos h0 (by linarith [hy j h]))).le

/-- The least and the greatest balanced prediction. -/
theorem balance {w t : ι → ℝ} (hw : ∀ i, 0 ≤ w i) (hpos : ∃ i, 0 < w i) {tau : ℝ} (h0 : 0 < tau) (h1 : tau < 1) :
    ∃ lo hi, pulls w t tau lo = 0 ∧ pulls w t tau hi = 0 ∧ (∀ y, pulls w t tau y ≤ 0 → lo ≤ y) ∧ ∀ y, 0 ≤ pulls w t tau y → y ≤ hi := by
  set G := pulls w t tau with hG
  have hc := pulls_continuous w t tau
  have ha := pulls_anti (t := t) hw h0 h1
  obtain ⟨c, hcb⟩ : ∃ c, ∀ i, |t i| < c := ⟨∑ i, |t i| + 1, fun i => by
    have := Finset.single_le_sum (f := fun i => |t i|) (fun j _ => abs_nonneg _) (Finset.mem_univ i)
    linarith⟩
  have gb : G c < 0 := pulls_neg hw hpos h1 fun i _ => (abs_lt.1 (hcb i)).2
  have ga : 0 < G (-c) := pulls_pos hw hpos h0 fun i _ => (abs_lt.1 (hcb i)).1
  have up : BddAbove {y | 0 ≤ G y} := ⟨c, fun y hy => by
    by_contra h
    have := ha (not_le.1 h).le
    have hy' : 0 ≤ G y := hy
    linarith⟩
  have low : BddBelow {y | G y ≤ 0} := ⟨-c, fun y hy => by
    by_contra h
    have := ha (not_le.1 h).le
    have hy' : G y ≤ 0 := hy
    linarith⟩
  have hh : 0 ≤ G (sSup {y | 0 ≤ G y}) := IsClosed.csSup_mem (isClosed_le continuous_const hc) ⟨-c, ga.le⟩ up
  have hl : G (sInf {y | G y ≤ 0}) ≤ 0 := IsClosed.csInf_mem (isClosed_le hc continuous_const) ⟨c, gb.le⟩ low
  have mid : ∃ z, G z = 0 := by
    have := intermediate_value_univ c (-c) hc (show (0 : ℝ) ∈ Set.Icc (G c) (G (-c)) from ⟨gb.le, ga.le⟩)
    exact this
  obtain ⟨z, hz⟩ := mid
  have z1 : z ≤ sSup {y | 0 ≤ G y} := le_csSup up (show 0 ≤ G z from hz.ge)
  have z2 : sInf {y | G y ≤ 0} ≤ z := csInf_le low (show G z ≤ 0 from hz.le)
  have z3 := ha z1
  have z4 := ha z2
  refine ⟨sInf {y | G y ≤ 0}, sSup {y | 0 ≤ G y}, ?_, ?_, fun y hy => csInf_le low hy, fun y hy => le_csSup up hy⟩
  · have : G z ≤ G (sInf {y | G y ≤ 0}) := z4
    linarith
  · have : G (sSup {y | 0 ≤ G y}) ≤ G z := z3
    linarith

/-- Moving the targets moves the pulls. -/
theorem pulls_shift {w t t' : ι → ℝ} (hw : ∀ i, 0 ≤ w i) {tau : ℝ} (h0 : 0 < tau) (h1 : tau < 1) {c : ℝ} (h : ∀ i, t i ≤ t' i + c) (y : ℝ) : pulls w t tau y ≤ pulls w t' tau (y - c) :=
  Finset.sum_le_sum fun i _ => mul_le_mul_of_nonneg_left (pull_mono h0 h1 (by linarith [h i])) (hw i)

/-- A prediction that balances is a quantile, up to the width 1 of the quadratic part: targets below by more have at most the weight `tau`, and targets above by more at most `1 - tau`. -/
theorem balanced_quantile {w t : ι → ℝ} (hw : ∀ i, 0 ≤ w i) (hw1 : ∑ i, w i = 1) {tau : ℝ} (h0 : 0 < tau) (h1 : tau < 1) {y : ℝ} (h : pulls w t tau y = 0) :
    (∑ i, if t i < y - 1 then w i else 0) ≤ tau ∧ (∑ i, if y + 1 < t i then w i else 0) ≤ 1 - tau := by
  constructor
  · have : ∑ i, w i * pull tau (t i - y) ≤ ∑ i, (tau * w i - if t i < y - 1 then w i else 0) := by
      refine Finset.sum_le_sum fun i _ => ?_
      split_ifs with hi
      · have : pull tau (t i - y) = -(1 - tau) := by
          unfold pull; rw [max_eq_right (by linarith), max_eq_left (by linarith : (0 : ℝ) ≤ -(t i - y)), min_eq_left (by linarith : (1 : ℝ) ≤ -(t i - y))]; simp
        rw [this]; nlinarith [hw i]
      · have h2 : pull tau (t i - y) ≤ tau := by
          unfold pull
          have a1 : min 1 (max (t i - y) 0) ≤ 1 := min_le_left _ _
          have a2 : 0 ≤ min 1 (max (-(t i - y)) 0) := le_min zero_le_one (le_max_right _ _)
          nlinarith
        nlinarith [hw i]
    rw [Finset.sum_sub_distrib, ← Finset.mul_sum, hw1] at this
    have h' : ∑ i, w i * pull tau (t i - y) = 0 := h
    linarith
  · have : ∑ i, ((if y + 1 < t i then w i else 0) - (1 - tau) * w i) ≤ ∑ i, w i * pull tau (t i - y) := by
      refine Finset.sum_le_sum fun i _ => ?_
      split_ifs with hi
      · have : pull tau (t i - y) = tau := by
          unfold pull; rw [max_eq_left (by linarith : (0 : ℝ) ≤ t i - y), max_eq_right (by linarith : -(t i - y) ≤ 0), min_eq_left (by linarith : (1 : ℝ) ≤ t i - y)]; simp
        rw [this]; nlinarith [hw i]
      · have h2 : -(1 - tau) ≤ pull tau (t i - y) := by
          unfold pull
          have a1 : min 1 (max (-(t i - y)) 0) ≤ 1 := min_le_left _ _
          have a2 : 0 ≤ min 1 (max (t i - y) 0) := le_min zero_le_one (le_max_right _ _)
          nlinarith
        nlinarith [hw i]
    rw [Finset.sum_sub_distrib, ← Finset.mul_sum, hw1] at this
    have h' : ∑ i, w i * pull tau (t i - y) = 0 := h
    linarith

end Coax.Values
