import Verif.Dists.CramerProps
import Verif.Values.Transform

/-! Property C122 is false with `LogTransform`: the projection can move distributions away from each other, whatever the discount factor. -/

namespace Coax.Dists

open Coax.Values

theorem log_at {x : ℝ} (h : 0 < x) : logTransform 1 x = Real.log (1 + x) := by
  simp [logTransform, Real.sign_of_pos h, abs_of_pos h]

theorem log_at_neg {x : ℝ} (h : x < 0) : logTransform 1 x = -Real.log (1 - x) := by
  simp [logTransform, Real.sign_of_neg h, abs_of_neg h, sub_eq_add_neg]

theorem inverse_at {x y : ℝ} (h : 0 < x) (hy : 0 < y) (he : x = Real.log y) : logInverse 1 x = y - 1 := by
  simp only [logInverse, Real.sign_of_pos h, abs_of_pos h, one_mul, div_one]
  rw [he, Real.exp_log hy]

theorem log_four : Real.log 4 = 2 * Real.log 2 := by
  rw [show (4 : ℝ) = 2 ^ 2 by norm_num, Real.log_pow]; norm_num

theorem log_sixteen : Real.log 16 = 4 * Real.log 2 := by
  rw [show (16 : ℝ) = 2 ^ 4 by norm_num, Real.log_pow]; norm_num

/-- C122 is false with `LogTransform`: with discount factor 1/2 two distributions get further from each other. -/
theorem C122_log_counterexample : ∃ (low high shift : ℝ) (p p' m m' : Fin 5 → ℝ), low < high ∧ (∀ k, 0 ≤ p k ∧ 0 ≤ p' k) ∧ ∑ k, p k = 1 ∧ ∑ k, p' k = 1 ∧
    project (by omega) (atoms 5 low high) p (1 / 2) shift (logTransform 1) (logInverse 1) = some m ∧
    project (by omega) (atoms 5 low high) p' (1 / 2) shift (logTransform 1) (logInverse 1) = some m' ∧
    0 < cramerSq (atoms 5 low high) p p' ∧ cramerSq (atoms 5 low high) m m' = 2 * cramerSq (atoms 5 low high) p p' := by
  have hL : 0 < Real.log 2 := Real.log_pos (by norm_num)
  have hlh : -(5 * Real.log 2) < 5 * Real.log 2 := by linarith
  have hz : ∀ k : Fin 5, atoms 5 (-(5 * Real.log 2)) (5 * Real.log 2) k = -(4 * Real.log 2) + k.1 * (2 * Real.log 2) := by
    intro k; unfold atoms; ring_nf
  obtain ⟨m, hm, hk⟩ := project_eq (n := 5) (by omega) hlh (Pi.single 3 1) (1 / 2) (-(9 / 2)) (logTransform 1) (logInverse 1)
  obtain ⟨m', hm', hk'⟩ := project_eq (n := 5) (by omega) hlh (Pi.single 4 1) (1 / 2) (-(9 / 2)) (logTransform 1) (logInverse 1)
  have hr := fun i => (pos_range (n := 5) (by omega) hlh (1 / 2) (-(9 / 2)) (logTransform 1) (logInverse 1) i).1
  have c3 : pos 5 (-(5 * Real.log 2)) (5 * Real.log 2) (target 5 (by omega) (-(5 * Real.log 2)) (5 * Real.log 2) (1 / 2) (-(9 / 2)) (logTransform 1) (logInverse 1) 3) = 1 := by
    unfold target pos Dists.clip
    simp only [hz]
    rw [inverse_at (y := 4) (by norm_num; linarith) (by norm_num) (by rw [log_four]; norm_num; ring), log_at_neg (by norm_num), show (1 : ℝ) - (1 / 2 * (4 - 1) + -(9 / 2)) = 4 by norm_num, log_four,
      max_eq_left (by norm_num; linarith), min_eq_left (by norm_num; linarith)]
    field_simp
    norm_num
  have c4 : pos 5 (-(5 * Real.log 2)) (5 * Real.log 2) (target 5 (by omega) (-(5 * Real.log 2)) (5 * Real.log 2) (1 / 2) (-(9 / 2)) (logTransform 1) (logInverse 1) 4) = 3 := by
    unfold target pos Dists.clip
    simp only [hz]
    rw [inverse_at (y := 16) (by norm_num; linarith) (by norm_num) (by rw [log_sixteen]; norm_num; ring), log_at (by norm_num), show (1 : ℝ) + (1 / 2 * (16 - 1) + -(9 / 2)) = 4 by norm_num, log_four,
      max_eq_left (by norm_num; linarith), min_eq_left (by norm_num; linarith)]
    field_simp
    norm_num
  have e3 : ∀ j ≤ 5, cum m j = ramp 1 j := by
    intro j hj
    rw [cum_hat hr _ hk hj, Finset.sum_eq_single 3 (fun i _ hi => by rw [Pi.single_eq_of_ne hi, zero_mul]) (by simp), c3]; simp
  have e4 : ∀ j ≤ 5, cum m' j = ramp 3 j := by
    intro j hj
    rw [cum_hat hr _ hk' hj, Finset.sum_eq_single 4 (fun i _ hi => by rw [Pi.single_eq_of_ne hi, zero_mul]) (by simp), c4]; simp
  have t3 : ∑ k, m k = 1 := by rw [← cum_all, e3 5 le_rfl]; norm_num [ramp]
  have t4 : ∑ k, m' k = 1 := by rw [← cum_all, e4 5 le_rfl]; norm_num [ramp]
  have p3 : ∑ k, (Pi.single 3 1 : Fin 5 → ℝ) k = 1 := by simp
  have p4 : ∑ k, (Pi.single 4 1 : Fin 5 → ℝ) k = 1 := by simp
  have hd : 0 < 2 * Real.log 2 := by linarith
  have s1 : cramerSq (atoms 5 (-(5 * Real.log 2)) (5 * Real.log 2)) (Pi.single 3 1) (Pi.single 4 1) = 2 * Real.log 2 := by
    rw [cramerSq_eq hd hz (p3.trans p4.symm)]
    norm_num [Finset.sum_range_succ, cum_succ, cum_zero, Pi.single_apply, Fin.ext_iff, cum]
  have s2 : cramerSq (atoms 5 (-(5 * Real.log 2)) (5 * Real.log 2)) m m' = 2 * (2 * Real.log 2) := by
    rw [cramerSq_eq hd hz (t3.trans t4.symm)]
    norm_num [Finset.sum_range_succ, e3, e4, ramp]
    ring
  refine ⟨_, _, _, Pi.single 3 1, Pi.single 4 1, m, m', hlh, fun k => ⟨?_, ?_⟩, p3, p4, hm, hm', by rw [s1]; exact hd, by rw [s2, s1]⟩
  · rw [Pi.single_apply]; split <;> norm_num
  · rw [Pi.single_apply]; split <;> norm_num

/-- Without the transform the same two distributions get closer: the hypotheses of `C122_discount` hold. -/
example : ∃ m m', project (n := 5) (by omega) (atoms 5 (-5) 5) (Pi.single 3 1) (1 / 2) 1 id id = some m ∧ project (n := 5) (by omega) (atoms 5 (-5) 5) (Pi.single 4 1) (1 / 2) 1 id id = some m' ∧
    cramer (atoms 5 (-5) 5) m m' ≤ Real.sqrt (1 / 2) * cramer (atoms 5 (-5) 5) (Pi.single 3 1) (Pi.single 4 1) :=
  C122_discount (by omega) (by norm_num) (by simp) (by norm_num) 1

end Coax.Dists
