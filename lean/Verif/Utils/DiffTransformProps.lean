import Verif.Utils.DiffTransform
import Mathlib.Algebra.Group.ForwardDiff
import Mathlib.Data.Nat.Choose.Sum
import Mathlib.Algebra.BigOperators.Fin
import Mathlib.Tactic.Ring
import Mathlib.Tactic.Linarith

/-! Property C79: `diff_transform` computes the finite differences of stacked frames. -/

namespace Coax.Utils

/-- The frames as a sequence in time: `n` frames, the last one at time `n-1`. -/
def frames {n : Nat} (x : Fin n → ℝ) (t : ℤ) : ℝ := if h : 0 ≤ t ∧ t.toNat < n then x ⟨t.toNat, h.2⟩ else 0

/-- What a frame stack should become: at distance `k` from the end, the `k`-th finite difference (0: position, 1: velocity, 2: acceleration) of the `k+1` latest frames. -/
noncomputable def finiteDifferences {n : Nat} (x : Fin n → ℝ) (j : Fin n) : ℝ := (fwdDiff (1 : ℤ))^[n - 1 - j] (frames x) j

theorem diffMatrix_apply {n : Nat} (i j : Fin n) : diffMatrix n i j = (-1) ^ (n - 1 - i : Nat) * (Nat.choose (n - 1 - j) (n - 1 - i) : ℝ) := by
  unfold diffMatrix flipped signs pascalUpper
  rw [Matrix.submatrix_apply, Matrix.diagonal_mul]
  simp [Fin.val_rev, Nat.sub_sub, Nat.add_comm]

theorem vecMul_eq {n : Nat} (x : Fin n → ℝ) (j : Fin n) : Matrix.vecMul x (diffMatrix n) j = finiteDifferences x j := by
  unfold finiteDifferences
  rw [fwdDiff_iter_eq_sum_shift]
  simp only [Matrix.vecMul, dotProduct, diffMatrix_apply]
  -- only the frames from `j` on contribute
  have hsum : ∑ i : Fin n, x i * ((-1) ^ (n - 1 - i : Nat) * (Nat.choose (n - 1 - j) (n - 1 - i) : ℝ)) =
      ∑ i ∈ Finset.range n, frames x i * ((-1) ^ (n - 1 - i : Nat) * (Nat.choose (n - 1 - j) (n - 1 - i) : ℝ)) := by
    rw [Finset.sum_range]
    refine Finset.sum_congr rfl fun i _ => ?_
    congr 1
    unfold frames
    rw [dif_pos (by simp)]
    simp
  rw [hsum]
  have hj := j.2
  have hn : n = j + (n - 1 - j + 1) := by omega
  rw [show Finset.range n = Finset.range (j + (n - 1 - j + 1)) by rw [← hn], Finset.sum_range_add]
  rw [Finset.sum_eq_zero (s := Finset.range (j : Nat)), zero_add]
  · refine Finset.sum_congr rfl fun k hk => ?_
    have hk' : k < n - 1 - j + 1 := Finset.mem_range.1 hk
    have e1 : n - 1 - (j + k) = n - 1 - j - k := by omega
    rw [e1, Nat.choose_symm (by omega)]
    rw [nsmul_one, zsmul_eq_mul]
    push_cast
    ring
  · intro i hi
    have : i < j := Finset.mem_range.1 hi
    rw [Nat.choose_eq_zero_of_lt (show n - 1 - (j : Nat) < n - 1 - i by omega)]
    simp

/-- C79: at distance `k` from the end of the last axis, `diff_transform` returns the `k`-th finite difference of the latest frames, for every number of frames. -/
theorem C79_differences {n : Nat} (hn : 0 < n) (X : List (Fin n → ℝ)) : diffTransform X = .ok (X.map finiteDifferences) := by
  unfold diffTransform diffTransformMatrix
  rw [if_pos (by omega)]
  simp only
  congr 2
  funext x j
  exact vecMul_eq x j

theorem signed_sum (k : Nat) : ∑ j ∈ Finset.range (k + 1), (-1 : ℝ) ^ j * (Nat.choose k j : ℝ) = if k = 0 then 1 else 0 := by
  have := Int.alternating_sum_range_choose (n := k)
  have h2 := congrArg (Int.cast : ℤ → ℝ) this
  push_cast at h2
  exact h2

/-- Binomial inversion. -/
theorem inversion {n i k : Nat} (hk : k < n) : ∑ j ∈ Finset.range n, ((-1 : ℝ) ^ i * (Nat.choose j i : ℝ)) * ((-1) ^ j * (Nat.choose k j : ℝ)) = if i = k then 1 else 0 := by
  by_cases hik : i ≤ k
  · have h0 : ∑ j ∈ Finset.range n, ((-1 : ℝ) ^ i * (Nat.choose j i : ℝ)) * ((-1) ^ j * (Nat.choose k j : ℝ)) =
        ∑ j ∈ Finset.range (k - i + 1), (-1 : ℝ) ^ j * ((Nat.choose k i : ℝ) * (Nat.choose (k - i) j : ℝ)) := by
      have hn : n = i + ((k - i + 1) + (n - k - 1)) := by omega
      rw [show Finset.range n = Finset.range (i + ((k - i + 1) + (n - k - 1))) by rw [← hn], Finset.sum_range_add, Finset.sum_range_add]
      rw [Finset.sum_eq_zero (s := Finset.range i), zero_add, Finset.sum_eq_zero (s := Finset.range (n - k - 1)), add_zero]
      · refine Finset.sum_congr rfl fun j hj => ?_
        have hj' := Finset.mem_range.1 hj
        have hc := Nat.choose_mul (n := k) (k := i + j) (s := i) (by omega)
        rw [Nat.add_sub_cancel_left] at hc
        have hc' : (Nat.choose k (i + j) : ℝ) * (Nat.choose (i + j) i : ℝ) = (Nat.choose k i : ℝ) * (Nat.choose (k - i) j : ℝ) := by exact_mod_cast hc
        have hs : (-1 : ℝ) ^ i * (-1) ^ i = 1 := by rw [← pow_add, ← two_mul, pow_mul]; simp
        calc _ = ((-1 : ℝ) ^ i * (-1) ^ i) * (-1) ^ j * ((Nat.choose k (i + j) : ℝ) * (Nat.choose (i + j) i : ℝ)) := by rw [pow_add]; ring
          _ = _ := by rw [hs, hc', one_mul]
      · intro j _
        rw [Nat.choose_eq_zero_of_lt (show k < i + (k - i + 1 + j) by omega)]
        simp
      · intro j hj
        rw [Nat.choose_eq_zero_of_lt (Finset.mem_range.1 hj)]
        simp
    rw [h0]
    have h1 : ∀ j, (-1 : ℝ) ^ j * ((Nat.choose k i : ℝ) * (Nat.choose (k - i) j : ℝ)) = (Nat.choose k i : ℝ) * ((-1) ^ j * (Nat.choose (k - i) j : ℝ)) := fun j => by ring
    simp only [h1]
    rw [← Finset.mul_sum, signed_sum]
    by_cases h : i = k
    · subst h; simp
    · rw [if_neg (by omega), if_neg h, mul_zero]
  · rw [if_neg (by omega)]
    refine Finset.sum_eq_zero fun j _ => ?_
    by_cases h : j < i
    · rw [Nat.choose_eq_zero_of_lt h]; simp
    · rw [Nat.choose_eq_zero_of_lt (show k < j by omega)]; simp

theorem diffMatrix_sq (n : Nat) : diffMatrix n * diffMatrix n = 1 := by
  ext a c
  have hc := c.2
  have ha := a.2
  rw [Matrix.mul_apply, Matrix.one_apply]
  have h := inversion (n := n) (i := n - 1 - a) (k := n - 1 - c) (by omega)
  rw [Finset.sum_range] at h
  have e : ∑ j : Fin n, diffMatrix n a j * diffMatrix n j c =
      ∑ j : Fin n, ((-1 : ℝ) ^ (n - 1 - a : Nat) * (Nat.choose j (n - 1 - a) : ℝ)) * ((-1) ^ (j : Nat) * (Nat.choose (n - 1 - c) j : ℝ)) := by
    rw [← Equiv.sum_comp Fin.revPerm]
    refine Finset.sum_congr rfl fun j _ => ?_
    have hj := j.2
    rw [diffMatrix_apply, diffMatrix_apply, Fin.revPerm_apply, Fin.val_rev, show n - 1 - (n - (j + 1)) = j by omega]
  rw [e, h]
  by_cases hac : a = c
  · subst hac; simp
  · rw [if_neg (by intro h'; apply hac; ext; omega), if_neg hac]

/-- C79: `diff_transform` is its own inverse, so no information is lost. -/
theorem C79_involution {n : Nat} (hn : 0 < n) (X : List (Fin n → ℝ)) : ∃ Y, diffTransform X = .ok Y ∧ diffTransform Y = .ok X := by
  unfold diffTransform diffTransformMatrix
  rw [if_pos (by omega)]
  refine ⟨_, rfl, ?_⟩
  simp only [List.map_map, Function.comp_def, Matrix.vecMul_vecMul, diffMatrix_sq, Matrix.vecMul_one, List.map_id']

/-- C79: frames that do not move have no velocity, acceleration, ...: only the position is left. -/
theorem C79_static {n : Nat} (hn : 0 < n) (c : ℝ) : diffTransform [fun _ : Fin n => c] = .ok [fun j => if (j : Nat) = n - 1 then c else 0] := by
  rw [C79_differences hn]
  simp only [List.map_cons, List.map_nil]
  congr 2
  funext j
  rw [← vecMul_eq]
  simp only [Matrix.vecMul, dotProduct, diffMatrix_apply]
  have hj := j.2
  rw [← Equiv.sum_comp Fin.revPerm]
  simp only [Fin.revPerm_apply, Fin.val_rev]
  have e : ∀ i : Fin n, n - 1 - (n - (i + 1)) = (i : Nat) := fun i => by have := i.2; omega
  simp only [e]
  rw [← Finset.mul_sum, ← Finset.sum_range (fun i => (-1 : ℝ) ^ i * (Nat.choose (n - 1 - j) i : ℝ))]
  have h := signed_sum (n - 1 - j)
  have hn' : n = (n - 1 - j + 1) + j := by omega
  rw [show Finset.range n = Finset.range ((n - 1 - j + 1) + j) by rw [← hn'], Finset.sum_range_add, h, Finset.sum_eq_zero (s := Finset.range (j : Nat)), add_zero]
  · by_cases h' : (j : Nat) = n - 1
    · rw [if_pos (by omega), if_pos h', mul_one]
    · rw [if_neg (by omega), if_neg h', mul_zero]
  · intro i _
    rw [Nat.choose_eq_zero_of_lt (by omega)]; simp

/-- C79: the matrix has the size asked for; anything less than one frame raises. -/
theorem C79_matrix (n : Int) : (n ≥ 1 → ∃ M, diffTransformMatrix n = .ok M ∧ M.length = n.toNat ∧ ∀ r ∈ M, r.length = n.toNat) ∧ (n < 1 → diffTransformMatrix n = .error .assertionError) := by
  unfold diffTransformMatrix
  refine ⟨fun h => ⟨_, if_pos h, by simp, ?_⟩, fun h => if_neg (by omega)⟩
  intro r hr
  obtain ⟨i, rfl⟩ := (List.mem_ofFn' _ _).1 hr
  simp

/-- Three frames 1, 4, 9: acceleration 2, velocity 5, position 9. -/
example : diffTransform [![1, 4, 9]] = .ok [![2, 5, 9]] := by
  unfold diffTransform diffTransformMatrix
  rw [if_pos (by norm_num)]
  simp only [List.map_cons, List.map_nil]
  congr 2
  funext j
  simp only [Matrix.vecMul, dotProduct, diffMatrix_apply, Fin.sum_univ_three]
  fin_cases j <;> simp <;> norm_num

end Coax.Utils
