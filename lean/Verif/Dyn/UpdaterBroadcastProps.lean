import Verif.Dyn.UpdaterProps

/-! Property C78: what `ModelUpdater` does if shapes are broadcast or the loss is NaN. -/

namespace Coax.Dyn

open Coax.Values Coax.Pol

variable {B n : Nat} {σ α D : Type _}

theorem at1_one (x : ℝ) (j : Nat) : at1 (List.ofFn fun _ : Fin 1 => x) j = x := by simp [at1]

/-- C78: a stochastic reward function with a batch of one sample is not rejected: the sampled probabilities of all bins are compared to the one reward. -/
theorem C78_stochastic_reward_one (f : ℝ → ℝ → ℝ) (transform : ℝ → ℝ) (F : List σ → List α → D) (sample : D → Arr) (b : Batch σ α) (r w : ℝ) (z : Fin n → ℝ) (hr : b.Rn = [r]) (hw : b.W = [w])
    (hz : sample (F b.S b.A) = mat fun _ : Fin 1 => z) (hn : 0 < n) :
    ∃ x, lossFunc (lossOf f) none (.reward transform) (.stochastic F sample) b = .ok (some x, some x) ∧ x = limited w * (∑ j, f (transform r) (z j)) / n := by
  have e : broadcast2 f (.d1 [transform r]) (mat fun _ : Fin 1 => z) = .ok (mat fun (_ : Fin 1) j => f (transform r) (z j)) := by
    have hj : joint 1 n = n := by simp [joint]
    have hf : fits 1 n = true := by simp [fits]
    unfold mat broadcast2
    simp only [List.length_ofFn, width_mat one_pos, List.length_singleton, hf, hj, if_true, map_range_ofFn]
    congr 3
    funext i
    congr 1
    funext j
    have e : (List.ofFn fun _ : Fin 1 => List.ofFn z).getD i [] = List.ofFn z := by simp
    rw [e, at1_ofFn _ j.2]
    simp [at1]
  have hw' : b.W = List.ofFn fun _ : Fin 1 => w := by simpa using hw
  refine ⟨_, ?_, rfl⟩
  unfold lossFunc
  simp only [Forward.predict, Kind.target, hz, hr, hw', clipW_ofFn, List.map_cons, List.map_nil]
  unfold lossOf
  rw [e]
  simp only [weighted, mat]
  rw [meanWithWeights_rows one_pos hn (fun _ => limited w)]
  simp

/-- C78: a stochastic reward function with one bin is not rejected either: the sampled probability for every sample is compared to the rewards of all samples. -/
theorem C78_stochastic_reward_one_bin (f : ℝ → ℝ → ℝ) (transform : ℝ → ℝ) (F : List σ → List α → D) (sample : D → Arr) (b : Batch σ α) (r w : Fin B → ℝ) (z : Fin B → ℝ) (hr : b.Rn = List.ofFn r) (hw : b.W = List.ofFn w)
    (hz : sample (F b.S b.A) = mat fun i (_ : Fin 1) => z i) (hB : 0 < B) :
    ∃ x, lossFunc (lossOf f) none (.reward transform) (.stochastic F sample) b = .ok (some x, some x) ∧ x = (∑ i, limited (w i) * ∑ j, f (transform (r j)) (z i)) / (B * B) := by
  have e : broadcast2 f (.d1 (List.ofFn (transform ∘ r))) (mat fun i (_ : Fin 1) => z i) = .ok (mat fun i j => f (transform (r j)) (z i)) := by
    have hj : joint B 1 = B := by unfold joint; split <;> simp_all
    have hf : fits B 1 = true := by simp [fits]
    unfold mat broadcast2
    simp only [List.length_ofFn, width_mat hB, hf, hj, if_true, map_range_ofFn]
    congr 3
    funext i
    congr 1
    funext j
    have e : (List.ofFn fun i => List.ofFn fun _ : Fin 1 => z i).getD i [] = List.ofFn fun _ : Fin 1 => z i := by simp
    rw [e, at1_ofFn _ j.2, at1_one]
    rfl
  refine ⟨_, ?_, rfl⟩
  unfold lossFunc
  simp only [Forward.predict, Kind.target, hz, hr, hw, clipW_ofFn, List.map_ofFn]
  unfold lossOf
  rw [e]
  simp only [weighted, mat]
  rw [meanWithWeights_rows hB hB (fun i => limited (w i))]

/-- C78: if the loss is NaN, then a regularizer does not hide that. -/
theorem C78_nan (L : Arr → Arr → List ℝ → Except Err (Option ℝ)) (g : D → List ℝ) (k : Kind σ) (F : List σ → List α → D) (sample : D → Arr) (b : Batch σ α) (reg w : Fin B → ℝ) (hw : b.W = List.ofFn w) (hg : g (F b.S b.A) = List.ofFn reg)
    (h : lossFunc L none k (.stochastic F sample) b = .ok (none, none)) : lossFunc L (some g) k (.stochastic F sample) b = .ok (none, none) := by
  unfold lossFunc at h ⊢
  simp only [Forward.predict] at h ⊢
  cases hl : L (k.target b) (sample (F b.S b.A)) (clipW b.W) with
  | error e => rw [hl] at h; simp at h
  | ok l =>
    rw [hl] at h
    simp only at h ⊢
    obtain rfl : l = none := by simpa using h
    rw [hg, hw, clipW_ofFn]
    unfold broadcast
    rw [if_pos (by simp)]
    rfl

/-- One sample with reward 1, and two bins with probabilities 1/4 and 3/4. -/
example : lossFunc (σ := Nat) (α := Nat) (D := Unit) (lossOf mseLoss) none (.reward id) (.stochastic (fun _ _ => ()) fun _ => mat fun _ : Fin 1 => ![1 / 4, 3 / 4]) ⟨[], [], [1], [], [1]⟩ = .ok (some (5 / 32), some (5 / 32)) := by
  obtain ⟨x, h, hx⟩ := C78_stochastic_reward_one (σ := Nat) (α := Nat) (D := Unit) mseLoss id (fun _ _ => ()) (fun _ => mat fun _ : Fin 1 => ![1 / 4, 3 / 4]) ⟨[], [], [1], [], [1]⟩ 1 1 _ rfl rfl rfl (by norm_num)
  rw [h, hx]
  simp [Fin.sum_univ_two, limited, mseLoss]
  norm_num

/-- One sample of observations without entries has a loss that is NaN. -/
example : lossFunc (σ := Nat) (α := Nat) (D := Unit) (lossOf mseLoss) (some fun _ => [2]) (.transition fun _ => .d2 [[]]) (.stochastic (fun _ _ => ()) fun _ => .d2 [[]]) ⟨[], [], [1], [], [1]⟩ = .ok (none, none) := by
  refine C78_nan (B := 1) _ _ _ _ _ _ (fun _ => 2) (fun _ => 1) (by simp) (by simp) ?_
  simp [lossFunc, Forward.predict, Kind.target, lossOf, broadcast2, fits, joint, width, weighted, clipW, meanWithWeights, meanAll]

end Coax.Dyn
