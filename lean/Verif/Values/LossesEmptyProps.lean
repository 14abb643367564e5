import Verif.Values.LossesProps

/-! Property C43: losses of empty batches. -/

namespace Coax.Values

/-- C43.  Without samples the loss is NaN, not zero, with and without weights.  The same is true of batches whose samples have no entries.  The number of weights is checked nevertheless. -/
theorem C43_empty (loss : List (List ℝ)) (h : ∀ row ∈ loss, row = []) :
    meanWithWeights loss none = .ok none ∧ ∀ w, meanWithWeights loss (some w) = if loss.length = w.length then .ok none else .error .assertionError := by
  have hf : loss.flatten = [] := by simpa using h
  refine ⟨by simp [meanWithWeights, meanAll, hf], fun w => ?_⟩
  unfold meanWithWeights
  by_cases hw : loss.length = w.length
  · have hl := length_weighted w loss hw
    rw [hf] at hl
    have h0 := List.length_eq_zero_iff.1 hl
    simp only [ne_eq, hw, not_true_eq_false, if_false, if_true, meanAll, h0]
  · simp [hw]

/-- C43.  All four losses are NaN for empty batches. -/
theorem C43_empty_losses (delta : ℝ) :
    mse [] [] none = .ok none ∧ huber [] [] none delta = .ok none ∧ logloss [] [] none = .ok none ∧ loglossSign [] [] none = .ok none ∧
    mse [] [] (some []) = .ok none ∧ huber [] [] (some []) delta = .ok none ∧ logloss [] [] (some []) = .ok none ∧ loglossSign [] [] (some []) = .ok none := by
  have h := C43_empty [] (by simp)
  have h2 := h.2 []
  simp only [List.length_nil, if_true] at h2
  exact ⟨h.1, h.1, h.1, h.1, h2, h2, h2, h2⟩

/-- Two samples without entries, and one weight. -/
example : meanWithWeights [[], []] (some [1]) = .error .assertionError := by
  have := (C43_empty [[], []] (by simp)).2 [1]
  simpa using this

end Coax.Values
