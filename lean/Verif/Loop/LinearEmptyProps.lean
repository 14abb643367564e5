import Verif.Loop.LinearQDataProps

/-! Properties C149 and C150: updates with empty batches. -/

namespace Coax.Loop

open Coax.RewardTracing Coax.TD Coax.Core Coax.Values Coax.Pol

variable {σ : Type _} {n d : Nat}

/-- Claim C149, empty batches: their loss is NaN, and the update raises, with any loss function that is a mean.  Learning stops at the first of them. -/
theorem C149_empty {l l' : ℝ → ℝ → ℝ} {L : LossFn} (hL : MeanOf l l' L) (base : σ → ℝ) (phi : σ → Fin d → ℝ) (lr : ℕ → ℝ) (θ : Fin d → ℝ) (batches : List (List (Out σ (Fin n) ℝ))) (k : ℕ) :
    (∀ θT, affineUpdate (lr k) L base phi θT θ ([] : List (Out σ (Fin n) ℝ)) = .error .runtimeError) ∧ affineLearn lr L base phi k θ ([] :: batches) = .error .runtimeError := by
  have key : ∀ θT, affineUpdate (lr k) L base phi θT θ ([] : List (Out σ (Fin n) ℝ)) = .error .runtimeError := fun θT => by
    have h : ∃ out, affineLoss L base phi ([] : List (Out σ (Fin n) ℝ)) θT θ θ = .ok out ∧ out.loss = none := by
      unfold affineLoss
      simp [toVBatch, simpleTD, affine, affineV, detLoss, hL.eq, backup, subtractReg, clipW, elementwise, oneD, meanWithWeights, meanAll]
    obtain ⟨out, h1, h2⟩ := h
    rw [affineUpdate, h1]
    simp [h2]
  refine ⟨key, ?_⟩
  rw [affineLearn, key]

/-- Claim C150, empty batches: the update raises with `Sarsa` as well, with and without a target network. -/
theorem C150_empty (hn : 0 < n) {l l' : ℝ → ℝ → ℝ} {L : LossFn} (hL : MeanOf l l' L) (type1 : Bool) (base : σ → Fin n → ℝ) (phi : σ → Fin n → Fin d → ℝ) (lr : ℕ → ℝ) (θ : Fin d → ℝ) (batches : List (List (Out σ (Fin n) ℝ))) (k : ℕ) :
    (∀ θT, affineUpdateQ (lr k) L (sarsa n) type1 base phi θT θ ([] : List (Out σ (Fin n) ℝ)) = .error .runtimeError) ∧ affineLearnQ lr L (sarsa n) type1 base phi k θ ([] :: batches) = .error .runtimeError ∧
      ∀ tau θT, affineLearnTQ lr tau L (sarsa n) type1 base phi k (θ, θT) ([] :: batches) = .error .runtimeError := by
  have key : ∀ θT, affineUpdateQ (lr k) L (sarsa n) type1 base phi θT θ ([] : List (Out σ (Fin n) ℝ)) = .error .runtimeError := fun θT => by
    have h : ∃ out, affineLossQ L (sarsa n) type1 base phi ([] : List (Out σ (Fin n) ℝ)) θT θ θ = .ok out ∧ out.loss = none := by
      have hp : ∀ θ : σ → Fin n → ℝ, functionType1 n (table type1 θ) [] [] = .ok [] := fun θ => table_predict hn type1 θ ([] : List (Out σ (Fin n) ℝ))
      unfold affineLossQ tableLoss
      simp [toTBatch, sarsa, detLoss, hL.eq, backup, subtractReg, clipW, elementwise, oneD, meanWithWeights, meanAll, tabular, hp]
    obtain ⟨out, h1, h2⟩ := h
    rw [affineUpdateQ, h1]
    simp [h2]
  refine ⟨key, ?_, fun tau θT => ?_⟩
  · rw [affineLearnQ, key]
  · rw [affineLearnTQ, key]

end Coax.Loop
