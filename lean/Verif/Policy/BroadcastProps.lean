import Verif.Policy.ObjectivesProps
import Verif.Policy.RegularizersProps

/-! Properties C57 and C64: arrays with one entry, and the steps that a regularizer accepts. -/

namespace Coax.Pol

/-- The entry of an array that takes part in an elementwise operation at the position `i`: the only one, or the one at this position. -/
def Takes (l : List ℝ) (i : Nat) (x : ℝ) : Prop := l = [x] ∨ l.length ≠ 1 ∧ l[i]? = some x

theorem takes_self {l : List ℝ} {i : Nat} (h : i < l.length) : Takes l i l[i] := by
  by_cases h1 : l.length = 1
  · obtain ⟨x, rfl⟩ := List.length_eq_one_iff.1 h1
    left
    simp
  · exact .inr ⟨h1, by simp⟩

/-- C64: elementwise operations, as those on the weights and the regularizer, need arrays of equal length or an array with one entry.  The first array is the first argument, whichever is repeated. -/
theorem C64_broadcast (f : ℝ → ℝ → ℝ) (a b : List ℝ) :
    (a.length ≠ b.length → a.length ≠ 1 → b.length ≠ 1 → broadcast f a b = .error .typeError) ∧
    (a.length = b.length ∨ a.length = 1 ∨ b.length = 1 → ∃ l, broadcast f a b = .ok l ∧ l.length = (if a.length = 1 then b.length else a.length) ∧
      ∀ i < l.length, ∃ x y, Takes a i x ∧ Takes b i y ∧ l[i]? = some (f x y)) := by
  refine ⟨fun h h1 h2 => ?_, fun h => ?_⟩
  · unfold broadcast
    rw [if_neg h]
    split
    · simp at h2
    · simp at h1
    · rfl
  · by_cases he : a.length = b.length
    · refine ⟨List.zipWith f a b, by simp [broadcast, he], by simp [he], fun i hi => ?_⟩
      rw [List.length_zipWith] at hi
      have h1 : i < a.length := by omega
      have h2 : i < b.length := by omega
      exact ⟨a[i], b[i], takes_self h1, takes_self h2, by simp [h1, h2]⟩
    · by_cases h2 : b.length = 1
      · obtain ⟨y, rfl⟩ := List.length_eq_one_iff.1 h2
        have h1 : a.length ≠ 1 := by simpa using he
        refine ⟨a.map fun x => f x y, by simp [broadcast, h1], by simp [h1], fun i hi => ?_⟩
        have hi' : i < a.length := by simpa using hi
        exact ⟨a[i], y, takes_self hi', .inl rfl, by simp [hi']⟩
      · have h1 : a.length = 1 := by tauto
        obtain ⟨x, rfl⟩ := List.length_eq_one_iff.1 h1
        have hb : broadcast f [x] b = .ok (b.map fun y => f x y) := by
          unfold broadcast
          rw [if_neg he]
          split
          · simp at h2
          · rename_i heq _; simp only [List.cons.injEq, and_true] at heq; rw [heq]
          · rename_i h3; exact absurd rfl (h3 x)
        refine ⟨_, hb, by simp, fun i hi => ?_⟩
        have hi' : i < b.length := by simpa using hi
        exact ⟨x, b[i], .inl rfl, takes_self hi', by simp [hi']⟩

/-- C57: the steps of `NStepEntropyRegularizer` are kept as they are given; there is at least one of them. -/
theorem C57_steps (arg : Option (List Nat)) : (∀ n, checkSteps arg = .ok n ↔ arg = some n ∧ n ≠ []) ∧ (checkSteps arg = .error .typeError ↔ arg = none) ∧ (checkSteps arg = .error .valueError ↔ arg = some []) := by
  match arg with
  | none => simp [checkSteps]
  | some [] =>
    refine ⟨fun n => ?_, by simp [checkSteps], by simp [checkSteps]⟩
    constructor
    · intro h; simp [checkSteps] at h
    · rintro ⟨h, h2⟩; simp only [Option.some.injEq] at h; exact absurd h.symm h2
  | some (x :: xs) =>
    refine ⟨fun n => ?_, by simp [checkSteps], by simp [checkSteps]⟩
    simp only [checkSteps, Except.ok.injEq, Option.some.injEq]
    constructor
    · rintro rfl; simp
    · exact fun h => h.1

example : broadcast (fun x y => x - y) [5] [1, 2] = .ok [4, 3] := by norm_num [broadcast]

end Coax.Pol
