import Verif.Utils.ActionNoise
import Mathlib.Algebra.Order.Field.Rat
import Mathlib.Tactic.Ring
import Mathlib.Tactic.LinearCombination
import Mathlib.Algebra.Order.AbsoluteValue.Basic
import Mathlib.Tactic.Linarith

/-! Property C41 of the Ornstein-Uhlenbeck noise. -/

namespace Coax.ActionNoise

set_option linter.unusedSectionVars false

variable {K : Type _} [Field K] [LinearOrder K] [IsStrictOrderedRing K]

/-- `Path s x`: after some calls and resets of the object created as `s`, the noise process is at `x`. -/
inductive Path (s : OU K) : K → OU K → Prop
  | new : Path s s.mu s.reset
  | reset {x t} : Path s x t → Path s s.mu t.reset
  | call {x t a w t' r} : Path s x t → t.call a w = (t', r) →
      Path s (clip (x - s.theta * (x - s.mu) + s.sigma * w) s.minValue s.maxValue) t'

theorem Path.inv {s t : OU K} {x : K} (h : Path s x t) :
    t.mu = s.mu ∧ t.theta = s.theta ∧ t.sigma = s.sigma ∧ t.minValue = s.minValue ∧ t.maxValue = s.maxValue ∧ t.noise.getD t.mu = x := by
  induction h with
  | new => exact ⟨rfl, rfl, rfl, rfl, rfl, rfl⟩
  | reset _ ih => exact ⟨ih.1, ih.2.1, ih.2.2.1, ih.2.2.2.1, ih.2.2.2.2.1, ih.1⟩
  | call _ hc ih =>
    simp only [OU.call, Prod.mk.injEq] at hc
    obtain ⟨h1, h2, h3, h4, h5, h6⟩ := ih
    rw [← hc.1]
    refine ⟨h1, h2, h3, h4, h5, ?_⟩
    rw [h1] at h6
    simp only [Option.getD_some, h1, h2, h3, h4, h5, h6]
    congr 1; ring

/-- C41.  After any history the next call adds to the action the process value `x - θ(x - μ) + σ w`, clipped to the bounds. -/
theorem C41_recurrence {s t : OU K} {x : K} (h : Path s x t) (a w : K) :
    (t.call a w).2 = a + clip (x - s.theta * (x - s.mu) + s.sigma * w) s.minValue s.maxValue := by
  obtain ⟨h1, h2, h3, h4, h5, h6⟩ := h.inv
  rw [h1] at h6
  simp only [OU.call, h1, h2, h3, h4, h5, h6]
  congr 2; ring

/-- C41.  After a reset the process restarts at `μ`. -/
theorem C41_reset {s t : OU K} {x : K} (h : Path s x t) (a w : K) :
    (t.reset.call a w).2 = a + clip (s.mu + s.sigma * w) s.minValue s.maxValue := by
  rw [C41_recurrence h.reset]; congr 2; ring

theorem clip_mem {x lo hi : K} (h : lo ≤ hi) : lo ≤ clip x lo hi ∧ clip x lo hi ≤ hi :=
  ⟨le_min (le_max_right _ _) h, min_le_right _ _⟩

theorem clip_eq_self {x lo hi : K} (h1 : lo ≤ x) (h2 : x ≤ hi) : clip x lo hi = x := by
  unfold clip; rw [max_eq_left h1, min_eq_left h2]

/-- C41, what does hold: the *noise* stays in `[min_value, max_value]`, so the noisy action stays in
`[a + min_value, a + max_value]`. -/
theorem C41_bounds_partial {s t : OU K} {x : K} (h : Path s x t) (hb : s.minValue ≤ s.maxValue) (a w : K) :
    a + s.minValue ≤ (t.call a w).2 ∧ (t.call a w).2 ≤ a + s.maxValue := by
  rw [C41_recurrence h]
  obtain ⟨h1, h2⟩ := clip_mem (x := x - s.theta * (x - s.mu) + s.sigma * w) hb
  constructor <;> linarith

/-- C41 is false for the action: with bounds `[-1, 1]`, the action `1` and white noise `1` the result is `2`. -/
theorem C41_counterexample : ∃ (s t : OU ℚ) (x a w : ℚ), s = new 0 1 (3/20) (some (-1)) (some 1) ∧ Path s x t ∧
    s.minValue ≤ a ∧ a ≤ s.maxValue ∧ s.maxValue < (t.call a w).2 := by
  refine ⟨_, _, _, 1, 1, rfl, .new, ?_, ?_, ?_⟩ <;> decide +kernel

/-- C41.  Without noise (`w = 0`) and inside the bounds, the distance to `μ` shrinks by the factor `1 - θ` at each call. -/
theorem C41_reverts {s t t' : OU K} {x y a r : K} (h : Path s x t) (hc : t.call a 0 = (t', r)) (hy : t'.noise = some y)
    (hin : s.minValue ≤ x - s.theta * (x - s.mu) ∧ x - s.theta * (x - s.mu) ≤ s.maxValue) :
    y - s.mu = (1 - s.theta) * (x - s.mu) := by
  obtain ⟨_, _, _, _, _, h6⟩ := (Path.call h hc).inv
  rw [hy] at h6
  simp only [Option.getD_some, mul_zero, add_zero] at h6
  rw [clip_eq_self hin.1 hin.2] at h6
  rw [h6]; ring

/-- C41.  Without given bounds the bounds are `∓1e15`. -/
theorem C41_defaults (mu sigma theta : K) : (new mu sigma theta none none).minValue = -(10 : K) ^ 15 ∧ (new mu sigma theta none none).maxValue = (10 : K) ^ 15 :=
  ⟨rfl, rfl⟩

/-- A process after two calls, inside its bounds. -/
example : ∃ (x : ℚ) (t : OU ℚ), Path (new 0 1 (1/2) (some (-5)) (some 5)) x t ∧ x = 5/2 :=
  ⟨_, _, .call (a := 0) (w := 2) (.call (a := 0) (w := 1) .new (Prod.mk.eta).symm) (Prod.mk.eta).symm, by decide +kernel⟩

end Coax.ActionNoise
