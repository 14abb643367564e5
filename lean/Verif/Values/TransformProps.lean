import Verif.Values.Transform
import Mathlib.Analysis.SpecialFunctions.Log.Deriv

/-! Property C42 of `LogTransform`. -/

namespace Coax.Values

theorem logTransform_of_nonneg {s x : ℝ} (hx : 0 ≤ x) : logTransform s x = s * Real.log (1 + x / s) := by
  unfold logTransform
  rcases hx.eq_or_lt with rfl | h
  · simp
  · rw [Real.sign_of_pos h, abs_of_pos h, one_mul]

theorem logInverse_of_nonneg {s x : ℝ} (hx : 0 ≤ x) : logInverse s x = s * (Real.exp (x / s) - 1) := by
  unfold logInverse
  rcases hx.eq_or_lt with rfl | h
  · simp
  · rw [Real.sign_of_pos h, abs_of_pos h, one_mul]

theorem logTransform_neg (s x : ℝ) : logTransform s (-x) = -logTransform s x := by
  unfold logTransform
  rw [Real.sign_neg, abs_neg]; ring

theorem logInverse_neg (s x : ℝ) : logInverse s (-x) = -logInverse s x := by
  unfold logInverse
  rw [Real.sign_neg, abs_neg]; ring

theorem logTransform_nonneg {s x : ℝ} (hs : 0 < s) (hx : 0 ≤ x) : 0 ≤ logTransform s x := by
  rw [logTransform_of_nonneg hx]
  exact mul_nonneg hs.le (Real.log_nonneg (by have := div_nonneg hx hs.le; linarith))

theorem logInverse_nonneg {s x : ℝ} (hs : 0 < s) (hx : 0 ≤ x) : 0 ≤ logInverse s x := by
  rw [logInverse_of_nonneg hx]
  refine mul_nonneg hs.le ?_
  have := Real.add_one_le_exp (x / s)
  have := div_nonneg hx hs.le
  linarith

theorem inverse_transform_nonneg {s x : ℝ} (hs : 0 < s) (hx : 0 ≤ x) : logInverse s (logTransform s x) = x := by
  rw [logInverse_of_nonneg (logTransform_nonneg hs hx), logTransform_of_nonneg hx, mul_div_cancel_left₀ _ hs.ne',
    Real.exp_log (by have := div_nonneg hx hs.le; linarith)]
  field_simp; ring

theorem transform_inverse_nonneg {s x : ℝ} (hs : 0 < s) (hx : 0 ≤ x) : logTransform s (logInverse s x) = x := by
  rw [logTransform_of_nonneg (logInverse_nonneg hs hx), logInverse_of_nonneg hx, mul_div_cancel_left₀ _ hs.ne']
  rw [show 1 + (Real.exp (x / s) - 1) = Real.exp (x / s) by ring, Real.log_exp]
  field_simp

/-- C42.  Exactly the positive scales are accepted. -/
theorem C42_accepts (s : ℝ) : (0 < s ∧ newLogTransform s = .ok (logTransform s, logInverse s)) ∨ (s ≤ 0 ∧ newLogTransform s = .error .assertionError) := by
  unfold newLogTransform
  rcases lt_or_ge 0 s with h | h
  · exact .inl ⟨h, by rw [if_neg (not_not.2 h)]⟩
  · exact .inr ⟨h, by rw [if_pos (not_lt.2 h)]⟩

/-- C42.  The two functions are inverse to each other on all reals. -/
theorem C42_inverse {s : ℝ} {f g : ℝ → ℝ} (h : newLogTransform s = .ok (f, g)) : (∀ x, g (f x) = x) ∧ (∀ y, f (g y) = y) := by
  rcases C42_accepts s with ⟨hs, h'⟩ | ⟨hs, h'⟩
  · rw [h'] at h; cases h
    constructor
    · intro x
      rcases le_total 0 x with hx | hx
      · exact inverse_transform_nonneg hs hx
      · have := inverse_transform_nonneg hs (neg_nonneg.2 hx)
        rw [logTransform_neg, logInverse_neg] at this; linarith
    · intro x
      rcases le_total 0 x with hx | hx
      · exact transform_inverse_nonneg hs hx
      · have := transform_inverse_nonneg hs (neg_nonneg.2 hx)
        rw [logInverse_neg, logTransform_neg] at this; linarith
  · rw [h'] at h; cases h

/-- C42.  Both functions are odd. -/
theorem C42_odd {s : ℝ} {f g : ℝ → ℝ} (h : newLogTransform s = .ok (f, g)) (x : ℝ) : f (-x) = -f x ∧ g (-x) = -g x := by
  rcases C42_accepts s with ⟨hs, h'⟩ | ⟨hs, h'⟩
  · rw [h'] at h; cases h; exact ⟨logTransform_neg s x, logInverse_neg s x⟩
  · rw [h'] at h; cases h

theorem transform_strictMono_nonneg {s : ℝ} (hs : 0 < s) {x y : ℝ} (hx : 0 ≤ x) (hxy : x < y) : logTransform s x < logTransform s y := by
  rw [logTransform_of_nonneg hx, logTransform_of_nonneg (hx.trans hxy.le)]
  refine mul_lt_mul_of_pos_left (Real.log_lt_log ?_ ?_) hs
  · have := div_nonneg hx hs.le; linarith
  · have := div_lt_div_of_pos_right hxy hs; linarith

/-- C42.  Both functions are strictly increasing. -/
theorem C42_strictMono {s : ℝ} {f g : ℝ → ℝ} (h : newLogTransform s = .ok (f, g)) : StrictMono f ∧ StrictMono g := by
  have hinv := C42_inverse h
  have hf : StrictMono f := by
    rcases C42_accepts s with ⟨hs, h'⟩ | ⟨hs, h'⟩
    · rw [h'] at h; cases h
      intro x y hxy
      rcases le_total 0 x with hx | hx
      · exact transform_strictMono_nonneg hs hx hxy
      · rcases le_total 0 y with hy | hy
        · have h1 := logTransform_nonneg hs (neg_nonneg.2 hx)
          rw [logTransform_neg] at h1
          have h2 := logTransform_nonneg hs hy
          rcases h1.eq_or_lt with h3 | h3
          · rcases h2.eq_or_lt with h4 | h4
            · exfalso
              have e1 := hinv.1 x
              have e2 := hinv.1 y
              have : logTransform s x = logTransform s y := by linarith
              rw [this] at e1; linarith
            · linarith
          · linarith
        · have := transform_strictMono_nonneg hs (neg_nonneg.2 hy) (neg_lt_neg hxy)
          rw [logTransform_neg, logTransform_neg] at this; linarith
    · rw [h'] at h; cases h
  refine ⟨hf, ?_⟩
  intro x y hxy
  by_contra hc
  have := hf.monotone (not_lt.1 hc)
  rw [hinv.2, hinv.2] at this
  linarith

/-- C42.  The transform compresses and the inverse expands: `|f x| ≤ |x| ≤ |g x|`. -/
theorem C42_compresses {s : ℝ} {f g : ℝ → ℝ} (h : newLogTransform s = .ok (f, g)) (x : ℝ) : |f x| ≤ |x| ∧ |x| ≤ |g x| := by
  have hinv := C42_inverse h
  have key : ∀ x, |f x| ≤ |x| := by
    rcases C42_accepts s with ⟨hs, h'⟩ | ⟨hs, h'⟩
    · rw [h'] at h; cases h
      have pos : ∀ x, 0 ≤ x → |logTransform s x| ≤ |x| := by
        intro x hx
        rw [abs_of_nonneg (logTransform_nonneg hs hx), abs_of_nonneg hx, logTransform_of_nonneg hx]
        have h0 := div_nonneg hx hs.le
        have h1 := Real.log_le_sub_one_of_pos (show 0 < 1 + x / s by linarith)
        calc s * Real.log (1 + x / s) ≤ s * (x / s) := mul_le_mul_of_nonneg_left (by linarith) hs.le
          _ = x := by field_simp
      intro x
      rcases le_total 0 x with hx | hx
      · exact pos x hx
      · have := pos (-x) (neg_nonneg.2 hx)
        rwa [logTransform_neg, abs_neg, abs_neg] at this
    · rw [h'] at h; cases h
  refine ⟨key x, ?_⟩
  have := key (g x)
  rwa [hinv.2] at this

/-- C42.  It is the documented function: `sign(x) λ log(1 + |x|/λ)` with inverse `sign(y) λ (e^{|y|/λ} - 1)`, whose derivative at
0 is 1 (it interpolates to the identity for small values). -/
theorem C42_near_identity {s : ℝ} {f g : ℝ → ℝ} (h : newLogTransform s = .ok (f, g)) : f 0 = 0 ∧ HasDerivWithinAt f 1 (Set.Ici 0) 0 := by
  rcases C42_accepts s with ⟨hs, h'⟩ | ⟨hs, h'⟩
  · rw [h'] at h; cases h
    refine ⟨by simp [logTransform], ?_⟩
    have h1 : HasDerivAt (fun x : ℝ => 1 + x / s) (1 / s) 0 := ((hasDerivAt_id' (0 : ℝ)).div_const s).const_add 1
    have h2 := (h1.log (by simp)).const_mul s
    have h3 : HasDerivAt (fun x : ℝ => s * Real.log (1 + x / s)) 1 0 := by
      rwa [zero_div, add_zero, div_one, mul_one_div_cancel hs.ne'] at h2
    refine h3.hasDerivWithinAt.congr (fun x hx => logTransform_of_nonneg hx) (by simp [logTransform])
  · rw [h'] at h; cases h

/-- A scale that is accepted. -/
example : newLogTransform 2 = .ok (logTransform 2, logInverse 2) := by
  rcases C42_accepts 2 with ⟨_, h⟩ | ⟨h, _⟩
  · exact h
  · norm_num at h

example : logTransform 1 (Real.exp 1 - 1) = 1 := by
  rw [logTransform_of_nonneg (by have := Real.add_one_le_exp (1 : ℝ); linarith)]
  simp

end Coax.Values
