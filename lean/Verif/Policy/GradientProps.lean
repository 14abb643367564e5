import Verif.Policy.ObjectivesProps
import Verif.Dists.CategoricalProps
import Mathlib.Analysis.SpecialFunctions.Log.Deriv
import Mathlib.Algebra.BigOperators.Ring.Finset

/-! Property C86: averaged over actions drawn from the policy, the gradient of the policy objectives is the gradient of the expected advantage, whatever baseline is subtracted. -/

namespace Coax.Pol

open Coax.Dists

variable {B n : Nat} {E : Type*} [NormedAddCommGroup E] [NormedSpace ℝ E]

/-- The one-hot encoded action. -/
def oneHotAction (a : Fin n) : Fin n → ℝ := fun k => if k = a then 1 else 0

/-- `D` is the gradient at `θ` of `objective acts`, averaged over the actions of the batch: `acts` has probability `p acts`. -/
def ExpectedGradient (objective : (Fin B → Fin n) → E → Except Err (Option ℝ)) (p : (Fin B → Fin n) → ℝ) (θ : E) (D : E →L[ℝ] ℝ) : Prop :=
  ∃ (V : (Fin B → Fin n) → E → ℝ) (g : (Fin B → Fin n) → E →L[ℝ] ℝ), (∀ acts x, objective acts x = .ok (some (V acts x))) ∧ (∀ acts, HasFDerivAt (V acts) (g acts) θ) ∧
    D = ∑ acts, p acts • g acts

/-- The probability of drawing `acts` if in the `i`-th state each action `a` has probability `pi i a`. -/
def drawn (pi : Fin B → Fin n → ℝ) (acts : Fin B → Fin n) : ℝ := ∏ i, pi i (acts i)

theorem marginal {pi : Fin B → Fin n → ℝ} (hpi : ∀ i, ∑ a, pi i a = 1) (j : Fin B) (f : Fin n → ℝ) : ∑ acts, drawn pi acts * f (acts j) = ∑ a, pi j a * f a := by
  have h := Finset.prod_univ_sum (fun _ : Fin B => (Finset.univ : Finset (Fin n))) fun i a => pi i a * (if i = j then f a else 1)
  rw [Fintype.piFinset_univ] at h
  have e1 : ∀ acts : Fin B → Fin n, ∏ i, pi i (acts i) * (if i = j then f (acts i) else 1) = drawn pi acts * f (acts j) := by
    intro acts
    rw [Finset.prod_mul_distrib]
    unfold drawn
    simp
  have e2 : ∏ i, ∑ a, pi i a * (if i = j then f a else 1) = ∑ a, pi j a * f a := by
    rw [Finset.prod_eq_single j]
    · simp
    · intro i _ hi
      simp [hi, hpi]
    · simp
  simp only [e1] at h
  rw [← h, e2]

theorem logProbaRow_oneHot (z : Fin n → ℝ) (a : Fin n) : logProbaRow z (oneHotAction a) = logSoftmax z a := by
  unfold logProbaRow oneHotAction
  simp

/-- The gradient of the log-probability of an action. -/
noncomputable def score (z : Fin n → ℝ) (z' : Fin n → E →L[ℝ] ℝ) (a : Fin n) : E →L[ℝ] ℝ := z' a - ∑ k, meanRow z k • z' k

theorem hasFDerivAt_logSoftmax {z : E → Fin n → ℝ} {z' : Fin n → E →L[ℝ] ℝ} {θ : E} (hz : ∀ k, HasFDerivAt (fun x => z x k) (z' k) θ) (a : Fin n) :
    HasFDerivAt (fun x => logSoftmax (z x) a) (score (z θ) z' a) θ := by
  have hs : HasFDerivAt (fun x => ∑ k, Real.exp (z x k)) (∑ k, Real.exp (z θ k) • z' k) θ := HasFDerivAt.fun_sum fun k _ => (hz k).exp
  have hpos : 0 < ∑ k, Real.exp (z θ k) := Finset.sum_pos (fun _ _ => Real.exp_pos _) ⟨a, Finset.mem_univ a⟩
  have h := (hz a).sub (hs.log hpos.ne')
  have e : (∑ k, Real.exp (z θ k))⁻¹ • ∑ k, Real.exp (z θ k) • z' k = ∑ k, meanRow (z θ) k • z' k := by
    rw [Finset.smul_sum]
    refine Finset.sum_congr rfl fun k _ => ?_
    unfold meanRow softmax
    rw [smul_smul, div_eq_inv_mul]
  rw [e] at h
  exact h

theorem hasFDerivAt_meanRow {z : E → Fin n → ℝ} {z' : Fin n → E →L[ℝ] ℝ} {θ : E} (hz : ∀ k, HasFDerivAt (fun x => z x k) (z' k) θ) (a : Fin n) :
    HasFDerivAt (fun x => meanRow (z x) a) (meanRow (z θ) a • score (z θ) z' a) θ := by
  have h := (hasFDerivAt_logSoftmax hz a).exp
  simp only [exp_logSoftmax] at h
  exact h

/-- The expected advantage of a policy in the states of the batch, weighted. -/
noncomputable def expectedAdvantage (w : Fin B → ℝ) (adv : Fin B → Fin n → ℝ) (pi : Fin B → Fin n → ℝ) : ℝ := (∑ i, limited (w i) * ∑ a, pi i a * adv i a) / B

theorem drawn_average (hn : 0 < n) (w : Fin B → ℝ) (adv : Fin B → Fin n → ℝ) (z : Fin B → Fin n → ℝ) (z' : Fin B → Fin n → E →L[ℝ] ℝ) :
    ∑ acts : Fin B → Fin n, drawn (fun i => meanRow (z i)) acts • ((B : ℝ)⁻¹ • ∑ i, (limited (w i) * adv i (acts i)) • score (z i) (z' i) (acts i)) =
      (B : ℝ)⁻¹ • ∑ i, limited (w i) • ∑ a, (adv i a * meanRow (z i) a) • score (z i) (z' i) a := by
  ext v
  simp only [sum_apply, smul_apply, smul_eq_mul]
  have h := fun i => marginal (pi := fun i => meanRow (z i)) (fun i => (C49_probabilities (z i)).2 hn) i fun a => limited (w i) * adv i a * score (z i) (z' i) a v
  calc _ = (B : ℝ)⁻¹ * ∑ i, ∑ acts : Fin B → Fin n, drawn (fun i => meanRow (z i)) acts * (limited (w i) * adv i (acts i) * score (z i) (z' i) (acts i) v) := by
        rw [Finset.sum_comm, Finset.mul_sum]
        refine Finset.sum_congr rfl fun acts _ => ?_
        rw [← Finset.mul_sum]
        ring
    _ = _ := by
        congr 1
        refine Finset.sum_congr rfl fun i _ => ?_
        rw [h i, Finset.mul_sum]
        exact Finset.sum_congr rfl fun a _ => by ring

theorem hasFDerivAt_expectedAdvantage (w : Fin B → ℝ) (adv : Fin B → Fin n → ℝ) {z : E → Fin B → Fin n → ℝ} {z' : Fin B → Fin n → E →L[ℝ] ℝ} {θ : E}
    (hz : ∀ i k, HasFDerivAt (fun x => z x i k) (z' i k) θ) :
    HasFDerivAt (fun x => expectedAdvantage w adv fun i => meanRow (z x i)) ((B : ℝ)⁻¹ • ∑ i, limited (w i) • ∑ a, (adv i a * meanRow (z θ i) a) • score (z θ i) (z' i) a) θ := by
  unfold expectedAdvantage
  refine hasFDerivAt_weightedMean (fun i => ?_) _
  refine HasFDerivAt.fun_sum fun a _ => ?_
  have h := (hasFDerivAt_meanRow (hz i) a).const_mul (adv i a)
  rw [smul_smul] at h
  simpa only [mul_comm] using h

/-- C86: VanillaPG.  Averaged over actions drawn from the current policy, the gradient of the objective is the gradient of the expected advantage. -/
theorem C86_vanilla (hB : 0 < B) (hn : 0 < n) (w : Fin B → ℝ) (adv : Fin B → Fin n → ℝ) {z : E → Fin B → Fin n → ℝ} {z' : Fin B → Fin n → E →L[ℝ] ℝ} {θ : E}
    (hz : ∀ i k, HasFDerivAt (fun x => z x i k) (z' i k) θ) :
    ∃ D, ExpectedGradient (fun acts x => vanillaObjective (List.ofFn w) (List.ofFn fun i => adv i (acts i)) (List.ofFn fun i => logProbaRow (z x i) (oneHotAction (acts i))))
        (drawn fun i => meanRow (z θ i)) θ D ∧
      HasFDerivAt (fun x => expectedAdvantage w adv fun i => meanRow (z x i)) D θ := by
  refine ⟨_, ⟨_, fun acts => (B : ℝ)⁻¹ • ∑ i, (limited (w i) * adv i (acts i)) • score (z θ i) (z' i) (acts i), fun acts x => vanilla_ofFn hB w _ _, ?_, rfl⟩, ?_⟩
  · intro acts
    simp only [logProbaRow_oneHot]
    exact hasFDerivAt_weightedMean (fun i => hasFDerivAt_logSoftmax (hz i) (acts i)) fun i => limited (w i) * adv i (acts i)
  · rw [drawn_average hn]
    exact hasFDerivAt_expectedAdvantage w adv hz

/-- C86: PPOClip, as long as the policy is the one that was recorded. -/
theorem C86_ppo {epsilon : ℝ} (he : 0 < epsilon) (hB : 0 < B) (hn : 0 < n) (w : Fin B → ℝ) (adv : Fin B → Fin n → ℝ) {z : E → Fin B → Fin n → ℝ} {z' : Fin B → Fin n → E →L[ℝ] ℝ} {θ : E}
    (hz : ∀ i k, HasFDerivAt (fun x => z x i k) (z' i k) θ) :
    ∃ D, ExpectedGradient (fun acts x => ppoObjective epsilon (List.ofFn w) (List.ofFn fun i => adv i (acts i)) (List.ofFn fun i => logProbaRow (z x i) (oneHotAction (acts i)))
          (List.ofFn fun i => logProbaRow (z θ i) (oneHotAction (acts i)))) (drawn fun i => meanRow (z θ i)) θ D ∧
      HasFDerivAt (fun x => expectedAdvantage w adv fun i => meanRow (z x i)) D θ := by
  have h := fun acts : Fin B → Fin n => C56_on_policy he hB w (fun i => adv i (acts i)) (l := fun x i => logProbaRow (z x i) (oneHotAction (acts i))) (θ := θ)
    (fun i => by simpa only [logProbaRow_oneHot] using hasFDerivAt_logSoftmax (hz i) (acts i))
  choose J V h1 h2 h3 h4 using h
  refine ⟨_, ⟨J, _, h1, h3, rfl⟩, ?_⟩
  rw [drawn_average hn]
  exact hasFDerivAt_expectedAdvantage w adv hz

/-- C86: a baseline, any number per state that does not depend on the action, changes neither of the expected gradients. -/
theorem C86_baseline (hB : 0 < B) (hn : 0 < n) (w : Fin B → ℝ) (adv : Fin B → Fin n → ℝ) (c : Fin B → ℝ) {z : E → Fin B → Fin n → ℝ} {z' : Fin B → Fin n → E →L[ℝ] ℝ} {θ : E}
    (hz : ∀ i k, HasFDerivAt (fun x => z x i k) (z' i k) θ) :
    ∃ D, ExpectedGradient (fun acts x => vanillaObjective (List.ofFn w) (List.ofFn fun i => adv i (acts i)) (List.ofFn fun i => logProbaRow (z x i) (oneHotAction (acts i))))
        (drawn fun i => meanRow (z θ i)) θ D ∧
      ExpectedGradient (fun acts x => vanillaObjective (List.ofFn w) (List.ofFn fun i => adv i (acts i) - c i) (List.ofFn fun i => logProbaRow (z x i) (oneHotAction (acts i))))
        (drawn fun i => meanRow (z θ i)) θ D := by
  obtain ⟨D, h1, h2⟩ := C86_vanilla hB hn w adv hz
  obtain ⟨D', h1', h2'⟩ := C86_vanilla hB hn w (fun i a => adv i a - c i) hz
  have e : (fun x => expectedAdvantage w adv fun i => meanRow (z x i)) = fun x => expectedAdvantage w (fun i a => adv i a - c i) (fun i => meanRow (z x i)) + (∑ i, limited (w i) * c i) / B := by
    funext x
    unfold expectedAdvantage
    rw [← add_div, ← Finset.sum_add_distrib]
    congr 1
    refine Finset.sum_congr rfl fun i _ => ?_
    simp only [mul_sub, Finset.sum_sub_distrib]
    rw [← Finset.sum_mul, (C49_probabilities (z x i)).2 hn]
    ring
  rw [e] at h2
  have : D = D' := h2.unique (h2'.add_const _)
  subst this
  exact ⟨D, h1, h1'⟩

/-- Logits that are the parameters themselves meet the hypotheses; the expected gradient points from the bad action to the good one. -/
example : ∃ D, ExpectedGradient (E := Fin 2 → ℝ) (fun (acts : Fin 1 → Fin 2) x => vanillaObjective (List.ofFn fun _ : Fin 1 => 1) (List.ofFn fun i => (![1, 0] : Fin 2 → ℝ) (acts i))
      (List.ofFn fun i => logProbaRow x (oneHotAction (acts i)))) (drawn fun _ => meanRow (0 : Fin 2 → ℝ)) 0 D ∧ D ![1, -1] = 1 / 2 := by
  have hz : ∀ (i : Fin 1) (k : Fin 2), HasFDerivAt (fun x : Fin 2 → ℝ => x k) (ContinuousLinearMap.proj k : (Fin 2 → ℝ) →L[ℝ] ℝ) 0 := fun _ k => hasFDerivAt_apply k _
  obtain ⟨D, h1, h2⟩ := C86_vanilla (B := 1) one_pos (by norm_num) (fun _ => 1) (fun _ => ![1, 0]) (z := fun x _ => x) (z' := fun _ k => ContinuousLinearMap.proj k) (θ := 0) hz
  refine ⟨D, h1, ?_⟩
  rw [h2.unique (hasFDerivAt_expectedAdvantage _ _ hz)]
  simp [score, meanRow, softmax, limited]
  norm_num

end Coax.Pol
