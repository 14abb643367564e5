import Verif.Policy.Objectives
import Verif.TD.TargetsProps
import Mathlib.Analysis.SpecialFunctions.ExpDeriv
import Mathlib.Analysis.Calculus.FDeriv.Mul
import Mathlib.Analysis.Calculus.FDeriv.Add

/-! Properties C56 (PPO clipped objective) and C64 (the loss of a policy objective). -/

namespace Coax.Pol

variable {B : Nat}

/-- The importance weight of a sample as it should enter the objective: limited to the range from 1/10 to 10. -/
noncomputable def limited (w : ℝ) : ℝ := if w < 1 / 10 then 1 / 10 else if 10 < w then 10 else w

theorem clip_weight (w : ℝ) : clip w 0.1 10 = limited w := by
  unfold clip limited
  split_ifs with h1 h2
  · rw [max_eq_right (by norm_num; linarith), min_eq_left (by norm_num)]; norm_num
  · rw [max_eq_left (by norm_num; linarith), min_eq_right (by linarith)]
  · rw [max_eq_left (by norm_num; linarith), min_eq_left (by linarith)]

theorem limited_pos (w : ℝ) : 0 < limited w := by
  unfold limited; split_ifs <;> linarith

theorem clipW_ofFn (w : Fin B → ℝ) : clipW (List.ofFn w) = List.ofFn (fun i => limited (w i)) := by
  unfold clipW
  rw [List.map_ofFn]
  congr 1; funext i; exact clip_weight _

theorem zipWith_ofFn {α β γ : Type _} (f : α → β → γ) (a : Fin B → α) (b : Fin B → β) :
    List.zipWith f (List.ofFn a) (List.ofFn b) = List.ofFn (fun i => f (a i) (b i)) := by
  apply List.ext_getElem (by simp)
  intro i h1 h2
  simp

theorem broadcast_ofFn (f : ℝ → ℝ → ℝ) (a b : Fin B → ℝ) : broadcast f (List.ofFn a) (List.ofFn b) = .ok (List.ofFn (fun i => f (a i) (b i))) := by
  unfold broadcast
  simp [zipWith_ofFn]

theorem mean_ofFn (hB : 0 < B) (a : Fin B → ℝ) : mean (List.ofFn a) = some ((∑ i, a i) / B) := by
  unfold mean
  rw [if_neg (by simp; omega), List.sum_ofFn, List.length_ofFn]

/-- The surrogate of one sample, without clipping. -/
noncomputable def surrogate (adv logPi logP : ℝ) : ℝ := adv * Real.exp (logPi - logP)

/-- The summand of one sample in the PPO objective. -/
noncomputable def ppoTerm (epsilon adv logPi logP : ℝ) : ℝ :=
  min (adv * Real.exp (logPi - logP)) (adv * clip (Real.exp (logPi - logP)) (1 - epsilon) (1 + epsilon))

theorem ppo_ofFn (epsilon : ℝ) (hB : 0 < B) (w adv lpi lp : Fin B → ℝ) :
    ppoObjective epsilon (List.ofFn w) (List.ofFn adv) (List.ofFn lpi) (List.ofFn lp) =
      .ok (some ((∑ i, limited (w i) * ppoTerm epsilon (adv i) (lpi i) (lp i)) / B)) := by
  unfold ppoObjective
  rw [broadcast_ofFn]
  simp only
  rw [clipW_ofFn, if_pos (by simp), List.map_ofFn, zipWith_ofFn, zipWith_ofFn, zipWith_ofFn, zipWith_ofFn, mean_ofFn hB]
  rfl

theorem vanilla_ofFn (hB : 0 < B) (w adv lpi : Fin B → ℝ) :
    vanillaObjective (List.ofFn w) (List.ofFn adv) (List.ofFn lpi) = .ok (some ((∑ i, limited (w i) * adv i * lpi i) / B)) := by
  unfold vanillaObjective
  simp only
  rw [clipW_ofFn, if_pos (by simp), zipWith_ofFn, zipWith_ofFn, mean_ofFn hB]

/-- The ratio is beyond the bound on the side to which the advantage pushes it. -/
def Beyond (epsilon adv ratio : ℝ) : Prop := (0 < adv ∧ 1 + epsilon < ratio) ∨ (adv < 0 ∧ ratio < 1 - epsilon)

theorem ppoTerm_le (epsilon adv lpi lp : ℝ) : ppoTerm epsilon adv lpi lp ≤ surrogate adv lpi lp := min_le_left _ _

theorem clip_of_mem {x l h : ℝ} (h1 : l ≤ x) (h2 : x ≤ h) : clip x l h = x := by
  unfold clip; rw [max_eq_left h1, min_eq_left h2]

theorem clip_of_gt {x l h : ℝ} (hlh : l ≤ h) (hx : h ≤ x) : clip x l h = h := by
  unfold clip; rw [max_eq_left (hlh.trans hx), min_eq_right hx]

theorem clip_of_lt {x l h : ℝ} (hlh : l ≤ h) (hx : x ≤ l) : clip x l h = l := by
  unfold clip; rw [max_eq_right hx, min_eq_left hlh]

/-- Beyond the bound the term is what it is at the bound. -/
theorem ppoTerm_beyond {epsilon adv lpi lp : ℝ} (he : 0 ≤ epsilon) (hb : Beyond epsilon adv (Real.exp (lpi - lp))) :
    ppoTerm epsilon adv lpi lp = if 0 < adv then adv * (1 + epsilon) else adv * (1 - epsilon) := by
  unfold ppoTerm
  rcases hb with ⟨h1, h2⟩ | ⟨h1, h2⟩
  · rw [if_pos h1, clip_of_gt (by linarith) h2.le, min_eq_right (by nlinarith)]
  · rw [if_neg (by linarith), clip_of_lt (by linarith) h2.le, min_eq_right (by nlinarith)]

/-- Elsewhere it is the surrogate. -/
theorem ppoTerm_not_beyond {epsilon adv lpi lp : ℝ} (he : 0 ≤ epsilon) (hb : ¬ Beyond epsilon adv (Real.exp (lpi - lp))) :
    ppoTerm epsilon adv lpi lp = surrogate adv lpi lp := by
  unfold ppoTerm surrogate
  set r := Real.exp (lpi - lp)
  unfold Beyond at hb
  push Not at hb
  obtain ⟨hb1, hb2⟩ := hb
  rcases lt_trichotomy adv 0 with ha | ha | ha
  · have h := hb2 ha
    rcases le_total r (1 + epsilon) with h' | h'
    · rw [clip_of_mem h h', min_self]
    · rw [clip_of_gt (by linarith) h', min_eq_left (by nlinarith)]
  · rw [ha]; simp
  · have h := hb1 ha
    rcases le_total (1 - epsilon) r with h' | h'
    · rw [clip_of_mem h' h, min_self]
    · rw [clip_of_lt (by linarith) h', min_eq_left (by nlinarith)]

/-- C56.  For every batch: the objective is the mean over the samples of the limited weight times the clipped surrogate, which is the surrogate unless
the ratio is beyond the bound in the favourable direction, and then the surrogate at the bound. -/
theorem C56_objective {epsilon : ℝ} (he : 0 ≤ epsilon) (hB : 0 < B) (w adv lpi lp : Fin B → ℝ) :
    ∃ t : Fin B → ℝ, ppoObjective epsilon (List.ofFn w) (List.ofFn adv) (List.ofFn lpi) (List.ofFn lp) = .ok (some ((∑ i, limited (w i) * t i) / B)) ∧
      ∀ i, t i ≤ surrogate (adv i) (lpi i) (lp i) ∧
        (Beyond epsilon (adv i) (Real.exp (lpi i - lp i)) → t i = if 0 < adv i then adv i * (1 + epsilon) else adv i * (1 - epsilon)) ∧
        (¬ Beyond epsilon (adv i) (Real.exp (lpi i - lp i)) → t i = surrogate (adv i) (lpi i) (lp i)) :=
  ⟨_, ppo_ofFn epsilon hB w adv lpi lp, fun _ => ⟨ppoTerm_le _ _ _ _, ppoTerm_beyond he, ppoTerm_not_beyond he⟩⟩

/-- C56.  Never more than the mean of the unclipped surrogates, for every epsilon. -/
theorem C56_le_surrogate (epsilon : ℝ) (hB : 0 < B) (w adv lpi lp : Fin B → ℝ) :
    ∃ J, ppoObjective epsilon (List.ofFn w) (List.ofFn adv) (List.ofFn lpi) (List.ofFn lp) = .ok (some J) ∧
      J ≤ (∑ i, limited (w i) * surrogate (adv i) (lpi i) (lp i)) / B :=
  ⟨_, ppo_ofFn epsilon hB w adv lpi lp, div_le_div_of_nonneg_right
    (Finset.sum_le_sum fun _ _ => mul_le_mul_of_nonneg_left (ppoTerm_le _ _ _ _) (limited_pos _).le) (Nat.cast_nonneg _)⟩

/-- C56.  Once beyond the bound in the favourable direction, moving the ratio further does not change the objective. -/
theorem C56_no_incentive {epsilon : ℝ} (he : 0 ≤ epsilon) (hB : 0 < B) (w adv lpi lpi' lp : Fin B → ℝ)
    (h : ∀ i, lpi i = lpi' i ∨ (Beyond epsilon (adv i) (Real.exp (lpi i - lp i)) ∧ Beyond epsilon (adv i) (Real.exp (lpi' i - lp i)))) :
    ppoObjective epsilon (List.ofFn w) (List.ofFn adv) (List.ofFn lpi) (List.ofFn lp) =
      ppoObjective epsilon (List.ofFn w) (List.ofFn adv) (List.ofFn lpi') (List.ofFn lp) := by
  rw [ppo_ofFn epsilon hB, ppo_ofFn epsilon hB]
  have : ∀ i, ppoTerm epsilon (adv i) (lpi i) (lp i) = ppoTerm epsilon (adv i) (lpi' i) (lp i) := by
    intro i
    rcases h i with h | ⟨h1, h2⟩
    · rw [h]
    · rw [ppoTerm_beyond he h1, ppoTerm_beyond he h2]
  simp only [this]

section Gradient

variable {E : Type _} [NormedAddCommGroup E] [NormedSpace ℝ E]

theorem hasFDerivAt_surrogate {l : E → ℝ} {l' : E →L[ℝ] ℝ} {θ : E} (hl : HasFDerivAt l l' θ) (adv lp : ℝ) :
    HasFDerivAt (fun x => surrogate adv (l x) lp) (surrogate adv (l θ) lp • l') θ := by
  have h := ((hl.sub_const lp).exp).const_mul adv
  unfold surrogate
  rw [mul_smul]
  exact h

open Classical in
/-- The gradient of one term. -/
theorem hasFDerivAt_ppoTerm {epsilon : ℝ} (he : 0 ≤ epsilon) {l : E → ℝ} {l' : E →L[ℝ] ℝ} {θ : E} (hl : HasFDerivAt l l' θ) (adv lp : ℝ)
    (h1 : 0 < adv → Real.exp (l θ - lp) ≠ 1 + epsilon) (h2 : adv < 0 → Real.exp (l θ - lp) ≠ 1 - epsilon) :
    HasFDerivAt (fun x => ppoTerm epsilon adv (l x) lp)
      (if Beyond epsilon adv (Real.exp (l θ - lp)) then 0 else surrogate adv (l θ) lp • l') θ := by
  have hc : ContinuousAt (fun x => Real.exp (l x - lp)) θ := (Real.continuous_exp.continuousAt).comp (hl.continuousAt.sub continuousAt_const)
  split_ifs with hb
  · have hev : ∀ᶠ x in nhds θ, Beyond epsilon adv (Real.exp (l x - lp)) := by
      rcases hb with ⟨a, b⟩ | ⟨a, b⟩
      · filter_upwards [hc.eventually (lt_mem_nhds b)] with x hx using Or.inl ⟨a, hx⟩
      · filter_upwards [hc.eventually (gt_mem_nhds b)] with x hx using Or.inr ⟨a, hx⟩
    refine (hasFDerivAt_const (if 0 < adv then adv * (1 + epsilon) else adv * (1 - epsilon)) θ).congr_of_eventuallyEq ?_
    filter_upwards [hev] with x hx using ppoTerm_beyond he hx
  · have hev : ∀ᶠ x in nhds θ, ¬ Beyond epsilon adv (Real.exp (l x - lp)) := by
      unfold Beyond at hb
      push Not at hb
      rcases lt_trichotomy adv 0 with ha | ha | ha
      · have := lt_of_le_of_ne (hb.2 ha) (Ne.symm (h2 ha))
        filter_upwards [hc.eventually (lt_mem_nhds this)] with x hx
        rintro (⟨a, -⟩ | ⟨-, b⟩)
        · linarith
        · exact absurd b (not_lt.2 hx.le)
      · filter_upwards with x
        rintro (⟨a, -⟩ | ⟨a, -⟩) <;> linarith
      · have := lt_of_le_of_ne (hb.1 ha) (h1 ha)
        filter_upwards [hc.eventually (gt_mem_nhds this)] with x hx
        rintro (⟨-, b⟩ | ⟨a, -⟩)
        · exact absurd b (not_lt.2 hx.le)
        · linarith
    refine (hasFDerivAt_surrogate hl adv lp).congr_of_eventuallyEq ?_
    filter_upwards [hev] with x hx using ppoTerm_not_beyond he hx

theorem hasFDerivAt_weightedMean {t : Fin B → E → ℝ} {t' : Fin B → E →L[ℝ] ℝ} {θ : E} (h : ∀ i, HasFDerivAt (t i) (t' i) θ) (w : Fin B → ℝ) :
    HasFDerivAt (fun x => (∑ i, w i * t i x) / B) ((B : ℝ)⁻¹ • ∑ i, w i • t' i) θ := by
  have h1 : HasFDerivAt (fun x => ∑ i, w i * t i x) (∑ i, w i • t' i) θ := HasFDerivAt.fun_sum fun i _ => (h i).const_mul (w i)
  have h2 := h1.const_mul (B : ℝ)⁻¹
  simp only [div_eq_inv_mul]
  exact h2

open Classical in
/-- C56.  The gradient of the objective with respect to the parameters of the policy: the samples beyond the bound in the favourable direction contribute nothing,
the others what they contribute to the gradient of the unclipped surrogate.  (At the bound itself the objective has a kink.) -/
theorem C56_gradient {epsilon : ℝ} (he : 0 ≤ epsilon) (hB : 0 < B) (w adv lp : Fin B → ℝ) {l : E → Fin B → ℝ} {l' : Fin B → E →L[ℝ] ℝ} {θ : E}
    (hl : ∀ i, HasFDerivAt (fun x => l x i) (l' i) θ)
    (h1 : ∀ i, 0 < adv i → Real.exp (l θ i - lp i) ≠ 1 + epsilon) (h2 : ∀ i, adv i < 0 → Real.exp (l θ i - lp i) ≠ 1 - epsilon) :
    ∃ J : E → ℝ, (∀ x, ppoObjective epsilon (List.ofFn w) (List.ofFn adv) (List.ofFn (l x)) (List.ofFn lp) = .ok (some (J x))) ∧
      HasFDerivAt J ((B : ℝ)⁻¹ • ∑ i, limited (w i) •
        (if Beyond epsilon (adv i) (Real.exp (l θ i - lp i)) then 0 else surrogate (adv i) (l θ i) (lp i) • l' i)) θ :=
  ⟨_, fun x => ppo_ofFn epsilon hB w adv (l x) lp,
    hasFDerivAt_weightedMean (fun i => hasFDerivAt_ppoTerm he (hl i) (adv i) (lp i) (h1 i) (h2 i)) _⟩

/-- C56.  On-policy (the recorded log-propensities are those of the current policy) the gradient is that of the vanilla policy gradient. -/
theorem C56_on_policy {epsilon : ℝ} (he : 0 < epsilon) (hB : 0 < B) (w adv : Fin B → ℝ) {l : E → Fin B → ℝ} {l' : Fin B → E →L[ℝ] ℝ} {θ : E}
    (hl : ∀ i, HasFDerivAt (fun x => l x i) (l' i) θ) :
    ∃ J V : E → ℝ, (∀ x, ppoObjective epsilon (List.ofFn w) (List.ofFn adv) (List.ofFn (l x)) (List.ofFn (l θ)) = .ok (some (J x))) ∧
      (∀ x, vanillaObjective (List.ofFn w) (List.ofFn adv) (List.ofFn (l x)) = .ok (some (V x))) ∧
      HasFDerivAt J ((B : ℝ)⁻¹ • ∑ i, (limited (w i) * adv i) • l' i) θ ∧ HasFDerivAt V ((B : ℝ)⁻¹ • ∑ i, (limited (w i) * adv i) • l' i) θ := by
  classical
  obtain ⟨J, hJ, hd⟩ := C56_gradient (θ := θ) he.le hB w adv (l θ) hl (fun i _ => by rw [sub_self, Real.exp_zero]; linarith)
    (fun i _ => by rw [sub_self, Real.exp_zero]; linarith)
  refine ⟨J, fun x => (∑ i, limited (w i) * adv i * l x i) / B, hJ, fun x => vanilla_ofFn hB w adv (l x), ?_, ?_⟩
  · convert hd using 2
    refine Finset.sum_congr rfl fun i _ => ?_
    rw [if_neg]
    · unfold surrogate; rw [sub_self, Real.exp_zero, mul_one, mul_smul]
    · rw [sub_self, Real.exp_zero]
      rintro (⟨-, b⟩ | ⟨-, b⟩) <;> linarith
  · exact hasFDerivAt_weightedMean hl _

end Gradient

/-- C56.  Arrays of different lengths are rejected, unless `logP` is broadcast. -/
theorem C56_rejects (epsilon : ℝ) (W Adv logPi logP : List ℝ) (h : W.length ≠ Adv.length ∨ W.length ≠ logPi.length) (hl : logPi.length = logP.length) :
    ppoObjective epsilon W Adv logPi logP = .error .assertionError := by
  unfold ppoObjective broadcast
  rw [if_pos hl]
  simp only
  rw [if_neg]
  simp only [clipW, List.length_map, List.length_zipWith, hl, min_self]
  rw [hl] at h
  tauto

/-- Both sides of the bound occur: ratio 2 with eps = 1/5 and advantages 1 and -1. -/
example : Beyond (1/5) 1 (Real.exp (Real.log 2 - 0)) ∧ ¬ Beyond (1/5) (-1) (Real.exp (Real.log 2 - 0)) := by
  rw [sub_zero, Real.exp_log (by norm_num)]
  unfold Beyond
  norm_num

/-- C64.  The loss is minus the objective, plus the weighted mean of the regularizer if there is one; the metrics report both. -/
theorem C64_loss (hB : 0 < B) (J : ℝ) (w lpi lp reg : Fin B → ℝ) :
    ∃ k, lossFunc (.ok (some J)) (List.ofFn w) (List.ofFn lpi) (List.ofFn lp) none = .ok (some (-J), ⟨some (-J), some (-J), some k⟩) ∧
      lossFunc (.ok (some J)) (List.ofFn w) (List.ofFn lpi) (List.ofFn lp) (some (.ok (List.ofFn reg))) =
        .ok (some (-J + (∑ i, limited (w i) * reg i) / B), ⟨some (-J + (∑ i, limited (w i) * reg i) / B), some (-J), some k⟩) ∧
      k = (∑ i, Real.exp (lp i) * (lp i - lpi i)) / B := by
  refine ⟨_, ?_, ?_, rfl⟩ <;>
  · unfold lossFunc
    simp only [broadcast_ofFn, clipW_ofFn, mean_ofFn hB, Option.map_some]

/-- C64.  A regularizer that is constant over the batch is broadcast; a batch-size mismatch raises. -/
theorem C64_mismatch (J : Option ℝ) (W logPi logP reg : List ℝ) (hl : logPi.length = logP.length) (h : reg.length ≠ W.length) (h1 : reg.length ≠ 1) (h2 : W.length ≠ 1) :
    lossFunc (.ok J) W logPi logP (some (.ok reg)) = .error .typeError := by
  have e : broadcast (fun w r => w * r) (clipW W) reg = .error .typeError := by
    unfold broadcast
    rw [if_neg (by simpa [clipW] using Ne.symm h)]
    split
    · simp at h1
    · next hW _ => 
      have := congrArg List.length hW
      simp [clipW] at this; omega
    · rfl
  unfold lossFunc
  simp only [e]
  simp only [broadcast, hl, List.length_zipWith, min_self, if_true]

/-- C64.  The objective of `SoftPG` is the weighted mean of the smallest of the q-functions, so it is at most what any of them would give. -/
theorem C64_soft {m : Nat} (hm : 0 < m) (hB : 0 < B) (w : Fin B → ℝ) (q : Fin m → Fin B → ℝ) :
    ∃ mn : Fin B → ℝ, softObjective (List.ofFn w) (List.ofFn fun j => List.ofFn (q j)) = .ok (some ((∑ i, limited (w i) * mn i) / B)) ∧
      ∀ i, (∀ j, mn i ≤ q j i) ∧ ∃ j, mn i = q j i := by
  obtain ⟨mn, h1, h2, h3⟩ := Coax.TD.stackMin_map (S := List.finRange B) (List.finRange m) (by simp; omega) q
  simp only [← List.ofFn_eq_map] at h1
  have hlen : mn.length = B := by simpa using h2
  refine ⟨fun i => mn[i.1]'(by omega), ?_, fun i => ?_⟩
  · have e : mn = List.ofFn (fun i : Fin B => mn[i.1]'(by omega)) := by
      apply List.ext_getElem (by simp [hlen])
      intro i _ _; simp
    unfold softObjective
    rw [h1]
    simp only
    conv_lhs => rw [e]
    unfold deterministicObjective
    simp only
    rw [clipW_ofFn, if_pos (by simp), zipWith_ofFn, mean_ofFn hB]
  · obtain ⟨x, hx, ⟨k, -, hk⟩, hmin⟩ := h3 i.1 i (by simp)
    rw [List.getElem?_eq_getElem (by omega)] at hx
    cases hx
    exact ⟨fun j => hmin j (by simp), k, hk⟩

/-- C64. -/
theorem C64_deterministic (hB : 0 < B) (w q : Fin B → ℝ) :
    deterministicObjective (List.ofFn w) (List.ofFn q) = .ok (some ((∑ i, limited (w i) * q i) / B)) := by
  unfold deterministicObjective
  simp only
  rw [clipW_ofFn, if_pos (by simp), zipWith_ofFn, mean_ofFn hB]

theorem C64_soft_checks (l : Option (List Bool)) : checkQTargList l = .ok () ↔ ∃ x xs, l = some (x :: xs) ∧ ∀ b ∈ x :: xs, b = true := by
  cases l with
  | none => simp [checkQTargList]
  | some l =>
    cases l with
    | nil => simp [checkQTargList]
    | cons x xs =>
      unfold checkQTargList
      simp only
      by_cases h : (x :: xs).all id = true
      · rw [if_pos h]; simp only [List.all_eq_true, id] at h; simp only [true_iff]; exact ⟨x, xs, rfl, h⟩
      · rw [if_neg h]; simp only [List.all_eq_true, id] at h
        refine iff_of_false (by simp) ?_
        rintro ⟨y, ys, hy, h'⟩
        cases hy
        exact h h'

end Coax.Pol
