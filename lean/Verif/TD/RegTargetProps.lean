import Verif.TD.LossProps
import Verif.TD.TargetsProps
import Verif.Values.TransformProps
import Verif.Policy.ObjectivesProps
import Verif.Dists.CategoricalProps

/-! Properties C68 and C69: the policy regularizer in the TD target, and the importance weights in the TD loss. -/

namespace Coax.TD

open Coax.Values Coax.Pol

variable {P σ α : Type _}

/-! ### C68 -/

/-- The regularized target as a return: `f (Rn + In * f_inv (value s') - regularizer)`, row by row. -/
def RegularizedReturn (f fInv : ℝ → ℝ) (b : TBatch σ α) (spec : σ → ℝ → Prop) (reg G : List ℝ) : Prop :=
  ∀ (i : Nat) (r d rho : ℝ) (s : σ), b.Rn[i]? = some r → b.In[i]? = some d → b.S_next[i]? = some s → reg[i]? = some rho →
    ∃ x, spec s x ∧ G[i]? = some (f (r + d * fInv x - rho))

/-- What a deterministic updater computes: the regularizer is subtracted from the transformed target.  This holds for every updater of C46. -/
theorem C68_shift {f fInv : ℝ → ℝ} {b : TBatch σ α} {spec : σ → ℝ → Prop} {target : Except Err (List ℝ)} (ht : Bootstraps f fInv b spec target) {L : LossFn}
    {reg V VTarg W : List ℝ} (hr : reg.length = b.S_next.length) {out : LossOut} (h : detLoss L (some (.ok reg)) target V VTarg W = .ok out) :
    ∃ G, L G V (some (clipW W)) = .ok out.loss ∧
      ∀ (i : Nat) (r d rho : ℝ) (s : σ), b.Rn[i]? = some r → b.In[i]? = some d → b.S_next[i]? = some s → reg[i]? = some rho →
        ∃ x, spec s x ∧ G[i]? = some (f (r + d * fInv x) - rho) := by
  obtain ⟨G, ⟨G0, h0, hG⟩, _, _, _, hl, _⟩ := detLoss_ok h
  refine ⟨G, hl, ?_⟩
  obtain ⟨G1, h1, hlen, hrow⟩ := ht
  obtain rfl : G0 = G1 := by rw [h0] at h1; simpa using h1
  rcases hG with ⟨hc, _⟩ | ⟨r', hr', hb⟩
  · simp at hc
  · simp only [Option.some.injEq, Except.ok.injEq] at hr'
    subst hr'
    unfold broadcast at hb
    rw [if_pos (by omega)] at hb
    simp only [Except.ok.injEq] at hb
    intro i r d rho s a1 a2 a3 a4
    obtain ⟨x, hx, hg⟩ := hrow i r d s a1 a2 a3
    refine ⟨x, hx, ?_⟩
    rw [← hb, List.getElem?_zipWith, hg, a4]

/-- C68 for deterministic value functions without a value transform.  (Missing: value functions with a value transform, for which it is false, see
`C68_counterexample`.) -/
theorem C68_deterministic_partial {fInv : ℝ → ℝ} {b : TBatch σ α} {spec : σ → ℝ → Prop} {target : Except Err (List ℝ)} (ht : Bootstraps id fInv b spec target) {L : LossFn}
    {reg V VTarg W : List ℝ} (hr : reg.length = b.S_next.length) {out : LossOut} (h : detLoss L (some (.ok reg)) target V VTarg W = .ok out) :
    ∃ G, L G V (some (clipW W)) = .ok out.loss ∧ RegularizedReturn id fInv b spec reg G := C68_shift ht hr h

/-- C68 for quantile value functions, with any value transform: the target `affine_transform(dist_next, In, Rn)` followed by `affine_transform(·, 1, -regularizer)` is the transformed
regularized return of each value. -/
theorem C68_quantile {f fInv : ℝ → ℝ} (hinv : ∀ x, fInv (f x) = x) (values : List ℝ) (r d rho : ℝ) :
    quantileAffine (quantileAffine values d r f fInv) 1 (-rho) f fInv = values.map (fun v => f (r + d * fInv v - rho)) := by
  unfold quantileAffine
  rw [List.map_map]
  congr 1
  funext v
  simp only [Function.comp_apply, hinv]
  congr 1; ring

/-- With a `LogTransform` of any scale, the deterministic target is not the regularized return: here the transition is terminal with reward 0, the entropy bonus is 1, and the target
is 1, which is not the transform of 1. -/
theorem C68_counterexample {scale : ℝ} {f g : ℝ → ℝ} (hf : newLogTransform scale = .ok (f, g)) :
    ∃ (v : VFn Unit Unit) (b : TBatch Unit Unit) (out : LossOut), v.transform = f ∧ v.inverse = g ∧ b.Rn = [0] ∧ b.In = [0] ∧
      detLoss mse1 (some (.ok [-1])) (simpleTD v v b) [0] [0] [1] = .ok out ∧ out.tdError = [1] ∧ f (0 + 0 * g 0 - (-1)) ≠ 1 := by
  have hs : 0 < scale := by
    rcases C42_accepts scale with h | h
    · exact h.1
    · rw [h.2] at hf; simp at hf
  have hf' : f = logTransform scale := by
    rcases C42_accepts scale with h | h
    · rw [h.2] at hf; simp only [Except.ok.injEq, Prod.mk.injEq] at hf; exact hf.1.symm
    · rw [h.2] at hf; simp at hf
  let v : VFn Unit Unit := ⟨fun _ S => S.map (fun _ => 0), (), f, g⟩
  let b : TBatch Unit Unit := ⟨[0], [0], [()], []⟩
  have hT : simpleTD v v b = .ok [f 0] := by simp [simpleTD, backup, v, b]
  have hsub : subtractReg [f 0] (some [-1]) = .ok [f 0 - -1] := by simp [subtractReg, broadcast]
  have h0 : f 0 = 0 := (C42_near_identity hf).1
  obtain ⟨out, h1⟩ := C67_total mse1_meanOf (G := [f 0 - -1]) (V := [0]) (VTarg := [0]) (W := [1]) rfl rfl rfl
  have h2 : detLoss mse1 (some (.ok [-1])) (simpleTD v v b) [0] [0] [1] = .ok out := by
    rw [hT]
    rw [← h1]
    unfold detLoss
    simp only [hsub]
    simp only [subtractReg]
  refine ⟨v, b, out, rfl, rfl, rfl, rfl, h2, ?_, ?_⟩
  · obtain ⟨G, ⟨G0, hg0, hG⟩, e⟩ := C67_td_error.1 h1
    simp only [Except.ok.injEq] at hg0
    subst hg0
    rcases hG with ⟨_, rfl⟩ | ⟨r, hr, _⟩
    · rw [e, h0]; norm_num
    · simp at hr
  · rw [hf', show (0 : ℝ) + 0 * g 0 - (-1) = 1 by ring, logTransform_of_nonneg (by norm_num)]
    have hpos : (0 : ℝ) < 1 / scale := by positivity
    have := Real.log_lt_sub_one_of_pos (show (0 : ℝ) < 1 + 1 / scale by positivity) (by linarith)
    have h3 : scale * Real.log (1 + 1 / scale) < scale * (1 / scale) := mul_lt_mul_of_pos_left (by linarith) hs
    rw [mul_one_div_cancel hs.ne'] at h3
    exact h3.ne

/-- The hypotheses of `C68_deterministic_partial` can be met. -/
example : ∃ (v : VFn Unit ℝ) (b : TBatch ℝ Unit), Bootstraps id id b (fun s x => x = 2 * s) (simpleTD v v b) ∧ b.S_next.length = 2 := by
  refine ⟨⟨fun _ S => S.map (fun s => 2 * s), (), id, id⟩, ⟨[5, 7], [1, 0], [1, 3], []⟩, ?_, rfl⟩
  exact C46_simpleTD ⟨rfl, rfl⟩ (fun _ => rfl)

/-! ### C69 -/

theorem clipW_eq (W : List ℝ) : clipW W = W.map limited := by unfold clipW; congr 1; funext w; exact clip_weight w

/-- The claim of C69 about one updater: its loss is the sum over the samples of the limited importance weight times the loss of the sample, divided by a number that does not depend on
the weights. -/
def Weighted (samples : List ℝ) (norm : ℝ) (W : List ℝ) (loss : Except Err (Option ℝ)) : Prop :=
  loss = .ok (some ((List.zipWith (fun w l => limited w * l) W samples).sum / norm))

theorem zipWith_clipW (W l : List ℝ) : List.zipWith (fun a b => a * b) (clipW W) l = List.zipWith (fun w l => limited w * l) W l := by
  rw [clipW_eq, List.zipWith_map_left]

/-- C69 for deterministic value functions, with `mse`, `huber` or any other mean of an elementwise loss. -/
theorem C69_deterministic_partial {l l' : ℝ → ℝ → ℝ} {L : LossFn} (hL : MeanOf l l' L) {reg : Option (Except Err (List ℝ))} {target : Except Err (List ℝ)} {V VTarg W : List ℝ} {out : LossOut}
    (hV : V ≠ []) (h : detLoss L reg target V VTarg W = .ok out) :
    ∃ G, Target reg target G ∧ Weighted (List.zipWith l G V) V.length W (.ok out.loss) := by
  obtain ⟨G, hT, hG, _, hW, hl, _⟩ := detLoss_ok h
  refine ⟨G, hT, ?_⟩
  have hne : List.zipWith (fun a b => a * b) (clipW W) (List.zipWith l G V) ≠ [] := by
    intro h
    have := congrArg List.length h
    simp only [List.length_zipWith, hG, clipW, List.length_map, hW, min_self, List.length_nil] at this
    exact hV (List.length_eq_zero_iff.1 this)
  unfold Weighted
  rw [← hl, hL.eq, elementwise_oneD]
  unfold meanWithWeights
  simp only
  rw [if_neg (by simp [oneD, clipW, hG, hW]), weighted_oneD, meanAll_oneD hne, zipWith_clipW]
  congr 3
  simp [hG, hW]

/-- C69 for quantile value functions. -/
theorem C69_quantile {target pred fractions : List (List ℝ)} {W : List ℝ} (h1 : target.length = W.length) (h2 : pred.length = W.length) (h3 : fractions.length = W.length)
    (hne : (quantileRows 1 target pred fractions).flatten ≠ []) :
    Weighted ((quantileRows 1 target pred fractions).map List.sum) (quantileRows 1 target pred fractions).flatten.length W (quantileLoss target pred fractions W) := by
  unfold Weighted quantileLoss quantileHuber
  change meanWithWeights (quantileRows 1 target pred fractions) (some (clipW W)) = _
  rw [(C43_weights _ hne).1 _ (by simp [quantileRows, clipW, h1, h2, h3])]
  unfold weightedMean
  rw [clipW_eq, List.zipWith_map_left, List.zipWith_map_right]

/-- For value functions with a discretized interval the loss does not depend on the importance weights at all. -/
theorem C69_interval_ignores (n : Nat) (target pred : List (List ℝ)) (W W' : List ℝ) : intervalLoss n target pred W = intervalLoss n target pred W' := rfl

/-- So C69 is false for them: two bins, one sample; with weight 1 and with weight 2 the loss is log 2. -/
theorem C69_counterexample : ¬ ∃ (samples : List ℝ) (norm : ℝ), ∀ W : List ℝ, W.length = 1 → Weighted samples norm W (intervalLoss 2 [[0, 0]] [[0, 0]] W) := by
  rintro ⟨samples, norm, h⟩
  have hloss : ∀ W, intervalLoss 2 [[0, 0]] [[0, 0]] W = .ok (some (Real.log 2)) := by
    intro W
    unfold intervalLoss Coax.Dists.crossEntropy Coax.Dists.batch2
    rw [Coax.Dists.checkShape_singleton (by rfl)]
    simp only [List.length_cons, List.length_nil, if_true, List.zipWith_cons_cons, List.zipWith_nil_left]
    unfold mean
    simp only [List.cons_ne_nil, if_false, List.sum_cons, List.sum_nil, List.length_cons, List.length_nil]
    congr 2
    simp only [Coax.Dists.crossEntropyRow, Coax.Dists.softmax, Coax.Dists.logSoftmax, Fin.sum_univ_two]
    norm_num
    ring
  have h1 := h [1] rfl
  have h2 := h [2] rfl
  unfold Weighted at h1 h2
  rw [hloss] at h1 h2
  simp only [Except.ok.injEq, Option.some.injEq] at h1 h2
  have hpos : 0 < Real.log 2 := Real.log_pos (by norm_num)
  have e1 : limited 1 = 1 := by norm_num [limited]
  have e2 : limited 2 = 2 := by norm_num [limited]
  cases samples with
  | nil => simp at h1; linarith
  | cons s rest =>
    simp only [List.zipWith_cons_cons, List.zipWith_nil_left, List.sum_cons, List.sum_nil, e1, e2] at h1 h2
    have e3 : (2 * s + 0) / norm = 2 * ((1 * s + 0) / norm) := by ring
    rw [e3] at h2
    linarith

end Coax.TD
