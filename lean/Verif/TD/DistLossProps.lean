import Verif.TD.Loss
import Verif.TD.RegTargetProps
import Verif.Dists.CategoricalProps
import Verif.Values.LossesProps

/-! Property C75: the loss of a distributional value function is least if the predictions are the targets. -/

namespace Coax.TD

open Coax.Values Coax.Pol

/-- The probabilities of the bins that a list of logits stands for. -/
noncomputable def binProbs (z : List ℝ) : List ℝ := z.map (fun x => Real.exp x / (z.map Real.exp).sum)

theorem binProbs_iff {n : Nat} {r s : List ℝ} (hr : r.length = n) (hs : s.length = n) :
    binProbs r = binProbs s ↔ Coax.Dists.meanRow (fun k : Fin n => r[k.1]'(by rw [hr]; exact k.2)) = Coax.Dists.meanRow (fun k : Fin n => s[k.1]'(by rw [hs]; exact k.2)) := by
  have key : ∀ {r : List ℝ} (hr : r.length = n) (k : Fin n), (binProbs r)[k.1]'(by simp [binProbs, hr]) = Coax.Dists.meanRow (fun k : Fin n => r[k.1]'(by rw [hr]; exact k.2)) k := by
    intro r hr k
    subst hr
    simp only [binProbs, List.getElem_map, Coax.Dists.meanRow, Coax.Dists.softmax]
    congr 1
    rw [← Fin.sum_univ_fun_getElem]
  constructor
  · intro h
    funext k
    rw [← key hr, ← key hs]
    simp only [h]
  · intro h
    refine List.ext_getElem (by simp [binProbs, hr, hs]) (fun i h1 h2 => ?_)
    have hi : i < n := by simpa [binProbs, hr] using h1
    rw [key hr ⟨i, hi⟩, key hs ⟨i, hi⟩, h]

theorem zipWith_sum_le {α : Type _} (f : α → α → ℝ) (R : α → α → Prop) (hf : ∀ x y, f x x ≤ f x y) (hR : ∀ x y, f x x = f x y ↔ R x y) (l m : List α) (h : l.length = m.length) :
    (List.zipWith f l l).sum ≤ (List.zipWith f l m).sum ∧ ((List.zipWith f l l).sum = (List.zipWith f l m).sum ↔ List.Forall₂ R l m) := by
  induction l generalizing m with
  | nil => cases m with
    | nil => simp
    | cons => simp at h
  | cons x l ih => cases m with
    | nil => simp at h
    | cons y m =>
      obtain ⟨h1, h2⟩ := ih m (by simpa using h)
      simp only [List.zipWith_cons_cons, List.sum_cons, List.forall₂_cons]
      have := hf x y
      refine ⟨by linarith, ?_⟩
      rw [← h2, ← hR]
      constructor
      · intro e; constructor <;> linarith
      · rintro ⟨e1, e2⟩; linarith

/-- C75 for value functions with a discretized interval: among all predictions the loss is least for those with the bin probabilities of the target, and only for those.
(Missing: for quantiles it is false.) -/
theorem C75_interval_partial {n : Nat} {target pred : List (List ℝ)} (ht : ∀ r ∈ target, r.length = n) (hp : ∀ r ∈ pred, r.length = n) (hl : pred.length = target.length) (hne : target ≠ []) (W : List ℝ) :
    ∃ x y, intervalLoss n target target W = .ok (some x) ∧ intervalLoss n target pred W = .ok (some y) ∧ x ≤ y ∧
      (x = y ↔ pred.map binProbs = target.map binProbs) := by
  obtain ⟨zt, t1, t2, t3⟩ := Coax.Dists.checkShape_ok ht
  obtain ⟨zp, p1, p2, p3⟩ := Coax.Dists.checkShape_ok hp
  have hB : 0 < zt.length := by rw [t2]; exact List.length_pos_iff.2 hne
  have hlen : zt.length = zp.length := by omega
  have hgibbs : ∀ x y : Fin n → ℝ, Coax.Dists.crossEntropyRow x x ≤ Coax.Dists.crossEntropyRow x y ∧
      (Coax.Dists.crossEntropyRow x x = Coax.Dists.crossEntropyRow x y ↔ Coax.Dists.meanRow x = Coax.Dists.meanRow y) := by
    intro x y
    obtain ⟨h1, h2⟩ := Coax.Dists.C49_kl_nonneg x y
    have h3 := Coax.Dists.C49_kl_eq x y
    have h4 := Coax.Dists.C49_kl_eq x x
    have h5 := (Coax.Dists.C49_kl_nonneg x x).2.2 rfl
    refine ⟨by linarith, ?_⟩
    rw [← h2]
    constructor <;> intro h <;> linarith
  obtain ⟨h1, h2⟩ := zipWith_sum_le Coax.Dists.crossEntropyRow (fun x y => Coax.Dists.meanRow x = Coax.Dists.meanRow y) (fun x y => (hgibbs x y).1) (fun x y => (hgibbs x y).2) zt zp hlen
  have ne : ∀ m : List (Fin n → ℝ), zt.length = m.length → List.zipWith Coax.Dists.crossEntropyRow zt m ≠ [] := by
    intro m hm h
    have := congrArg List.length h
    simp only [List.length_zipWith, List.length_nil] at this
    omega
  have hB' : (0 : ℝ) < zt.length := by exact_mod_cast hB
  refine ⟨(List.zipWith Coax.Dists.crossEntropyRow zt zt).sum / zt.length, (List.zipWith Coax.Dists.crossEntropyRow zt zp).sum / zt.length, ?_, ?_, ?_, ?_⟩
  · unfold intervalLoss Coax.Dists.crossEntropy Coax.Dists.batch2
    rw [t1]
    simp only [if_true]
    unfold mean
    rw [if_neg (ne zt rfl)]
    simp
  · unfold intervalLoss Coax.Dists.crossEntropy Coax.Dists.batch2
    rw [t1, p1]
    simp only [if_pos hlen]
    unfold mean
    rw [if_neg (ne zp hlen)]
    simp [← hlen]
  · exact div_le_div_of_nonneg_right h1 hB'.le
  · rw [div_left_inj' hB'.ne', h2]
    have row : ∀ i (hi : i < zt.length), Coax.Dists.meanRow (zt[i]) = Coax.Dists.meanRow (zp[i]'(by omega)) ↔ binProbs (pred[i]'(by omega)) = binProbs (target[i]'(by omega)) := by
      intro i hi
      have hr := ht (target[i]'(by omega)) (List.getElem_mem _)
      have hs := hp (pred[i]'(by omega)) (List.getElem_mem _)
      rw [binProbs_iff hs hr, eq_comm]
      have e1 : zt[i] = fun k : Fin n => (target[i]'(by omega))[k.1]'(by rw [hr]; exact k.2) := by
        funext k
        have := t3 i _ _ (List.getElem?_eq_getElem (by omega)) (List.getElem?_eq_getElem hi) k
        rw [List.getElem?_eq_getElem (by rw [hr]; exact k.2)] at this
        simpa using this.symm
      have e2 : zp[i]'(by omega) = fun k : Fin n => (pred[i]'(by omega))[k.1]'(by rw [hs]; exact k.2) := by
        funext k
        have := p3 i _ _ (List.getElem?_eq_getElem (by omega)) (List.getElem?_eq_getElem (by omega)) k
        rw [List.getElem?_eq_getElem (by rw [hs]; exact k.2)] at this
        simpa using this.symm
      rw [e1, e2]
    rw [List.forall₂_iff_get]
    constructor
    · rintro ⟨-, h⟩
      refine List.ext_getElem (by simp [hl]) (fun i h1 h2 => ?_)
      simp only [List.getElem_map]
      have hi : i < zt.length := by rw [t2]; simpa using h2
      exact (row i hi).1 (h i hi (by omega))
    · intro h
      refine ⟨hlen, fun i h1 h2 => ?_⟩
      refine (row i h1).2 ?_
      have := List.getElem_of_eq h (i := i) (by simp; omega)
      simpa using this

/-- The hypotheses can be met, by predictions that differ from the targets and have the same probabilities and by others. -/
example : ∃ target pred pred' : List (List ℝ), (∀ r ∈ target ++ pred ++ pred', r.length = 2) ∧ pred.length = target.length ∧ pred'.length = target.length ∧ target ≠ [] ∧
    pred ≠ target ∧ pred.map binProbs = target.map binProbs ∧ pred'.map binProbs ≠ target.map binProbs := by
  refine ⟨[[0, 0]], [[1, 1]], [[0, 1]], by simp, rfl, rfl, by simp, by simp, ?_, ?_⟩
  · simp [binProbs]
    have := (Real.exp_pos 1).ne'
    field_simp
  · have h := Real.exp_pos 1
    have h1 : Real.exp 0 < Real.exp 1 := Real.exp_lt_exp.2 (by norm_num)
    rw [Real.exp_zero] at h1
    simp only [binProbs, List.map_cons, List.map_nil, List.sum_cons, List.sum_nil, ne_eq, List.cons.injEq, and_true, Real.exp_zero, not_and]
    intro h2
    exfalso
    rw [div_eq_div_iff (by positivity) (by positivity)] at h2
    linarith

/-- For quantiles it is false: for the target values 0 and 10 at the fractions 1/4 and 3/4 there are predictions with a smaller loss than the target values themselves, whatever the weight.
(The Huber loss of the code is quadratic near zero, so the loss does not have its minimum at the quantiles.) -/
theorem C75_counterexample (w : ℝ) : ∃ x y, quantileLoss [[0, 10]] [[0, 10]] [[1/4, 3/4]] [w] = .ok (some x) ∧ quantileLoss [[0, 10]] [[1/3, 29/3]] [[1/4, 3/4]] [w] = .ok (some y) ∧ y < x := by
  have hw : 0 < limited w := by unfold limited; split_ifs <;> linarith
  have e := clipW_eq [w]
  have el : ∀ y p t : ℝ, 0 ≤ t → t ≤ 1 → quantileHuberElem 1 y p t = if p ≤ y then t * huberSpec 1 (y - p) / 1 else (1 - t) * huberSpec 1 (y - p) / 1 := by
    intro y p t h0 h1
    obtain ⟨ha, hb⟩ := C44_weights (delta := 1) ⟨h0, h1⟩ y p
    split
    · next h => exact ha h
    · next h => exact hb (not_le.1 h)
  have hq : ∀ a b : ℝ, quantileLoss [[0, 10]] [[a, b]] [[1/4, 3/4]] [w] =
      .ok (some (limited w * ((quantileHuberElem 1 0 a (1/4) + quantileHuberElem 1 10 a (1/4)) + (quantileHuberElem 1 0 b (3/4) + quantileHuberElem 1 10 b (3/4))) / 2)) := by
    intro a b
    have := C69_quantile (target := [[0, 10]]) (pred := [[a, b]]) (fractions := [[1/4, 3/4]]) (W := [w]) rfl rfl rfl (by simp [quantileRows])
    unfold Weighted at this
    rw [this]
    simp [quantileRows]
  refine ⟨_, _, hq 0 10, hq (1/3) (29/3), ?_⟩
  rw [el _ _ _ (by norm_num) (by norm_num), el _ _ _ (by norm_num) (by norm_num), el _ _ _ (by norm_num) (by norm_num), el _ _ _ (by norm_num) (by norm_num),
    el _ _ _ (by norm_num) (by norm_num), el _ _ _ (by norm_num) (by norm_num), el _ _ _ (by norm_num) (by norm_num), el _ _ _ (by norm_num) (by norm_num)]
  have : ∀ a b : ℝ, a < b → limited w * a / 2 < limited w * b / 2 := fun a b h => by
    have := mul_lt_mul_of_pos_left h hw
    linarith
  apply this
  norm_num [huberSpec]

end Coax.TD
