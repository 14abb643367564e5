import Verif.Dyn.Updater
import Verif.Policy.ObjectivesProps
import Verif.Values.LossesProps
import Verif.Core.QTypesProps
import Verif.Dists.CompositeVariatesProps

/-! Property C78: what `ModelUpdater` fits. -/

namespace Coax.Dyn

open Coax.Values Coax.Pol MeasureTheory ProbabilityTheory

variable {B n : Nat} {σ α D : Type _}

/-- An array with one axis. -/
def vec (y : Fin B → ℝ) : Arr := .d1 (List.ofFn y)

/-- An array with two axes. -/
def mat (y : Fin B → Fin n → ℝ) : Arr := .d2 (List.ofFn fun i => List.ofFn (y i))

/-! ### The loss of arrays of equal shapes -/

theorem at1_ofFn (y : Fin B → ℝ) {j : Nat} (h : j < B) : at1 (List.ofFn y) j = y ⟨j, h⟩ := by
  unfold at1
  rw [List.length_ofFn]
  split
  · rename_i h1
    subst h1
    obtain rfl : j = 0 := by omega
    simp
  · simp [h]

theorem map_range_ofFn {β : Type _} (g : Nat → β) : (List.range B).map g = List.ofFn (fun i : Fin B => g i) := by
  apply List.ext_getElem <;> simp

theorem joint_self (a : Nat) : joint a a = a := by unfold joint; split <;> simp_all

theorem fits_self (a : Nat) : fits a a = true := by simp [fits]

theorem width_mat (hB : 0 < B) (y : Fin B → Fin n → ℝ) : width (List.ofFn fun i => List.ofFn (y i)) = n := by
  obtain ⟨b, rfl⟩ : ∃ b, B = b + 1 := ⟨B - 1, by omega⟩
  simp [width, List.ofFn_succ]

theorem sum_ofFn_weighted (w : Fin B → ℝ) (l : Fin B → List ℝ) :
    (List.zipWith (fun x row => x * row.sum) (List.ofFn w) (List.ofFn l)).sum = ∑ i, w i * (l i).sum := by
  rw [← List.sum_ofFn]
  congr 1
  apply List.ext_getElem <;> simp

theorem meanWithWeights_rows (hB : 0 < B) (hn : 0 < n) (w : Fin B → ℝ) (l : Fin B → Fin n → ℝ) :
    meanWithWeights (List.ofFn fun i => List.ofFn (l i)) (some (List.ofFn w)) = .ok (some ((∑ i, w i * ∑ j, l i j) / (B * n))) := by
  have hlen : (List.ofFn fun i => List.ofFn (l i)).flatten.length = B * n := by
    rw [List.length_flatten]
    have : (List.ofFn fun i => List.ofFn (l i)).map List.length = List.replicate B n := by
      apply List.ext_getElem <;> simp
    rw [this]; simp
  have hne : (List.ofFn fun i => List.ofFn (l i)).flatten ≠ [] := by
    intro h
    rw [h] at hlen
    have := Nat.mul_pos hB hn
    simp at hlen; omega
  rw [(C43_weights _ hne).1 _ (by simp)]
  unfold weightedMean
  rw [sum_ofFn_weighted, hlen]
  simp [List.sum_ofFn]

theorem lossOf_mat (f : ℝ → ℝ → ℝ) (hB : 0 < B) (hn : 0 < n) (y p : Fin B → Fin n → ℝ) (w : Fin B → ℝ) :
    lossOf f (mat y) (mat p) (List.ofFn w) = .ok (some ((∑ i, w i * ∑ j, f (y i j) (p i j)) / (B * n))) := by
  have : broadcast2 f (mat y) (mat p) = .ok (mat fun i j => f (y i j) (p i j)) := by
    unfold mat broadcast2
    simp only [width_mat hB, List.length_ofFn, fits_self, joint_self, Bool.and_self, if_true, map_range_ofFn]
    congr 3
    funext i
    congr 1
    funext j
    have h1 : ∀ z : Fin B → Fin n → ℝ, atRow (List.ofFn fun i => List.ofFn (z i)) i = List.ofFn (z i) := by
      intro z
      unfold atRow
      rw [List.length_ofFn]
      split
      · rename_i h1
        subst h1
        obtain rfl : i = 0 := Subsingleton.elim _ _
        simp
      · simp
    rw [h1, h1, at1_ofFn _ j.2, at1_ofFn _ j.2]
  unfold lossOf
  rw [this]
  exact meanWithWeights_rows hB hn w _

theorem lossOf_vec (f : ℝ → ℝ → ℝ) (hB : 0 < B) (y p w : Fin B → ℝ) :
    lossOf f (vec y) (vec p) (List.ofFn w) = .ok (some ((∑ i, w i * f (y i) (p i)) / B)) := by
  have : broadcast2 f (vec y) (vec p) = .ok (vec fun i => f (y i) (p i)) := by
    unfold vec broadcast2
    simp only [List.length_ofFn, fits_self, joint_self, if_true, map_range_ofFn]
    congr 3
    funext i
    rw [at1_ofFn _ i.2, at1_ofFn _ i.2]
  unfold lossOf
  rw [this]
  have h := meanWithWeights_rows hB (n := 1) one_pos w (fun i _ => f (y i) (p i))
  simp only [Finset.univ_unique, Finset.sum_const, Finset.card_singleton, one_smul, Nat.cast_one, mul_one] at h
  rw [← h]
  simp [vec, weighted, List.map_ofFn, Function.comp_def]

/-! ### Deterministic models -/

/-- The losses that `ModelUpdater` is used with: `mse` and `huber` with a positive `delta`.  `huber` with `delta = 1` is the default. -/
inductive Regression : (ℝ → ℝ → ℝ) → Prop
  | mse : Regression mseLoss
  | huber {delta : ℝ} (h : 0 < delta) : Regression (huberLoss delta)

theorem Regression.nonneg {f : ℝ → ℝ → ℝ} (h : Regression f) (y p : ℝ) : 0 ≤ f y p := by
  cases h with
  | mse => exact (C43_mse y p).2.1
  | huber hd => exact (C43_huber hd y p).1

theorem Regression.zero {f : ℝ → ℝ → ℝ} (h : Regression f) (y p : ℝ) : f y p = 0 ↔ p = y := by
  cases h with
  | mse => exact (C43_mse y p).2.2.2
  | huber hd => exact (C43_huber hd y p).2.2.1

/-- A weighted mean of non-negative numbers vanishes only if all of them do. -/
theorem mean_zero {w x : Fin B → ℝ} {c : ℝ} (hc : 0 < c) (hw : ∀ i, 0 < w i) (hx : ∀ i, 0 ≤ x i) : 0 ≤ (∑ i, w i * x i) / c ∧ ((∑ i, w i * x i) / c = 0 ↔ ∀ i, x i = 0) := by
  have h0 : ∀ i ∈ Finset.univ, 0 ≤ w i * x i := fun i _ => mul_nonneg (hw i).le (hx i)
  refine ⟨div_nonneg (Finset.sum_nonneg h0) hc.le, ?_⟩
  rw [div_eq_zero_iff, or_iff_left hc.ne', Finset.sum_eq_zero_iff_of_nonneg h0]
  constructor
  · intro h i
    exact (mul_eq_zero.1 (h i (Finset.mem_univ i))).resolve_left (hw i).ne'
  · intro h i _
    rw [h i, mul_zero]

/-- C78: the loss of a deterministic reward function is the weighted mean of the losses of the samples, with the weights limited to the range from 1/10 to 10; it is not negative, and it
is zero if and only if each prediction is the transformed reward, whatever the weights. -/
theorem C78_reward {f : ℝ → ℝ → ℝ} (hf : Regression f) (hB : 0 < B) (transform : ℝ → ℝ) (F : List σ → List α → Arr) (b : Batch σ α) (r p w : Fin B → ℝ) (hr : b.Rn = List.ofFn r)
    (hw : b.W = List.ofFn w) (hp : F b.S b.A = vec p) :
    ∃ x, lossFunc (D := D) (lossOf f) none (.reward transform) (.deterministic F) b = .ok (some x, some x) ∧
      x = (∑ i, limited (w i) * f (transform (r i)) (p i)) / B ∧ 0 ≤ x ∧ (x = 0 ↔ ∀ i, p i = transform (r i)) := by
  refine ⟨_, ?_, rfl, ?_⟩
  · unfold lossFunc
    simp only [Forward.predict, Kind.target, hp, hr, hw, clipW_ofFn, List.map_ofFn]
    have := lossOf_vec f hB (transform ∘ r) p (fun i => limited (w i))
    unfold vec at this ⊢
    rw [this]
    rfl
  · have := mean_zero (c := B) (by exact_mod_cast hB) (fun i => limited_pos (w i)) (fun i => hf.nonneg (transform (r i)) (p i))
    refine ⟨this.1, this.2.trans ?_⟩
    simp only [hf.zero]

/-- C78: hence, if the loss is zero, a reward function that handles the samples one by one returns, called with a state and an action of the batch, the reward that was observed, provided
that the value transform is undone by its inverse. -/
theorem C78_reward_fit {f : ℝ → ℝ → ℝ} (hf : Regression f) (hB : 0 < B) {nA : Nat} {q : σ → Nat → ℝ} {F : Core.Func σ (List ℝ) ℝ} (hF : Core.Computes nA q F)
    {transform inverse : ℝ → ℝ} (hinv : ∀ x, inverse (transform x) = x) (s : Fin B → σ) (a : Fin B → Nat) (ha : ∀ i, a i < nA) (r w : Fin B → ℝ)
    (sn : List σ) (h : lossFunc (D := D) (lossOf f) none (.reward transform) (.deterministic (rewardForward nA F))
      ⟨List.ofFn s, (List.ofFn a).map (Core.oneHot nA), List.ofFn r, sn, List.ofFn w⟩ = .ok (some 0, some 0)) (i : Fin B) :
    Core.callAction nA F inverse (s i) (a i) = .ok (r i) := by
  have hn : 0 < nA := lt_of_le_of_lt (Nat.zero_le _) (ha i)
  have h1 := (Core.C55_agree hn hF (List.ofFn s)).2 (List.ofFn a) (by simp) (by
    intro x hx
    obtain ⟨j, rfl⟩ := (List.mem_ofFn' _ _).1 hx
    exact ha j)
  have h2 : List.zipWith q (List.ofFn s) (List.ofFn a) = List.ofFn (fun i => q (s i) (a i)) := by apply List.ext_getElem <;> simp
  rw [h2] at h1
  obtain ⟨x, hx, -, -, hz⟩ := C78_reward (D := D) hf hB transform (rewardForward nA F) ⟨List.ofFn s, (List.ofFn a).map (Core.oneHot nA), List.ofFn r, sn, List.ofFn w⟩ r
    (fun i => q (s i) (a i)) w rfl rfl (by unfold rewardForward; simp only; rw [h1]; rfl)
  rw [h] at hx
  have hx0 : x = 0 := by simpa using (congrArg (fun e => match e with | Except.ok (some y, _) => y | _ => x) hx).symm
  have hq := hz.1 hx0 i
  obtain ⟨row, -, -, hc, -⟩ := Core.C55_call hF inverse (s i) (a i) (ha i)
  rw [hc, hq, hinv]

/-- C78: the same for a deterministic transition model whose preprocessed observations are one array. -/
theorem C78_transition {f : ℝ → ℝ → ℝ} (hf : Regression f) (hB : 0 < B) (hn : 0 < n) (preprocess : List σ → Arr) (F : List σ → List α → Arr) (b : Batch σ α) (y p : Fin B → Fin n → ℝ)
    (w : Fin B → ℝ) (hy : preprocess b.SNext = mat y) (hw : b.W = List.ofFn w) (hp : F b.S b.A = mat p) :
    ∃ x, lossFunc (D := D) (lossOf f) none (.transition preprocess) (.deterministic F) b = .ok (some x, some x) ∧
      x = (∑ i, limited (w i) * ∑ j, f (y i j) (p i j)) / (B * n) ∧ 0 ≤ x ∧ (x = 0 ↔ p = y) := by
  refine ⟨_, ?_, rfl, ?_⟩
  · unfold lossFunc
    simp only [Forward.predict, Kind.target, hp, hy, hw, clipW_ofFn]
    rw [lossOf_mat f hB hn y p (fun i => limited (w i))]
  · have := mean_zero (x := fun i => ∑ j, f (y i j) (p i j)) (c := (B : ℝ) * n) (by positivity) (fun i => limited_pos (w i)) (fun i => Finset.sum_nonneg fun j _ => hf.nonneg (y i j) (p i j))
    refine ⟨this.1, this.2.trans ?_⟩
    constructor
    · intro h
      funext i j
      exact (hf.zero _ _).1 ((Finset.sum_eq_zero_iff_of_nonneg fun j _ => hf.nonneg (y i j) (p i j)).1 (h i) j (Finset.mem_univ j))
    · rintro rfl i
      exact Finset.sum_eq_zero fun j _ => (hf.zero _ _).2 rfl

/-- C78: hence, if the loss is zero, the postprocessed prediction for each sample is the next observation: the same for Discrete, up to rounding and clipping for Box. -/
theorem C78_transition_fit {f : ℝ → ℝ → ℝ} (hf : Regression f) (hB : 0 < B) (hn : 0 < n) {s : Dists.Space} {d : Dists.Dist} (hd : Dists.mkDist s = .ok d) (hs : Dists.WF s)
    (sNext : Fin B → Dists.Value) (hmem : ∀ i, Dists.Mem s (sNext i)) (preprocess : List Dists.Value → Arr) (y : Fin B → Fin n → ℝ)
    (hpre : ∀ i, Dists.pre s d (sNext i) = .ok (.leaf (List.ofFn (y i)))) (hy : preprocess (List.ofFn sNext) = mat y)
    (F : List Dists.Value → List α → Arr) (S : List Dists.Value) (A : List α) (rn : List ℝ) (p : Fin B → Fin n → ℝ) (w : Fin B → ℝ) (hp : F S A = mat p)
    (h : lossFunc (D := D) (lossOf f) none (.transition preprocess) (.deterministic F) ⟨S, A, rn, List.ofFn sNext, List.ofFn w⟩ = .ok (some 0, some 0))
    {draw : Dists.Draw} (hdraw : Dists.DrawsAll draw) (i : Fin B) :
    ∃ x, Dists.post draw [] s d (.leaf (List.ofFn (p i))) = .ok x ∧ Dists.Close s (sNext i) x := by
  obtain ⟨x, hx, -, -, hz⟩ := C78_transition (D := D) hf hB hn preprocess F ⟨S, A, rn, List.ofFn sNext, List.ofFn w⟩ y p w hy rfl hp
  rw [h] at hx
  have hx0 : x = 0 := by simpa using (congrArg (fun e => match e with | Except.ok (some y, _) => y | _ => x) hx).symm
  obtain rfl := hz.1 hx0
  obtain ⟨t, ht, h1, -⟩ := Dists.C76_round_trip_partial hd hs (hmem i)
  rw [hpre i] at ht
  obtain rfl : Dists.Tree.leaf (List.ofFn (p i)) = t := by simpa using ht
  exact h1 draw hdraw

/-- Observations that are preprocessed to a tuple, list or dict of arrays are rejected: MultiDiscrete, MultiBinary, Tuple and Dict observation spaces. -/
theorem C78_tree_rejected (f : ℝ → ℝ → ℝ) (reg : Option (D → List ℝ)) (preprocess : List σ → Arr) (m : Forward σ α D) (b : Batch σ α) (h : preprocess b.SNext = .tree) :
    lossFunc (lossOf f) reg (.transition preprocess) m b = .error .typeError := by
  unfold lossFunc
  simp only [Kind.target, h, lossOf]
  cases (m.predict b).1 <;> rfl

/-! ### Regularizers -/

/-- C78: with a regularizer, the weighted mean of what it returns for the samples is added, with the same weights; the metrics keep the loss without it. -/
theorem C78_regularized {f : ℝ → ℝ → ℝ} (hB : 0 < B) (g : D → List ℝ) (k : Kind σ) (F : List σ → List α → D) (sample : D → Arr) (b : Batch σ α) (reg w : Fin B → ℝ)
    (hw : b.W = List.ofFn w) (hg : g (F b.S b.A) = List.ofFn reg) {x : ℝ}
    (h : lossFunc (lossOf f) none k (.stochastic F sample) b = .ok (some x, some x)) :
    lossFunc (lossOf f) (some g) k (.stochastic F sample) b = .ok (some (x + (∑ i, limited (w i) * reg i) / B), some x) := by
  unfold lossFunc at h ⊢
  simp only [Forward.predict] at h ⊢
  cases hl : lossOf f (k.target b) (sample (F b.S b.A)) (clipW b.W) with
  | error e => rw [hl] at h; simp at h
  | ok l =>
    rw [hl] at h
    simp only at h ⊢
    obtain rfl : l = some x := by simpa using h
    rw [hg, hw, clipW_ofFn]
    unfold broadcast
    rw [if_pos (by simp)]
    simp only
    have e : List.zipWith (fun w x => w * x) (List.ofFn fun i => limited (w i)) (List.ofFn reg) = List.ofFn (fun i => limited (w i) * reg i) := by
      apply List.ext_getElem <;> simp
    rw [e]
    unfold mean
    rw [if_neg (by simp; omega)]
    simp [addNaN, List.sum_ofFn]

/-- A deterministic model has no distribution to regularize: whenever the loss itself is defined, the updater raises. -/
theorem C78_regularizer_deterministic (L : Arr → Arr → List ℝ → Except Err (Option ℝ)) (g : D → List ℝ) (k : Kind σ) (F : List σ → List α → Arr) (b : Batch σ α) {x : Option ℝ × Option ℝ}
    (h : lossFunc (D := D) L none k (.deterministic F) b = .ok x) : lossFunc L (some g) k (.deterministic F) b = .error .nameError := by
  unfold lossFunc at h ⊢
  simp only [Forward.predict] at h ⊢
  cases hl : L (k.target b) (F b.S b.A) (clipW b.W) with
  | error e => rw [hl] at h; simp at h
  | ok l => rfl

/-! ### Stochastic models -/

/-- The law of one sample of independent normal variables with these means and variances. -/
noncomputable def normals (mu : Fin B → Fin n → ℝ) (var : Fin B → Fin n → NNReal) : Measure (Fin B × Fin n → ℝ) :=
  Measure.pi fun ij => gaussianReal (mu ij.1 ij.2) (var ij.1 ij.2)

/-- The loss of a stochastic transition model when the sample is `z`. -/
noncomputable def sampleLoss (preprocess : List σ → Arr) (F : List σ → List α → D) (b : Batch σ α) (z : Fin B × Fin n → ℝ) : ℝ :=
  match lossFunc (lossOf mseLoss) none (.transition preprocess) (.stochastic F fun _ => mat fun i j => z (i, j)) b with
  | .ok (some x, _) => x
  | _ => 0

/-- C78: the expected `mse` loss of a stochastic transition model with normal samples: the variance of the model is added to the squared error of its mean. -/
theorem C78_stochastic (hB : 0 < B) (hn : 0 < n) (preprocess : List σ → Arr) (F : List σ → List α → D) (b : Batch σ α) (y : Fin B → Fin n → ℝ) (w : Fin B → ℝ)
    (hy : preprocess b.SNext = mat y) (hw : b.W = List.ofFn w) (mu : Fin B → Fin n → ℝ) (var : Fin B → Fin n → NNReal) :
    (∀ z : Fin B × Fin n → ℝ, ∃ x, lossFunc (lossOf mseLoss) none (.transition preprocess) (.stochastic F fun _ => mat fun i j => z (i, j)) b = .ok (some x, some x)) ∧
    Integrable (sampleLoss preprocess F b) (normals mu var) ∧
    ∫ z, sampleLoss preprocess F b z ∂normals mu var =
      (∑ i, limited (w i) * ∑ j, ((mu i j - y i j) ^ 2 + var i j) / 2) / (B * n) := by
  have hl : ∀ z : Fin B × Fin n → ℝ, lossFunc (lossOf mseLoss) none (.transition preprocess) (.stochastic F fun _ => mat fun i j => z (i, j)) b =
      .ok (some ((∑ i, limited (w i) * ∑ j, mseLoss (y i j) (z (i, j))) / (B * n)), some ((∑ i, limited (w i) * ∑ j, mseLoss (y i j) (z (i, j))) / (B * n))) := by
    intro z
    unfold lossFunc
    simp only [Forward.predict, Kind.target, hy, hw, clipW_ofFn]
    rw [lossOf_mat mseLoss hB hn y _ (fun i => limited (w i))]
  have hs : sampleLoss preprocess F b = fun z : Fin B × Fin n → ℝ => (∑ i, limited (w i) * ∑ j, mseLoss (y i j) (z (i, j))) / (B * n) := by
    funext z; unfold sampleLoss; rw [hl]
  have hint : ∀ i j, Integrable (fun z : Fin B × Fin n → ℝ => mseLoss (y i j) (z (i, j))) (normals mu var) := by
    intro i j
    have h1 : (fun z : Fin B × Fin n → ℝ => mseLoss (y i j) (z (i, j))) = fun z => (fun u : ℝ => 0.5 * (u - y i j) ^ 2) (z (i, j)) := by funext z; rfl
    rw [h1]
    unfold normals
    exact integrable_comp_eval (X := fun _ : Fin B × Fin n => ℝ) (i := (i, j)) (f := fun u : ℝ => 0.5 * (u - y i j) ^ 2) ((Dists.integrable_sq _ _ _).const_mul _)
  have hval : ∀ i j, ∫ z : Fin B × Fin n → ℝ, mseLoss (y i j) (z (i, j)) ∂normals mu var = ((mu i j - y i j) ^ 2 + var i j) / 2 := by
    intro i j
    have h1 : (fun z : Fin B × Fin n → ℝ => mseLoss (y i j) (z (i, j))) = fun z => (fun u : ℝ => 0.5 * (u - y i j) ^ 2) (z (i, j)) := by funext z; rfl
    rw [h1]
    unfold normals
    rw [integral_comp_eval (X := fun _ : Fin B × Fin n => ℝ) (i := (i, j)) (f := fun u : ℝ => 0.5 * (u - y i j) ^ 2) (by fun_prop), integral_const_mul, Dists.integral_sq]
    ring
  have hrow : ∀ i, Integrable (fun z : Fin B × Fin n → ℝ => limited (w i) * ∑ j, mseLoss (y i j) (z (i, j))) (normals mu var) :=
    fun i => (integrable_finsetSum _ fun j _ => hint i j).const_mul _
  refine ⟨fun z => ⟨_, hl z⟩, ?_, ?_⟩
  · rw [hs]
    exact (integrable_finsetSum _ fun i _ => hrow i).div_const _
  · rw [hs, integral_div, integral_finsetSum _ fun i _ => hrow i]
    congr 1
    refine Finset.sum_congr rfl fun i _ => ?_
    rw [integral_const_mul, integral_finsetSum _ fun j _ => hint i j]
    congr 1
    exact Finset.sum_congr rfl fun j _ => hval i j

/-- So a stochastic model is not fitted to the distribution of the next observations: for every batch and all means, a smaller variance has a smaller expected loss, whatever the
observations are. -/
theorem C78_counterexample (hB : 0 < B) (hn : 0 < n) (preprocess : List σ → Arr) (F : List σ → List α → D) (b : Batch σ α) (y : Fin B → Fin n → ℝ) (w : Fin B → ℝ)
    (hy : preprocess b.SNext = mat y) (hw : b.W = List.ofFn w) (mu : Fin B → Fin n → ℝ) {var var' : Fin B → Fin n → NNReal} (h : ∀ i j, var' i j < var i j) :
    ∫ z, sampleLoss preprocess F b z ∂normals mu var' < ∫ z, sampleLoss preprocess F b z ∂normals mu var := by
  rw [(C78_stochastic hB hn preprocess F b y w hy hw mu var).2.2, (C78_stochastic hB hn preprocess F b y w hy hw mu var').2.2]
  have hB' : (Finset.univ : Finset (Fin B)).Nonempty := ⟨⟨0, hB⟩, Finset.mem_univ _⟩
  have hn' : (Finset.univ : Finset (Fin n)).Nonempty := ⟨⟨0, hn⟩, Finset.mem_univ _⟩
  refine div_lt_div_of_pos_right ?_ (by positivity)
  refine Finset.sum_lt_sum_of_nonempty hB' fun i _ => mul_lt_mul_of_pos_left ?_ (limited_pos _)
  refine Finset.sum_lt_sum_of_nonempty hn' fun j _ => ?_
  have : (var' i j : ℝ) < var i j := by exact_mod_cast h i j
  linarith

/-- A stochastic reward function cannot be fitted: its sample has one entry for each of the bins, the target one entry for each sample.  If neither number is one and they differ, the
updater raises. -/
theorem C78_stochastic_reward_rejected (f : ℝ → ℝ → ℝ) (reg : Option (D → List ℝ)) (transform : ℝ → ℝ) (F : List σ → List α → D) (sample : D → Arr) (b : Batch σ α) (r : Fin B → ℝ)
    (z : Fin B → Fin n → ℝ) (hr : b.Rn = List.ofFn r) (hz : sample (F b.S b.A) = mat z) (hB : 0 < B) (h1 : B ≠ 1) (h2 : n ≠ 1) (h3 : B ≠ n) :
    lossFunc (lossOf f) reg (.reward transform) (.stochastic F sample) b = .error .typeError := by
  unfold lossFunc
  simp only [Forward.predict, Kind.target, hz, hr, lossOf, mat, broadcast2, List.length_map, List.length_ofFn, width_mat hB]
  rw [if_neg (by simp [fits, h1, h2, h3])]

/-- If the batch has as many samples as there are bins, the entry of the sampled probability of bin `j` for every sample is compared to the reward of the sample `j`. -/
theorem C78_stochastic_reward_mixes (f : ℝ → ℝ → ℝ) (transform : ℝ → ℝ) (F : List σ → List α → D) (sample : D → Arr) (b : Batch σ α) (r w : Fin B → ℝ)
    (z : Fin B → Fin B → ℝ) (hr : b.Rn = List.ofFn r) (hw : b.W = List.ofFn w) (hz : sample (F b.S b.A) = mat z) (hB : 0 < B) :
    ∃ x, lossFunc (lossOf f) none (.reward transform) (.stochastic F sample) b = .ok (some x, some x) ∧
      x = (∑ i, limited (w i) * ∑ j, f (transform (r j)) (z i j)) / (B * B) := by
  have : broadcast2 f (.d1 (List.ofFn (transform ∘ r))) (mat z) = .ok (mat fun i j => f (transform (r j)) (z i j)) := by
    unfold mat broadcast2
    simp only [List.length_ofFn, width_mat hB, fits_self, joint_self, if_true, map_range_ofFn]
    congr 3
    funext i
    congr 1
    funext j
    have e : (List.ofFn fun i => List.ofFn (z i)).getD i [] = List.ofFn (z i) := by simp
    rw [e, at1_ofFn _ j.2, at1_ofFn _ j.2]
    rfl
  refine ⟨_, ?_, rfl⟩
  unfold lossFunc
  simp only [Forward.predict, Kind.target, hz, hr, hw, clipW_ofFn, List.map_ofFn]
  unfold lossOf
  rw [this]
  simp only [weighted, mat]
  rw [meanWithWeights_rows hB hB (fun i => limited (w i))]

/-- Not vacuous: two samples of a reward function with the identity as value transform, predictions 1 and 3 for rewards 1 and 2, and weights 1 and 100: the loss is 10/2 · 1/2. -/
example : lossFunc (σ := Nat) (α := Nat) (D := Unit) (lossOf mseLoss) none (.reward id) (.deterministic fun _ _ => vec ![1, 3]) ⟨[], [], [1, 2], [], [1, 100]⟩ = .ok (some (10 / 4), some (10 / 4)) := by
  obtain ⟨x, h, hx, -⟩ := C78_reward (σ := Nat) (α := Nat) (D := Unit) .mse (B := 2) (by norm_num) id (fun _ _ => vec ![1, 3]) ⟨[], [], [1, 2], [], [1, 100]⟩ ![1, 2] ![1, 3] ![1, 100]
    (by simp) (by simp) rfl
  rw [h, hx]
  simp [Fin.sum_univ_two, limited, mseLoss]
  norm_num

end Coax.Dyn
