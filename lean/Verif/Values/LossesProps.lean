import Verif.Values.Losses
import Mathlib.Analysis.Convex.Function
import Mathlib.Analysis.SpecialFunctions.Sigmoid
import Mathlib.Algebra.Order.BigOperators.Group.List
import Mathlib.Data.List.Forall2

/-! Properties C43 and C44 of the loss functions. -/

namespace Coax.Values

/-! ### Elementwise -/

/-- The documented Huber function of an error (with the factor ½ in the quadratic part that makes it continuous). -/
noncomputable def huberSpec (delta e : ℝ) : ℝ := if |e| ≤ delta then e ^ 2 / 2 else delta * |e| - delta ^ 2 / 2

theorem huber_eq_spec {delta : ℝ} (y p : ℝ) : huberLoss delta y p = huberSpec delta (p - y) := by
  unfold huberLoss huberSpec
  simp only
  split
  · rename_i h; rw [min_eq_left h, sq_abs]; ring
  · rename_i h; rw [min_eq_right (not_le.1 h).le]; ring

/-- C43.  `mse` is ½(ŷ-y)², non-negative, symmetric, and zero exactly for equal arguments. -/
theorem C43_mse (y p : ℝ) : mseLoss y p = (p - y) ^ 2 / 2 ∧ 0 ≤ mseLoss y p ∧ mseLoss y p = mseLoss p y ∧ (mseLoss y p = 0 ↔ p = y) := by
  have e : mseLoss y p = (p - y) ^ 2 / 2 := by unfold mseLoss; ring
  refine ⟨e, ?_, ?_, ?_⟩
  · rw [e]; positivity
  · rw [e]; unfold mseLoss; ring
  · rw [e]
    constructor
    · intro h
      have : (p - y) ^ 2 = 0 := by linarith
      have := pow_eq_zero_iff (two_ne_zero) |>.1 this
      linarith
    · rintro rfl; ring

/-- C43.  `huber` is ½e² for `|e| ≤ δ` and `δ|e| - ½δ²` beyond. -/
theorem C43_huber_shape {delta : ℝ} (y p : ℝ) :
    (|p - y| ≤ delta → huberLoss delta y p = (p - y) ^ 2 / 2) ∧
    (delta < |p - y| → huberLoss delta y p = delta * |p - y| - delta ^ 2 / 2) := by
  rw [huber_eq_spec]
  unfold huberSpec
  exact ⟨fun h => if_pos h, fun h => if_neg (not_le.2 h)⟩

/-- C43.  For `δ > 0`, `huber` is non-negative, symmetric, zero exactly for equal arguments, and at most `mse`. -/
theorem C43_huber {delta : ℝ} (hd : 0 < delta) (y p : ℝ) :
    0 ≤ huberLoss delta y p ∧ huberLoss delta y p = huberLoss delta p y ∧ (huberLoss delta y p = 0 ↔ p = y) ∧ huberLoss delta y p ≤ mseLoss y p := by
  rw [huber_eq_spec, huber_eq_spec, (C43_mse y p).1]
  unfold huberSpec
  rw [abs_sub_comm y p]
  have habs := sq_abs (p - y)
  split
  · refine ⟨by positivity, by ring, ?_, le_rfl⟩
    constructor
    · intro h
      have : (p - y) ^ 2 = 0 := by linarith
      have := pow_eq_zero_iff (two_ne_zero) |>.1 this
      linarith
    · rintro rfl; ring
  · rename_i h
    rw [not_le] at h
    have hpos : 0 < delta * |p - y| - delta ^ 2 / 2 := by nlinarith
    refine ⟨hpos.le, rfl, ?_, ?_⟩
    · constructor
      · intro h0; linarith
      · rintro rfl; simp at h; linarith
    · nlinarith [sq_nonneg (|p - y| - delta)]

/-- The Huber function is the largest of the tangents with slope in `[-δ, δ]`. -/
theorem huber_tangent {delta : ℝ} (e t : ℝ) (ht : |t| ≤ delta) : t * e - t ^ 2 / 2 ≤ huberSpec delta e := by
  unfold huberSpec
  split
  · nlinarith [sq_nonneg (t - e)]
  · rename_i h
    rw [not_le] at h
    have h1 : t * e ≤ |t| * |e| := by rw [← abs_mul]; exact le_abs_self _
    have h2 := sq_abs t
    nlinarith [abs_nonneg t, abs_nonneg e]

theorem huber_touches {delta : ℝ} (hd : 0 ≤ delta) (e : ℝ) : ∃ t, |t| ≤ delta ∧ huberSpec delta e = t * e - t ^ 2 / 2 := by
  unfold huberSpec
  split
  · rename_i h; exact ⟨e, h, by ring⟩
  · rcases le_total 0 e with he | he
    · exact ⟨delta, (abs_of_nonneg hd).le, by rw [abs_of_nonneg he]⟩
    · exact ⟨-delta, by rw [abs_neg, abs_of_nonneg hd], by rw [abs_of_nonpos he]; ring⟩

/-- C43.  `mse` and `huber` are convex in the prediction. -/
theorem C43_convex {delta : ℝ} (hd : 0 ≤ delta) (y : ℝ) :
    ConvexOn ℝ Set.univ (mseLoss y) ∧ ConvexOn ℝ Set.univ (huberLoss delta y) := by
  constructor
  · refine ⟨convex_univ, ?_⟩
    intro a _ b _ s t hs ht hst
    simp only [smul_eq_mul]
    rw [(C43_mse y _).1, (C43_mse y _).1, (C43_mse y _).1]
    obtain rfl : t = 1 - s := by linarith
    nlinarith [mul_nonneg (mul_nonneg hs ht) (sq_nonneg (a - b))]
  · refine ⟨convex_univ, ?_⟩
    intro a _ b _ s t hs ht hst
    simp only [smul_eq_mul]
    rw [huber_eq_spec, huber_eq_spec, huber_eq_spec]
    obtain ⟨m, hm, he⟩ := huber_touches hd (s * a + t * b - y)
    rw [he]
    have h1 := mul_le_mul_of_nonneg_left (huber_tangent (a - y) m hm) hs
    have h2 := mul_le_mul_of_nonneg_left (huber_tangent (b - y) m hm) ht
    obtain rfl : t = 1 - s := by linarith
    nlinarith

/-- C43.  `huber` is continuous, in particular at `|e| = δ`; its slope never exceeds `δ`. -/
theorem C43_huber_lipschitz {delta : ℝ} (hd : 0 ≤ delta) (y a b : ℝ) : |huberLoss delta y a - huberLoss delta y b| ≤ delta * |a - b| := by
  have key : ∀ a b, huberLoss delta y a - huberLoss delta y b ≤ delta * |a - b| := by
    intro a b
    rw [huber_eq_spec, huber_eq_spec]
    obtain ⟨m, hm, he⟩ := huber_touches hd (a - y)
    have h1 := huber_tangent (b - y) m hm
    have h2 : m * (a - b) ≤ |m| * |a - b| := by rw [← abs_mul]; exact le_abs_self _
    have h3 : |m| * |a - b| ≤ delta * |a - b| := mul_le_mul_of_nonneg_right hm (abs_nonneg _)
    rw [he]; nlinarith
  rw [abs_le]
  have := key b a
  rw [abs_sub_comm b a] at this
  exact ⟨by linarith, key a b⟩

/-- C43.  `logloss_sign` is positive, and decreasing in the margin `y·z`. -/
theorem C43_logloss_sign (y z y' z' : ℝ) : 0 < logLossSign y z ∧ (y * z < y' * z' → logLossSign y' z' < logLossSign y z) := by
  unfold logLossSign
  constructor
  · exact Real.log_pos (by have := Real.exp_pos (-y * z); linarith)
  · intro h
    refine Real.log_lt_log (by have := Real.exp_pos (-y' * z'); linarith) ?_
    have := Real.exp_lt_exp.2 (show -y' * z' < -y * z by linarith)
    linarith

/-- C43.  `logloss_sign` of the sign `2y-1` and a logit is `logloss` of `y ∈ {0, 1}` and the probability `sigmoid(z)`. -/
theorem C43_logloss_agree (y z : ℝ) (hy : y = 0 ∨ y = 1) : logLossSign (2 * y - 1) z = logLoss y (Real.sigmoid z) := by
  unfold logLossSign logLoss
  rcases hy with rfl | rfl
  · have h1 : 1 - Real.sigmoid z = Real.sigmoid (-z) := (Real.sigmoid_neg z).symm
    rw [h1, Real.sigmoid_def (-z), Real.log_inv, neg_neg]
    simp
  · rw [Real.sigmoid_def, Real.log_inv]
    simp only [sub_self, zero_mul, sub_zero]
    rw [show -(2 * (1 : ℝ) - 1) * z = -z by ring]; ring

/-- C43.  `logloss` is non-negative on `[0, 1] × (0, 1)`. -/
theorem C43_logloss (y p : ℝ) (hy : 0 ≤ y ∧ y ≤ 1) (hp : 0 < p ∧ p < 1) : 0 ≤ logLoss y p := by
  unfold logLoss
  have h1 := Real.log_neg hp.1 hp.2
  have h2 := Real.log_neg (show 0 < 1 - p by linarith) (by linarith)
  nlinarith [hy.1, hy.2]

/-! ### Batches -/

/-- Two batches of the same shape. -/
def SameShape (a b : List (List ℝ)) : Prop := List.Forall₂ (fun r s => r.length = s.length) a b

/-- The weighted mean: the sum over samples of the weight times the losses of the sample, divided by the number of entries. -/
noncomputable def weightedMean (w : List ℝ) (loss : List (List ℝ)) : ℝ :=
  (List.zipWith (fun x row => x * row.sum) w loss).sum / loss.flatten.length

theorem sum_weighted (w : List ℝ) (loss : List (List ℝ)) :
    ((List.zipWith (fun x row => row.map (fun l => x * l)) w loss).flatten).sum = (List.zipWith (fun x row => x * row.sum) w loss).sum := by
  induction w generalizing loss with
  | nil => simp
  | cons x w ih =>
    cases loss with
    | nil => simp
    | cons row loss =>
      simp only [List.zipWith_cons_cons, List.flatten_cons, List.sum_append, List.sum_cons, ih]
      congr 1
      induction row with
      | nil => simp
      | cons a row ihr => simp only [List.map_cons, List.sum_cons, ihr]; ring

theorem length_weighted (w : List ℝ) (loss : List (List ℝ)) (h : loss.length = w.length) :
    ((List.zipWith (fun x row => row.map (fun l => x * l)) w loss).flatten).length = loss.flatten.length := by
  induction w generalizing loss with
  | nil => cases loss with
    | nil => rfl
    | cons _ _ => simp at h
  | cons x w ih =>
    cases loss with
    | nil => simp at h
    | cons row loss =>
      simp only [List.zipWith_cons_cons, List.flatten_cons, List.length_append, List.length_map]
      rw [ih loss (by simpa using h)]

/-- C43.  The weights multiply the per-sample losses before the (plain) mean over all entries; without weights it is the plain
mean; a number of weights different from the batch size raises `AssertionError`. -/
theorem C43_weights (loss : List (List ℝ)) (hne : loss.flatten ≠ []) :
    (∀ w, loss.length = w.length → meanWithWeights loss (some w) = .ok (some (weightedMean w loss))) ∧
    meanWithWeights loss none = .ok (some (weightedMean (List.replicate loss.length 1) loss)) ∧
    (∀ w, loss.length ≠ w.length → meanWithWeights loss (some w) = .error .assertionError) := by
  refine ⟨?_, ?_, ?_⟩
  · intro w hw
    unfold meanWithWeights meanAll weightedMean
    simp only
    have hl := length_weighted w loss hw
    rw [if_neg (by simpa using hw), if_neg, sum_weighted, hl]
    intro hc
    rw [hc] at hl
    exact hne (List.length_eq_zero_iff.1 hl.symm)
  · unfold meanWithWeights meanAll weightedMean
    simp only
    rw [if_neg hne]
    congr 3
    clear hne
    induction loss with
    | nil => rfl
    | cons row loss ih =>
      simp only [List.flatten_cons, List.sum_append, List.length_cons, List.replicate_succ, List.zipWith_cons_cons, List.sum_cons, ih, one_mul]
  · intro w hw
    unfold meanWithWeights
    simp only
    rw [if_pos hw]

theorem weightedMean_nonneg {w : List ℝ} {loss : List (List ℝ)} (hw : ∀ x ∈ w, 0 ≤ x) (hl : ∀ row ∈ loss, ∀ l ∈ row, 0 ≤ l) : 0 ≤ weightedMean w loss := by
  unfold weightedMean
  refine div_nonneg ?_ (Nat.cast_nonneg _)
  apply List.sum_nonneg
  intro x hx
  obtain ⟨i, hi⟩ := List.mem_iff_getElem?.1 hx
  rw [List.getElem?_zipWith] at hi
  cases h1 : w[i]? with
  | none => simp [h1] at hi
  | some a =>
    cases h2 : loss[i]? with
    | none => simp [h1, h2] at hi
    | some r =>
      simp only [h1, h2, Option.some.injEq] at hi
      rw [← hi]
      exact mul_nonneg (hw a (List.mem_of_getElem? h1)) (List.sum_nonneg (hl r (List.mem_of_getElem? h2)))

theorem sum_eq_zero_iff {l : List ℝ} (h : ∀ x ∈ l, 0 ≤ x) : l.sum = 0 ↔ ∀ x ∈ l, x = 0 := by
  induction l with
  | nil => simp
  | cons a l ih =>
    have ha := h a (by simp)
    have hl : ∀ x ∈ l, 0 ≤ x := fun x hx => h x (by simp [hx])
    have hs := List.sum_nonneg hl
    rw [List.sum_cons]
    constructor
    · intro h0
      have h1 : a = 0 := by linarith
      have h2 : l.sum = 0 := by linarith
      intro x hx
      rcases List.mem_cons.1 hx with rfl | hx
      · exact h1
      · exact (ih hl).1 h2 x hx
    · intro h0
      rw [h0 a (by simp), (ih hl).2 (fun x hx => h0 x (by simp [hx]))]; simp

theorem weightedMean_zero_iff {w : List ℝ} {loss : List (List ℝ)} (hlen : loss.length = w.length) (hw : ∀ x ∈ w, 0 < x)
    (hl : ∀ row ∈ loss, ∀ l ∈ row, 0 ≤ l) (hne : loss.flatten ≠ []) : weightedMean w loss = 0 ↔ ∀ row ∈ loss, ∀ l ∈ row, l = 0 := by
  have hpos : (0 : ℝ) < loss.flatten.length := by
    have := List.length_pos_iff.2 hne
    exact_mod_cast this
  unfold weightedMean
  rw [div_eq_zero_iff, or_iff_left hpos.ne']
  clear hpos hne
  induction w generalizing loss with
  | nil =>
    cases loss with
    | nil => simp
    | cons _ _ => simp at hlen
  | cons x w ih =>
    cases loss with
    | nil => simp at hlen
    | cons row loss =>
      have hx := hw x (by simp)
      have hrow := hl row (by simp)
      have hr := List.sum_nonneg hrow
      have ih' := ih (loss := loss) (by simpa using hlen) (fun y hy => hw y (by simp [hy])) (fun r hr => hl r (by simp [hr]))
      have hrest : 0 ≤ (List.zipWith (fun x row => x * List.sum row) w loss).sum := by
        apply List.sum_nonneg
        intro v hv
        obtain ⟨i, hi⟩ := List.mem_iff_getElem?.1 hv
        rw [List.getElem?_zipWith] at hi
        cases h1 : w[i]? with
        | none => simp [h1] at hi
        | some a =>
          cases h2 : loss[i]? with
          | none => simp [h1, h2] at hi
          | some r =>
            simp only [h1, h2, Option.some.injEq] at hi
            rw [← hi]
            exact mul_nonneg (hw a (by simp [List.mem_of_getElem? h1])).le (List.sum_nonneg (hl r (by simp [List.mem_of_getElem? h2])))
      simp only [List.zipWith_cons_cons, List.sum_cons, List.mem_cons, forall_eq_or_imp]
      refine Iff.trans ?_ (and_congr (sum_eq_zero_iff hrow) ih')
      constructor
      · intro h0
        have h1 := mul_nonneg hx.le hr
        have h2 : x * row.sum = 0 := by linarith
        refine ⟨?_, by linarith⟩
        rcases mul_eq_zero.1 h2 with h | h
        · exact absurd h hx.ne'
        · exact h
      · rintro ⟨h1, h2⟩; rw [h1, h2]; ring

theorem mem_elementwise {f : ℝ → ℝ → ℝ} {a b : List (List ℝ)} {row : List ℝ} (hr : row ∈ elementwise f a b) {l : ℝ} (hl : l ∈ row) :
    ∃ x y, l = f x y := by
  unfold elementwise at hr
  obtain ⟨i, hi⟩ := List.mem_iff_getElem?.1 hr
  rw [List.getElem?_zipWith] at hi
  cases h1 : a[i]? with
  | none => simp [h1] at hi
  | some r =>
    cases h2 : b[i]? with
    | none => simp [h1, h2] at hi
    | some s =>
      simp only [h1, h2, Option.some.injEq] at hi
      subst hi
      obtain ⟨j, hj⟩ := List.mem_iff_getElem?.1 hl
      rw [List.getElem?_zipWith] at hj
      cases h3 : r[j]? with
      | none => simp [h3] at hj
      | some x =>
        cases h4 : s[j]? with
        | none => simp [h3, h4] at hj
        | some y =>
          simp only [h3, h4, Option.some.injEq] at hj
          exact ⟨x, y, hj.symm⟩

theorem zipWith_zero_iff {f : ℝ → ℝ → ℝ} (hf : ∀ y p, f y p = 0 ↔ p = y) {r s : List ℝ} (h : r.length = s.length) :
    (∀ l ∈ List.zipWith f r s, l = 0) ↔ r = s := by
  induction r generalizing s with
  | nil => cases s <;> simp at h ⊢
  | cons x r ih =>
    cases s with
    | nil => simp at h
    | cons y s =>
      simp only [List.zipWith_cons_cons, List.mem_cons, forall_eq_or_imp, hf, List.cons.injEq]
      rw [ih (by simpa using h)]
      exact and_congr_left (fun _ => eq_comm)

theorem elementwise_zero_iff {f : ℝ → ℝ → ℝ} (hf : ∀ y p, f y p = 0 ↔ p = y) {a b : List (List ℝ)} (h : SameShape a b) :
    (∀ row ∈ elementwise f a b, ∀ l ∈ row, l = 0) ↔ a = b := by
  unfold elementwise
  induction h with
  | nil => simp
  | cons hrs _ ih =>
    simp only [List.zipWith_cons_cons, List.mem_cons, forall_eq_or_imp, List.cons.injEq]
    rw [ih, zipWith_zero_iff hf hrs]

theorem elementwise_shape {f : ℝ → ℝ → ℝ} {a b : List (List ℝ)} (h : SameShape a b) : SameShape (elementwise f a b) a := by
  unfold elementwise SameShape
  induction h with
  | nil => exact .nil
  | cons hrs _ ih => exact .cons (by simp [hrs]) ih

theorem sameShape_length {a b : List (List ℝ)} (h : SameShape a b) : a.length = b.length ∧ a.flatten.length = b.flatten.length := by
  induction h with
  | nil => exact ⟨rfl, rfl⟩
  | cons hrs _ ih => simp [ih.1, hrs, ih.2]

theorem batch_loss {f : ℝ → ℝ → ℝ} (hf0 : ∀ y p, 0 ≤ f y p) (hf : ∀ y p, f y p = 0 ↔ p = y) {a b : List (List ℝ)} (h : SameShape a b)
    (hne : a.flatten ≠ []) {w : List ℝ} (hlen : w.length = a.length) (hw : ∀ x ∈ w, 0 < x) :
    ∃ m, meanWithWeights (elementwise f a b) (some w) = .ok (some m) ∧ 0 ≤ m ∧ (m = 0 ↔ a = b) := by
  have hs := elementwise_shape (f := f) h
  have hl := sameShape_length hs
  have hne' : (elementwise f a b).flatten ≠ [] := by
    intro hc
    rw [hc] at hl
    exact hne (List.length_eq_zero_iff.1 hl.2.symm)
  have hpos : ∀ row ∈ elementwise f a b, ∀ l ∈ row, 0 ≤ l := by
    intro row hr l hl
    obtain ⟨x, y, rfl⟩ := mem_elementwise hr hl
    exact hf0 x y
  have hlen' : (elementwise f a b).length = w.length := by rw [hl.1, hlen]
  refine ⟨_, (C43_weights _ hne').1 w hlen', weightedMean_nonneg (fun x hx => (hw x hx).le) hpos, ?_⟩
  rw [weightedMean_zero_iff hlen' hw hpos hne', elementwise_zero_iff hf h]

/-- C43.  For batches: with positive weights, `mse` is a non-negative number, zero exactly if all predictions equal their targets. -/
theorem C43_mse_batch {a b : List (List ℝ)} (h : SameShape a b) (hne : a.flatten ≠ []) {w : List ℝ} (hlen : w.length = a.length) (hw : ∀ x ∈ w, 0 < x) :
    ∃ m, mse a b (some w) = .ok (some m) ∧ 0 ≤ m ∧ (m = 0 ↔ a = b) :=
  batch_loss (fun y p => (C43_mse y p).2.1) (fun y p => (C43_mse y p).2.2.2) h hne hlen hw

/-- C43.  The same for `huber` with `δ > 0`. -/
theorem C43_huber_batch {delta : ℝ} (hd : 0 < delta) {a b : List (List ℝ)} (h : SameShape a b) (hne : a.flatten ≠ []) {w : List ℝ} (hlen : w.length = a.length)
    (hw : ∀ x ∈ w, 0 < x) : ∃ m, huber a b (some w) delta = .ok (some m) ∧ 0 ≤ m ∧ (m = 0 ↔ a = b) :=
  batch_loss (fun y p => (C43_huber hd y p).1) (fun y p => (C43_huber hd y p).2.2.1) h hne hlen hw

/-! ### C44 -/

/-- C44.  Under-estimation (`ŷ < y`) is weighted with `τ`, over-estimation with `1 - τ`. -/
theorem C44_weights {delta tau : ℝ} (ht : 0 ≤ tau ∧ tau ≤ 1) (y p : ℝ) :
    (p ≤ y → quantileHuberElem delta y p tau = tau * huberSpec delta (y - p) / delta) ∧
    (y < p → quantileHuberElem delta y p tau = (1 - tau) * huberSpec delta (y - p) / delta) := by
  have e : ∀ c : ℝ, |c| * (0.5 * min |y - p| delta ^ 2 + delta * (|y - p| - min |y - p| delta)) / delta = |c| * huberSpec delta (y - p) / delta := by
    intro c
    congr 2
    have := huber_eq_spec (delta := delta) p y
    unfold huberLoss at this
    simpa using this
  unfold quantileHuberElem
  simp only
  rw [e]
  constructor
  · intro h
    rw [if_neg (by linarith), sub_zero, abs_of_nonneg ht.1]
  · intro h
    rw [if_pos (by linarith), abs_sub_comm, abs_of_nonneg (by linarith [ht.2])]

theorem huberSpec_pos {delta e : ℝ} (hd : 0 < delta) : 0 ≤ huberSpec delta e ∧ (huberSpec delta e = 0 ↔ e = 0) := by
  have := C43_huber hd 0 e
  rw [huber_eq_spec, sub_zero] at this
  exact ⟨this.1, this.2.2.1⟩

theorem quantileHuberElem_pos {delta tau : ℝ} (hd : 0 < delta) (ht : 0 < tau ∧ tau < 1) (y p : ℝ) :
    0 ≤ quantileHuberElem delta y p tau ∧ (quantileHuberElem delta y p tau = 0 ↔ p = y) := by
  have h := huberSpec_pos (e := y - p) hd
  have key : ∀ c, 0 < c → 0 ≤ c * huberSpec delta (y - p) / delta ∧ (c * huberSpec delta (y - p) / delta = 0 ↔ p = y) := by
    intro c hc
    refine ⟨div_nonneg (mul_nonneg hc.le h.1) hd.le, ?_⟩
    rw [div_eq_zero_iff, or_iff_left hd.ne', mul_eq_zero, or_iff_right hc.ne', h.2, sub_eq_zero, eq_comm]
  rcases le_or_gt p y with hp | hp
  · rw [(C44_weights ⟨ht.1.le, ht.2.le⟩ y p).1 hp]; exact key tau ht.1
  · rw [(C44_weights ⟨ht.1.le, ht.2.le⟩ y p).2 hp]; exact key (1 - tau) (by linarith)

/-- C44.  Each entry of the loss is non-negative, and zero exactly when the prediction equals the target (for `0 < τ < 1`). -/
theorem C44_elementwise {delta tau : ℝ} (hd : 0 < delta) (ht : 0 < tau ∧ tau < 1) (y p : ℝ) :
    0 ≤ quantileHuberElem delta y p tau ∧ (quantileHuberElem delta y p tau = 0 ↔ p = y) := quantileHuberElem_pos hd ht y p

/-- The matrix of losses per sample and predicted quantile. -/
noncomputable def quantileRows (delta : ℝ) (yTrue yPred quantiles : List (List ℝ)) : List (List ℝ) :=
  List.zipWith (fun ys pq => List.zipWith (fun p q => (ys.map (fun y => quantileHuberElem delta y p q)).sum) pq.1 pq.2) yTrue (yPred.zip quantiles)

theorem mem_quantileRows {delta : ℝ} {yTrue yPred quantiles : List (List ℝ)} {row : List ℝ} :
    row ∈ quantileRows delta yTrue yPred quantiles ↔ ∃ (b : Nat) (ys ps qs : List ℝ), yTrue[b]? = some ys ∧ yPred[b]? = some ps ∧ quantiles[b]? = some qs ∧
      row = List.zipWith (fun p q => (ys.map (fun y => quantileHuberElem delta y p q)).sum) ps qs := by
  unfold quantileRows
  rw [List.mem_iff_getElem?]
  constructor
  · rintro ⟨b, hb⟩
    rw [List.getElem?_zipWith] at hb
    cases h1 : yTrue[b]? with
    | none => simp [h1] at hb
    | some ys =>
      cases h2 : (yPred.zip quantiles)[b]? with
      | none => simp [h1, h2] at hb
      | some pq =>
        simp only [h1, h2, Option.some.injEq] at hb
        rw [List.getElem?_zip_eq_some] at h2
        exact ⟨b, ys, pq.1, pq.2, h1, h2.1, h2.2, hb.symm⟩
  · rintro ⟨b, ys, ps, qs, h1, h2, h3, rfl⟩
    refine ⟨b, ?_⟩
    rw [List.getElem?_zipWith, h1, show (yPred.zip quantiles)[b]? = some (ps, qs) from List.getElem?_zip_eq_some.2 ⟨h2, h3⟩]

theorem mem_zipWith' {f : ℝ → ℝ → ℝ} {ps qs : List ℝ} {l : ℝ} :
    l ∈ List.zipWith f ps qs ↔ ∃ (i : Nat) (p q : ℝ), ps[i]? = some p ∧ qs[i]? = some q ∧ l = f p q := by
  rw [List.mem_iff_getElem?]
  constructor
  · rintro ⟨i, hi⟩
    rw [List.getElem?_zipWith] at hi
    cases h1 : ps[i]? with
    | none => simp [h1] at hi
    | some p =>
      cases h2 : qs[i]? with
      | none => simp [h1, h2] at hi
      | some q =>
        simp only [h1, h2, Option.some.injEq] at hi
        exact ⟨i, p, q, h1, h2, hi.symm⟩
  · rintro ⟨i, p, q, h1, h2, rfl⟩
    exact ⟨i, by rw [List.getElem?_zipWith, h1, h2]⟩

/-- C44.  For batches with positive weights and quantile fractions strictly between 0 and 1, the loss is a non-negative number,
and zero exactly when in each sample every prediction equals every target. -/
theorem C44_batch {delta : ℝ} (hd : 0 < delta) {yTrue yPred quantiles : List (List ℝ)} (h1 : yTrue.length = yPred.length) (h2 : SameShape yPred quantiles)
    (hq : ∀ qs ∈ quantiles, ∀ q ∈ qs, 0 < q ∧ q < 1) (hne : yPred.flatten ≠ []) {w : List ℝ} (hlen : w.length = yPred.length) (hw : ∀ x ∈ w, 0 < x) :
    ∃ m, quantileHuber yTrue yPred quantiles (some w) delta = .ok (some m) ∧ 0 ≤ m ∧
      (m = 0 ↔ ∀ (b : Nat) (ys ps : List ℝ), yTrue[b]? = some ys → yPred[b]? = some ps → ∀ y ∈ ys, ∀ p ∈ ps, p = y) := by
  have hl2 := sameShape_length h2
  have hlen' : (quantileRows delta yTrue yPred quantiles).length = w.length := by
    unfold quantileRows
    simp only [List.length_zipWith, List.length_zip]
    omega
  have hget : ∀ (b : Nat) (ps : List ℝ), yPred[b]? = some ps → ∃ qs ys, quantiles[b]? = some qs ∧ yTrue[b]? = some ys ∧ qs.length = ps.length := by
    intro b ps hps
    have hb : b < yPred.length := (List.getElem?_eq_some_iff.1 hps).1
    refine ⟨quantiles[b]'(by omega), yTrue[b]'(by omega), List.getElem?_eq_getElem _, List.getElem?_eq_getElem _, ?_⟩
    have := List.Forall₂.get h2 hb (by omega)
    simp only [List.get_eq_getElem] at this
    rw [List.getElem?_eq_getElem hb, Option.some.injEq] at hps
    rw [← hps]; exact this.symm
  have hne' : (quantileRows delta yTrue yPred quantiles).flatten ≠ [] := by
    intro hc
    rw [List.flatten_eq_nil_iff] at hc
    obtain ⟨p, hp⟩ := List.exists_mem_of_ne_nil _ hne
    obtain ⟨ps, hps, hp⟩ := List.mem_flatten.1 hp
    obtain ⟨b, hb⟩ := List.mem_iff_getElem?.1 hps
    obtain ⟨qs, ys, e1, e2, e3⟩ := hget b ps hb
    have := hc _ (mem_quantileRows.2 ⟨b, ys, ps, qs, e2, hb, e1, rfl⟩)
    have := congrArg List.length this
    simp only [List.length_zipWith, List.length_nil, e3] at this
    have hp0 := List.length_pos_of_mem hp
    omega
  have hent : ∀ (b i : Nat) (ys ps qs : List ℝ) (q : ℝ), quantiles[b]? = some qs → qs[i]? = some q → 0 < q ∧ q < 1 :=
    fun b i ys ps qs q hb hi => hq qs (List.mem_of_getElem? hb) q (List.mem_of_getElem? hi)
  have hpos : ∀ row ∈ quantileRows delta yTrue yPred quantiles, ∀ l ∈ row, 0 ≤ l := by
    intro row hrow l hl
    obtain ⟨b, ys, ps, qs, e1, e2, e3, rfl⟩ := mem_quantileRows.1 hrow
    obtain ⟨i, p, q, e4, e5, rfl⟩ := mem_zipWith'.1 hl
    apply List.sum_nonneg
    intro x hx
    obtain ⟨y, _, rfl⟩ := List.mem_map.1 hx
    exact (quantileHuberElem_pos hd (hent b i ys ps qs q e3 e5) y p).1
  refine ⟨_, (C43_weights _ hne').1 w hlen', weightedMean_nonneg (fun x hx => (hw x hx).le) hpos, ?_⟩
  rw [weightedMean_zero_iff hlen' hw hpos hne']
  constructor
  · intro h0 b ys ps hys hps y hy p hp
    obtain ⟨qs, ys', e1, e2, e3⟩ := hget b ps hps
    rw [hys] at e2; cases e2
    obtain ⟨i, hi⟩ := List.mem_iff_getElem?.1 hp
    have hil : i < qs.length := by have := (List.getElem?_eq_some_iff.1 hi).1; omega
    have hqi := List.getElem?_eq_getElem hil
    have hz := h0 _ (mem_quantileRows.2 ⟨b, ys, ps, qs, hys, hps, e1, rfl⟩) _ (mem_zipWith'.2 ⟨i, p, qs[i], hi, hqi, rfl⟩)
    have hb := hent b i ys ps qs _ e1 hqi
    rw [sum_eq_zero_iff (by
      intro x hx
      obtain ⟨y, _, rfl⟩ := List.mem_map.1 hx
      exact (quantileHuberElem_pos hd hb y p).1)] at hz
    exact (quantileHuberElem_pos hd hb y p).2.1 (hz _ (List.mem_map.2 ⟨y, hy, rfl⟩))
  · intro h0 row hrow l hl
    obtain ⟨b, ys, ps, qs, e1, e2, e3, rfl⟩ := mem_quantileRows.1 hrow
    obtain ⟨i, p, q, e4, e5, rfl⟩ := mem_zipWith'.1 hl
    have hb := hent b i ys ps qs q e3 e5
    rw [sum_eq_zero_iff (by
      intro x hx
      obtain ⟨y, _, rfl⟩ := List.mem_map.1 hx
      exact (quantileHuberElem_pos hd hb y p).1)]
    intro x hx
    obtain ⟨y, hy, rfl⟩ := List.mem_map.1 hx
    exact (quantileHuberElem_pos hd hb y p).2.2 (h0 b ys ps e1 e2 y hy p (List.mem_of_getElem? e4))

/-- Two samples, one prediction each, weights 1 and 3: `(1·½ + 3·2)/2`. -/
example : mse [[0], [1]] [[1], [3]] (some [1, 3]) = .ok (some (13 / 4)) := by
  unfold mse
  rw [(C43_weights _ (by simp [elementwise])).1 _ (by simp [elementwise])]
  simp only [elementwise, weightedMean]
  norm_num [mseLoss]

example : quantileHuberElem 1 3 0 (1 / 4) = (1 / 4) * (5 / 2) := by
  rw [(C44_weights (by norm_num) 3 0).1 (by norm_num)]
  unfold huberSpec
  rw [if_neg (by norm_num)]
  norm_num

example : SameShape [[0, 1], [2, 3]] [[1, 1], [1, 1]] := .cons rfl (.cons rfl .nil)

end Coax.Values
