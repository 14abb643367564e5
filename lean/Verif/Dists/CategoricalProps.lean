import Verif.Dists.Categorical
import Mathlib.Analysis.SpecialFunctions.Exp
import Mathlib.Algebra.BigOperators.Field
import Mathlib.Algebra.Order.BigOperators.Group.Finset
import Mathlib.Analysis.SpecialFunctions.Log.Deriv
import Mathlib.Tactic.FieldSimp
import Mathlib.Tactic.Linarith

/-! Property C49: identities of the categorical distribution. -/

namespace Coax.Dists

variable {n : Nat}

theorem sumExp_pos (z : Fin n → ℝ) (k : Fin n) : 0 < ∑ j, Real.exp (z j) :=
  Finset.sum_pos (fun _ _ => Real.exp_pos _) ⟨k, Finset.mem_univ _⟩

theorem exp_logSoftmax (z : Fin n → ℝ) (k : Fin n) : Real.exp (logSoftmax z k) = softmax z k := by
  unfold logSoftmax softmax
  rw [Real.exp_sub, Real.exp_log (sumExp_pos z k)]

/-- C49.  The probabilities are positive and sum to one. -/
theorem C49_probabilities (z : Fin n → ℝ) : (∀ k, 0 < meanRow z k) ∧ (0 < n → ∑ k, meanRow z k = 1) := by
  unfold meanRow
  refine ⟨fun k => div_pos (Real.exp_pos _) (sumExp_pos z k), fun hn => ?_⟩
  unfold softmax
  rw [← Finset.sum_div, div_self (sumExp_pos z ⟨0, hn⟩).ne']

theorem softmax_pos (z : Fin n → ℝ) (k : Fin n) : 0 < softmax z k := (C49_probabilities z).1 k
theorem softmax_sum (hn : 0 < n) (z : Fin n → ℝ) : ∑ k, softmax z k = 1 := (C49_probabilities z).2 hn

/-- C49.  Log-probabilities are the logarithms of the probabilities; a one-hot variate gives that of its action. -/
theorem C49_logProba (z : Fin n → ℝ) (a : Fin n) : logProbaRow z (fun k => if k = a then 1 else 0) = Real.log (meanRow z a) := by
  unfold logProbaRow meanRow
  rw [← exp_logSoftmax, Real.log_exp]
  simp

theorem logSoftmax_eq (z : Fin n → ℝ) (k : Fin n) : logSoftmax z k = Real.log (softmax z k) := by
  rw [← exp_logSoftmax, Real.log_exp]

/-- Two logits vectors that differ by a constant. -/
def Shifted (z w : Fin n → ℝ) : Prop := ∃ c, ∀ k, w k = z k + c

/-- C49.  The probabilities are the same exactly for logits that differ by a constant. -/
theorem C49_shift (z w : Fin n → ℝ) : meanRow z = meanRow w ↔ Shifted z w := by
  unfold meanRow
  constructor
  · intro h
    by_cases hn : 0 < n
    · refine ⟨Real.log (∑ j, Real.exp (w j)) - Real.log (∑ j, Real.exp (z j)), fun k => ?_⟩
      have : logSoftmax z k = logSoftmax w k := by rw [logSoftmax_eq, logSoftmax_eq, h]
      unfold logSoftmax at this
      linarith
    · exact ⟨0, fun k => absurd k.pos hn⟩
  · rintro ⟨c, hc⟩
    funext k
    unfold softmax
    have : ∑ j, Real.exp (w j) = (∑ j, Real.exp (z j)) * Real.exp c := by
      rw [Finset.sum_mul]
      exact Finset.sum_congr rfl (fun j _ => by rw [hc, Real.exp_add])
    rw [this, hc, Real.exp_add, mul_div_mul_right _ _ (Real.exp_pos c).ne']

/-- C49.  Entropy, cross-entropy and divergence in terms of the probabilities. -/
theorem C49_formulas (zp zq : Fin n → ℝ) :
    entropyRow zp = -∑ k, meanRow zp k * Real.log (meanRow zp k) ∧
    crossEntropyRow zp zq = -∑ k, meanRow zp k * Real.log (meanRow zq k) ∧
    klRow zp zq = ∑ k, meanRow zp k * Real.log (meanRow zp k / meanRow zq k) := by
  unfold entropyRow crossEntropyRow klRow meanRow
  refine ⟨?_, ?_, ?_⟩
  · rw [← Finset.sum_neg_distrib]
    exact Finset.sum_congr rfl (fun k _ => by rw [exp_logSoftmax, logSoftmax_eq]; ring)
  · rw [← Finset.sum_neg_distrib]
    exact Finset.sum_congr rfl (fun k _ => by rw [logSoftmax_eq]; ring)
  · exact Finset.sum_congr rfl (fun k _ => by
      rw [exp_logSoftmax, logSoftmax_eq, logSoftmax_eq, Real.log_div (softmax_pos zp k).ne' (softmax_pos zq k).ne'])

/-- C49.  The divergence is the cross-entropy minus the entropy. -/
theorem C49_kl_eq (zp zq : Fin n → ℝ) : klRow zp zq = crossEntropyRow zp zq - entropyRow zp := by
  unfold klRow crossEntropyRow entropyRow
  rw [← Finset.sum_sub_distrib]
  exact Finset.sum_congr rfl (fun k _ => by rw [exp_logSoftmax]; ring)

/-- `p log (p/q) ≥ p - q`, with equality only for `p = q`. -/
theorem gibbs_term {p q : ℝ} (hp : 0 < p) (hq : 0 < q) : p - q ≤ p * Real.log (p / q) ∧ (p * Real.log (p / q) = p - q → p = q) := by
  have hlog : Real.log (p / q) = -Real.log (q / p) := by rw [← Real.log_inv, inv_div]
  have hpos : 0 < q / p := div_pos hq hp
  constructor
  · have := Real.log_le_sub_one_of_pos hpos
    rw [hlog]
    have h2 : p * Real.log (q / p) ≤ p * (q / p - 1) := mul_le_mul_of_nonneg_left this hp.le
    have h3 : p * (q / p - 1) = q - p := by field_simp
    linarith
  · intro h
    by_contra hne
    have hne' : q / p ≠ 1 := by
      intro h'; rw [div_eq_one_iff_eq hp.ne'] at h'; exact hne h'.symm
    have := Real.log_lt_sub_one_of_pos hpos hne'
    have h2 : p * Real.log (q / p) < p * (q / p - 1) := mul_lt_mul_of_pos_left this hp
    have h3 : p * (q / p - 1) = q - p := by field_simp
    rw [hlog] at h
    linarith

theorem gibbs {p q : Fin n → ℝ} (hp : ∀ k, 0 < p k) (hq : ∀ k, 0 < q k) (hs : ∑ k, p k = ∑ k, q k) :
    0 ≤ ∑ k, p k * Real.log (p k / q k) ∧ (∑ k, p k * Real.log (p k / q k) = 0 → p = q) := by
  have h0 : ∑ k, (p k - q k) = 0 := by rw [Finset.sum_sub_distrib, hs, sub_self]
  have hle : ∀ k ∈ Finset.univ, p k - q k ≤ p k * Real.log (p k / q k) := fun k _ => (gibbs_term (hp k) (hq k)).1
  constructor
  · rw [← h0]; exact Finset.sum_le_sum hle
  · intro h
    rw [← h0] at h
    have := (Finset.sum_eq_sum_iff_of_le hle).1 h.symm
    funext k
    exact (gibbs_term (hp k) (hq k)).2 (this k (Finset.mem_univ _)).symm

theorem softmax_sum_eq (zp zq : Fin n → ℝ) : ∑ k, softmax zp k = ∑ k, softmax zq k := by
  by_cases hn : 0 < n
  · rw [softmax_sum hn, softmax_sum hn]
  · have : n = 0 := by omega
    subst this; simp

/-- C49.  The divergence is non-negative, and zero exactly for equal distributions. -/
theorem C49_kl_nonneg (zp zq : Fin n → ℝ) : 0 ≤ klRow zp zq ∧ (klRow zp zq = 0 ↔ meanRow zp = meanRow zq) := by
  rw [(C49_formulas zp zq).2.2]
  have h := gibbs (softmax_pos zp) (softmax_pos zq) (softmax_sum_eq zp zq)
  refine ⟨h.1, h.2, ?_⟩
  intro e
  rw [e]
  refine Finset.sum_eq_zero (fun k _ => ?_)
  unfold meanRow
  rw [div_self (softmax_pos zq k).ne', Real.log_one, mul_zero]

/-- C49.  `0 ≤ H ≤ log n`, and `H = log n` exactly for the uniform distribution. -/
theorem C49_entropy_bounds (hn : 0 < n) (z : Fin n → ℝ) :
    0 ≤ entropyRow z ∧ entropyRow z ≤ Real.log n ∧ (entropyRow z = Real.log n ↔ ∀ k, meanRow z k = 1 / n) := by
  have hn' : (0 : ℝ) < n := by exact_mod_cast hn
  have hu : meanRow (fun _ : Fin n => (0 : ℝ)) = fun _ => 1 / (n : ℝ) := by
    funext k; simp [meanRow, softmax]
  have hkl : klRow z (fun _ => 0) = Real.log n - entropyRow z := by
    rw [C49_kl_eq, (C49_formulas z (fun _ => 0)).2.1, hu]
    simp only [one_div, Real.log_inv, mul_neg, Finset.sum_neg_distrib, neg_neg]
    rw [← Finset.sum_mul, show ∑ k, meanRow z k = 1 from softmax_sum hn z, one_mul]
  obtain ⟨h1, h2⟩ := C49_kl_nonneg z (fun _ => 0)
  rw [hkl] at h1 h2
  refine ⟨?_, by linarith, ?_⟩
  · rw [(C49_formulas z z).1, ← Finset.sum_neg_distrib]
    refine Finset.sum_nonneg (fun k _ => ?_)
    have hle : meanRow z k ≤ 1 := by
      rw [← show ∑ k, meanRow z k = 1 from softmax_sum hn z]
      exact Finset.single_le_sum (fun j _ => (softmax_pos z j).le) (Finset.mem_univ k)
    have := Real.log_nonpos (softmax_pos z k).le hle
    have hp := (softmax_pos z k).le
    unfold meanRow at *
    nlinarith
  · constructor
    · intro h k
      have := h2.1 (by rw [h, sub_self])
      rw [this, hu]
    · intro h
      have := h2.2 (by rw [hu]; funext k; exact h k)
      linarith

/-- A tie breaker that draws a candidate if there is one. -/
def Draws (draw : List (Fin n) → Option (Fin n)) : Prop := ∀ l : List (Fin n), l ≠ [] → ∃ a ∈ l, draw l = some a

/-- `argmax` returns a maximising index. -/
theorem argmax_spec {draw : List (Fin n) → Option (Fin n)} (hd : Draws draw) (hn : 0 < n) (x : Fin n → ℝ) : ∃ a, argmax draw x = some a ∧ ∀ j, x j ≤ x a := by
  have : Nonempty (Fin n) := ⟨⟨0, hn⟩⟩
  obtain ⟨m, hm⟩ := Finite.exists_max x
  obtain ⟨a, ha, h⟩ := hd ((List.finRange n).filter (fun k => decide (∀ j, x j ≤ x k))) (List.ne_nil_of_mem (a := m) (by simpa using hm))
  exact ⟨a, h, by simpa using ha⟩

/-- C49.  Postprocessing undoes preprocessing. -/
theorem C49_round_trip {draw : List (Fin n) → Option (Fin n)} (hd : Draws draw) (X : List (Fin n)) :
    postprocess draw (preprocess n (X.map (fun a => (a.1 : Int)))) = X.map some := by
  unfold postprocess preprocess
  rw [List.map_map, List.map_map]
  refine List.map_congr_left (fun a _ => ?_)
  simp only [Function.comp_apply]
  obtain ⟨b, hb, hmax⟩ := argmax_spec hd a.pos (fun k : Fin n => if (k.1 : Int) = (a.1 : Int) then (1 : ℝ) else 0)
  rw [hb]
  have := hmax a
  simp only [if_true] at this
  split at this
  · next h => congr 1; exact Fin.ext (by exact_mod_cast h)
  · norm_num at this

/-- C49.  Preprocessing undoes postprocessing of a one-hot row; and preprocessing gives a one-hot row with one entry 1 exactly for actions in range. -/
theorem C49_one_hot (a : Int) : ∀ r, preprocess n [a] = [r] → ((∃! k, r k = 1) ↔ 0 ≤ a ∧ a < n) ∧ (∀ k, r k = 0 ∨ r k = 1) := by
  intro r hr
  cases hr
  refine ⟨⟨?_, ?_⟩, ?_⟩
  · rintro ⟨k, hk, -⟩
    simp only at hk
    split at hk
    · next h => have := k.2; omega
    · norm_num at hk
  · rintro ⟨h1, h2⟩
    refine ⟨⟨a.toNat, by omega⟩, ?_, ?_⟩
    · simp only; rw [if_pos (by omega)]
    · intro j hj
      simp only at hj
      split at hj
      · next h => exact Fin.ext (by simp only; omega)
      · norm_num at hj
  · intro k; by_cases h : (k.1 : Int) = a
    · exact .inr (if_pos h)
    · exact .inl (if_neg h)

theorem softmax_le_iff (z : Fin n → ℝ) (j k : Fin n) : softmax z j ≤ softmax z k ↔ z j ≤ z k := by
  unfold softmax
  rw [div_le_div_iff_of_pos_right (sumExp_pos z k), Real.exp_le_exp]

/-- C49.  The mode postprocesses to a most probable action. -/
theorem C49_mode {draw : List (Fin n) → Option (Fin n)} (hd : Draws draw) (hn : 0 < n) {tau : ℝ} (htau : 0 < tau) (z : Fin n → ℝ) :
    ∃ a, argmax draw (modeRow tau z) = some a ∧ ∀ j, meanRow z j ≤ meanRow z a := by
  obtain ⟨a, ha, h⟩ := argmax_spec hd hn (modeRow tau z)
  refine ⟨a, ha, fun j => ?_⟩
  have := h j
  unfold modeRow at this
  rw [softmax_le_iff, div_le_div_iff_of_pos_right htau] at this
  unfold meanRow
  rw [softmax_le_iff]
  unfold logSoftmax at this
  linarith

/-- C49.  A sample is a vector of positive weights with sum one; it postprocesses to the action with the greatest `log p` plus Gumbel noise, which is
how a categorical variable is drawn. -/
theorem C49_sample {draw : List (Fin n) → Option (Fin n)} (hd : Draws draw) (hn : 0 < n) {tau : ℝ} (htau : 0 < tau) (u z : Fin n → ℝ) :
    (∀ k, 0 < sampleRow tau u z k) ∧ ∑ k, sampleRow tau u z k = 1 ∧
    ∃ a, argmax draw (sampleRow tau u z) = some a ∧
      ∀ j, Real.log (meanRow z j) - Real.log (-Real.log (u j)) ≤ Real.log (meanRow z a) - Real.log (-Real.log (u a)) := by
  refine ⟨fun k => softmax_pos _ k, softmax_sum hn _, ?_⟩
  obtain ⟨a, ha, h⟩ := argmax_spec hd hn (sampleRow tau u z)
  refine ⟨a, ha, fun j => ?_⟩
  have := h j
  unfold sampleRow at this
  rw [softmax_le_iff, div_le_div_iff_of_pos_right htau, logSoftmax_eq, logSoftmax_eq] at this
  unfold meanRow
  linarith

/-- The shape check accepts exactly the arrays with `n` columns. -/
theorem checkShape_ok {Z : List (List ℝ)} (h : ∀ r ∈ Z, r.length = n) :
    ∃ zs, checkShape n Z = .ok zs ∧ zs.length = Z.length ∧ ∀ (i : Nat) (r : List ℝ) (z : Fin n → ℝ), Z[i]? = some r → zs[i]? = some z → ∀ k : Fin n, r[k.1]? = some (z k) := by
  induction Z with
  | nil => exact ⟨[], rfl, rfl, fun i r z hr => by simp at hr⟩
  | cons r Z ih =>
    obtain ⟨zs, h1, h2, h3⟩ := ih (fun x hx => h x (by simp [hx]))
    have hr := h r (by simp)
    refine ⟨_, by unfold checkShape; rw [dif_pos hr, h1], by simp [h2], ?_⟩
    intro i r' z hr' hz k
    cases i with
    | zero =>
      rw [List.getElem?_cons_zero, Option.some.injEq] at hr' hz
      subst hr' hz
      exact List.getElem?_eq_getElem _
    | succ i => exact h3 i r' z (by simpa using hr') (by simpa using hz) k

theorem checkShape_err {Z : List (List ℝ)} (h : ∃ r ∈ Z, r.length ≠ n) : checkShape n Z = .error .valueError := by
  induction Z with
  | nil => obtain ⟨r, hr, -⟩ := h; simp at hr
  | cons r Z ih =>
    unfold checkShape
    by_cases hr : r.length = n
    · rw [dif_pos hr]
      obtain ⟨r', hr', hne⟩ := h
      rcases List.mem_cons.1 hr' with rfl | hr'
      · exact absurd hr hne
      · rw [ih ⟨r', hr', hne⟩]
    · rw [dif_neg hr]

/-- C49.  The identities hold row by row in batches; arrays of the wrong shape are rejected. -/
theorem C49_batch {Zp Zq : List (List ℝ)} (hp : ∀ r ∈ Zp, r.length = n) (hq : ∀ r ∈ Zq, r.length = n) (hl : Zp.length = Zq.length) (hn : 0 < n) :
    ∃ H CE KL, entropy n Zp = .ok H ∧ crossEntropy n Zp Zq = .ok CE ∧ klDivergence n Zp Zq = .ok KL ∧
      H.length = Zp.length ∧ CE.length = Zp.length ∧ KL.length = Zp.length ∧
      ∀ (i : Nat) (h c k : ℝ), H[i]? = some h → CE[i]? = some c → KL[i]? = some k → k = c - h ∧ 0 ≤ k ∧ 0 ≤ h ∧ h ≤ Real.log n := by
  obtain ⟨zp, p1, p2, -⟩ := checkShape_ok hp
  obtain ⟨zq, q1, q2, -⟩ := checkShape_ok hq
  have hlen : zp.length = zq.length := by omega
  refine ⟨_, _, _, by unfold entropy batch1; rw [p1], by unfold crossEntropy batch2; rw [p1]; simp only; rw [q1]; simp only; rw [if_pos hlen],
    by unfold klDivergence batch2; rw [p1]; simp only; rw [q1]; simp only; rw [if_pos hlen], by simp [p2], by simp [hlen, ← p2], by simp [hlen, ← p2], ?_⟩
  intro i h c k hh hc hk
  rw [List.getElem?_map] at hh
  obtain ⟨z, hz, rfl⟩ := Option.map_eq_some_iff.1 hh
  obtain ⟨w, hw⟩ : ∃ w, zq[i]? = some w := ⟨_, List.getElem?_eq_getElem (by have := (List.getElem?_eq_some_iff.1 hz).1; omega)⟩
  rw [List.getElem?_zipWith, hz, hw] at hc hk
  cases hc; cases hk
  exact ⟨C49_kl_eq z w, (C49_kl_nonneg z w).1, (C49_entropy_bounds hn z).1, (C49_entropy_bounds hn z).2.1⟩

theorem C49_batch_rejects {Z : List (List ℝ)} (h : ∃ r ∈ Z, r.length ≠ n) : entropy n Z = .error .valueError ∧ (∀ X, logProba n Z X = .error .valueError) := by
  refine ⟨by unfold entropy batch1; rw [checkShape_err h], fun X => by unfold logProba batch2; rw [checkShape_err h]⟩

theorem checkShape_singleton {r : List ℝ} (h : r.length = n) : checkShape n [r] = .ok [fun k => r[k.1]'(by rw [h]; exact k.2)] := by
  unfold checkShape
  rw [dif_pos h]
  rfl

/-- C49.  The divergence from the default priors, which are a batch of size one, is taken row by row: it is `log n` minus the entropy of the row. -/
theorem C49_default_priors {Z : List (List ℝ)} (hz : ∀ r ∈ Z, r.length = n) (hn : 0 < n) :
    ∃ H KL, entropy n Z = .ok H ∧ klDivergence n Z (defaultPriors n) = .ok KL ∧ KL = H.map (fun h => Real.log n - h) := by
  obtain ⟨zs, p1, p2, -⟩ := checkShape_ok hz
  have hq := checkShape_singleton (n := n) (r := List.replicate n 0) (by simp)
  have hrow : ∀ z : Fin n → ℝ, klRow z (fun k => (List.replicate n (0 : ℝ))[k.1]'(by simp)) = Real.log n - entropyRow z := by
    intro z
    have e : (fun k : Fin n => (List.replicate n (0 : ℝ))[k.1]'(by simp)) = fun _ => 0 := by funext k; simp
    rw [e, C49_kl_eq, (C49_formulas z (fun _ => 0)).2.1]
    have hu : meanRow (fun _ : Fin n => (0 : ℝ)) = fun _ => 1 / (n : ℝ) := by
      funext k; simp [meanRow, softmax]
    rw [hu]
    simp only [one_div, Real.log_inv, mul_neg, Finset.sum_neg_distrib, neg_neg]
    rw [← Finset.sum_mul, (C49_probabilities z).2 hn, one_mul]
  refine ⟨zs.map entropyRow, zs.map (fun z => Real.log n - entropyRow z), by unfold entropy batch1; rw [p1], ?_, by simp⟩
  unfold klDivergence batch2
  rw [p1]; simp only; unfold defaultPriors; rw [hq]; simp only
  split
  · next h =>
    cases zs with
    | nil => simp at h
    | cons z zs =>
      cases zs with
      | nil => simp only [List.zipWith_cons_cons, List.zipWith_nil_left, List.map_cons, List.map_nil, hrow]
      | cons w zs => simp at h
  · simp only [hrow]

/-- C49.  Two batches of different sizes, neither of size one, are rejected. -/
theorem C49_sizes {Zp Zq : List (List ℝ)} (hp : ∀ r ∈ Zp, r.length = n) (hq : ∀ r ∈ Zq, r.length = n) (hl : Zp.length ≠ Zq.length)
    (h1 : Zp.length ≠ 1) (h2 : Zq.length ≠ 1) : klDivergence n Zp Zq = .error .typeError ∧ crossEntropy n Zp Zq = .error .valueError := by
  obtain ⟨zp, p1, p2, -⟩ := checkShape_ok hp
  obtain ⟨zq, q1, q2, -⟩ := checkShape_ok hq
  have hlen : zp.length ≠ zq.length := by omega
  constructor
  all_goals
    first | unfold klDivergence | unfold crossEntropy
    unfold batch2
    rw [p1]; simp only; rw [q1]; simp only; rw [if_neg hlen]
    split
    · simp at q2; omega
    · simp at p2; omega
    · rfl

/-- The statements are about something: two different distributions on two actions, with positive divergence. -/
example : 0 < klRow (![0, 0] : Fin 2 → ℝ) ![0, 1] := by
  obtain ⟨h1, h2⟩ := C49_kl_nonneg (![0, 0] : Fin 2 → ℝ) ![0, 1]
  refine lt_of_le_of_ne h1 (fun h => ?_)
  obtain ⟨c, hc⟩ := (C49_shift _ _).1 (h2.1 h.symm)
  have h0 := hc 0
  have h1 := hc 1
  norm_num at h0 h1
  rw [← h0] at h1; norm_num at h1

/-- A tie breaker: the first candidate. -/
example : Draws (fun l : List (Fin 3) => l.head?) := fun l hl => by
  cases l with
  | nil => exact absurd rfl hl
  | cons a l => exact ⟨a, by simp, rfl⟩

end Coax.Dists
