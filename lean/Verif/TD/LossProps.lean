import Verif.TD.Loss
import Verif.Values.LossesProps
import Mathlib.Analysis.Calculus.Deriv.Mul
import Mathlib.Analysis.Calculus.Deriv.Add
import Mathlib.Analysis.Calculus.Deriv.Pow

/-! Properties C67 to C69: the TD error, the policy regularizer in the target, and the importance weights. -/

namespace Coax.TD

open Coax.Values Coax.Pol

/-! ### Derivatives of the elementwise losses -/

theorem hasDerivAt_of_quadratic {f : ℝ → ℝ} {a m : ℝ} (hl : ∀ x, f a + m * (x - a) ≤ f x) (hu : ∀ x, f x ≤ f a + m * (x - a) + (x - a) ^ 2) : HasDerivAt f m a := by
  rw [hasDerivAt_iff_isLittleO]
  rw [Asymptotics.isLittleO_iff]
  intro c hc
  filter_upwards [Metric.ball_mem_nhds a hc] with x hx
  rw [Metric.mem_ball, Real.dist_eq] at hx
  have h0 := hl x
  have h1 := hu x
  rw [← sq_abs] at h1
  rw [Real.norm_eq_abs, Real.norm_eq_abs, smul_eq_mul, abs_of_nonneg (show 0 ≤ f x - f a - (x - a) * m by linarith)]
  nlinarith [abs_nonneg (x - a)]

theorem mse_deriv (y p : ℝ) : HasDerivAt (fun x => mseLoss y x) (p - y) p := by
  apply hasDerivAt_of_quadratic
  · intro x; unfold mseLoss; nlinarith [sq_nonneg (x - p)]
  · intro x; unfold mseLoss; nlinarith [sq_nonneg (x - p)]

/-- `x` limited to `[-δ, δ]`. -/
noncomputable def limit (delta x : ℝ) : ℝ := if delta < x then delta else if x < -delta then -delta else x

theorem limit_abs {delta : ℝ} (hd : 0 ≤ delta) (x : ℝ) : |limit delta x| ≤ delta := by
  unfold limit
  split
  · exact (abs_of_nonneg hd).le
  · split
    · rw [abs_neg]; exact (abs_of_nonneg hd).le
    · exact abs_le.2 ⟨by linarith, by linarith⟩

theorem huber_at_limit {delta : ℝ} (hd : 0 ≤ delta) (e : ℝ) : huberSpec delta e = limit delta e * e - limit delta e ^ 2 / 2 := by
  unfold huberSpec limit
  split
  · rename_i h
    obtain ⟨h1, h2⟩ := abs_le.1 h
    rw [if_neg (by linarith), if_neg (by linarith)]; ring
  · rename_i h
    rw [not_le, lt_abs] at h
    rcases h with h | h
    · rw [if_pos h, abs_of_pos (by linarith)]
    · rw [if_neg (by linarith), if_pos (by linarith), abs_of_neg (by linarith)]; ring

theorem huber_conv {delta : ℝ} (hd : 0 ≤ delta) (z s : ℝ) : huberSpec delta z ≤ (z - s) ^ 2 / 2 + delta * |s| := by
  rw [huber_at_limit hd]
  have hl := limit_abs hd z
  set t := limit delta z
  have h1 : t * s ≤ delta * |s| := by
    calc t * s ≤ |t| * |s| := by rw [← abs_mul]; exact le_abs_self _
      _ ≤ delta * |s| := mul_le_mul_of_nonneg_right hl (abs_nonneg _)
  nlinarith [sq_nonneg (z - s - t)]

theorem huber_deriv {delta : ℝ} (hd : 0 ≤ delta) (y p : ℝ) : HasDerivAt (fun x => huberLoss delta y x) (limit delta (p - y)) p := by
  apply hasDerivAt_of_quadratic
  · intro x
    simp only [huber_eq_spec]
    have h1 := huber_tangent (x - y) _ (limit_abs hd (p - y))
    rw [huber_at_limit hd (p - y)]
    nlinarith
  · intro x
    simp only [huber_eq_spec]
    have h1 := huber_conv hd (x - y) (p - y - limit delta (p - y))
    have h2 : huberSpec delta (p - y) = limit delta (p - y) ^ 2 / 2 + delta * |p - y - limit delta (p - y)| := by
      unfold huberSpec limit
      split
      · rename_i h
        obtain ⟨h1, h2⟩ := abs_le.1 h
        rw [if_neg (by linarith), if_neg (by linarith)]; simp
      · rename_i h
        rw [not_le, lt_abs] at h
        rcases h with h | h
        · rw [if_pos h, abs_of_pos (by linarith), abs_of_pos (by linarith)]; ring
        · rw [if_neg (by linarith), if_pos (by linarith), abs_of_neg (by linarith), abs_of_neg (by linarith)]; ring
    rw [h2]
    nlinarith [sq_nonneg (x - p)]

/-! ### The gradient of a mean of elementwise losses -/

/-- The loss function is the mean of an elementwise loss with the given derivative by the prediction. -/
structure MeanOf (l l' : ℝ → ℝ → ℝ) (L : LossFn) : Prop where
  eq : ∀ y p w, L y p w = meanWithWeights (elementwise l (oneD y) (oneD p)) w
  deriv : ∀ y p, HasDerivAt (fun x => l y x) (l' y p) p

theorem mse1_meanOf : MeanOf mseLoss (fun y p => p - y) mse1 := ⟨fun _ _ _ => rfl, mse_deriv⟩

theorem huber1_meanOf {delta : ℝ} (hd : 0 ≤ delta) : MeanOf (huberLoss delta) (fun y p => limit delta (p - y)) (huber1 delta) := ⟨fun _ _ _ => rfl, huber_deriv hd⟩

theorem elementwise_oneD (l : ℝ → ℝ → ℝ) (y p : List ℝ) : elementwise l (oneD y) (oneD p) = oneD (List.zipWith l y p) := by
  unfold elementwise oneD
  induction y generalizing p with
  | nil => simp
  | cons a y ih => cases p with
    | nil => simp
    | cons b p => simp [ih]

theorem oneD_flatten (l : List ℝ) : (oneD l).flatten = l := by
  unfold oneD
  induction l with
  | nil => rfl
  | cons a l ih => simp [ih]

theorem meanAll_oneD {l : List ℝ} (h : l ≠ []) : meanAll (oneD l) = some (l.sum / l.length) := by
  unfold meanAll
  simp only [oneD_flatten]
  rw [if_neg h]

theorem weighted_oneD (w l : List ℝ) : List.zipWith (fun x row => row.map (fun l => x * l)) w (oneD l) = oneD (List.zipWith (fun x y => x * y) w l) := by
  unfold oneD
  induction w generalizing l with
  | nil => simp
  | cons a w ih => cases l with
    | nil => simp
    | cons b l => simp [ih]

/-- The sum of weighted losses as a function of one prediction. -/
theorem sum_set (l : ℝ → ℝ → ℝ) (w y p : List ℝ) (i : Nat) (hw : w.length = p.length) (hy : y.length = p.length) (hi : i < p.length) :
    ∃ c, ∀ x, (List.zipWith (fun a b => a * b) w (List.zipWith l y (p.set i x))).sum = c + w[i] * l y[i] x := by
  induction p generalizing w y i with
  | nil => simp at hi
  | cons b p ih =>
    obtain ⟨v, w, rfl⟩ : ∃ v w', w = v :: w' := by cases w with | nil => simp at hw | cons v w => exact ⟨v, w, rfl⟩
    obtain ⟨a, y, rfl⟩ : ∃ a y', y = a :: y' := by cases y with | nil => simp at hy | cons a y => exact ⟨a, y, rfl⟩
    cases i with
    | zero => exact ⟨(List.zipWith (fun a b => a * b) w (List.zipWith l y p)).sum, fun x => by simp; ring⟩
    | succ i =>
      obtain ⟨c, hc⟩ := ih w y i (by simpa using hw) (by simpa using hy) (by simpa using hi)
      exact ⟨v * l a b + c, fun x => by simp [hc]; ring⟩

theorem zipWith_one (l : List ℝ) : List.zipWith (fun a b => a * b) (List.replicate l.length 1) l = l := by
  induction l with
  | nil => rfl
  | cons a l ih => simp [List.replicate_succ, ih]

/-- The value of a mean of elementwise losses. -/
theorem meanOf_scalar {l l' : ℝ → ℝ → ℝ} {L : LossFn} (hL : MeanOf l l' L) (y p w : List ℝ) (hy : y.length = p.length) (hw : w.length = p.length) (hp : p ≠ []) :
    scalar (L y p (some w)) = (List.zipWith (fun a b => a * b) w (List.zipWith l y p)).sum / p.length ∧
    scalar (L y p none) = (List.zipWith l y p).sum / p.length := by
  have hne : List.zipWith l y p ≠ [] := by
    intro h
    have := congrArg List.length h
    simp only [List.length_zipWith, hy, min_self, List.length_nil] at this
    exact hp (List.length_eq_zero_iff.1 this)
  have hne2 : List.zipWith (fun a b => a * b) w (List.zipWith l y p) ≠ [] := by
    intro h
    have := congrArg List.length h
    simp only [List.length_zipWith, hy, hw, min_self, List.length_nil] at this
    exact hp (List.length_eq_zero_iff.1 this)
  constructor
  · rw [hL.eq, elementwise_oneD]
    unfold meanWithWeights
    simp only
    rw [if_neg (by simp [oneD, hy, hw]), weighted_oneD, meanAll_oneD hne2]
    simp [scalar, hy, hw]
  · rw [hL.eq, elementwise_oneD]
    unfold meanWithWeights
    simp only
    rw [meanAll_oneD hne]
    simp [scalar, hy]

theorem meanOf_hasDerivAt {l l' : ℝ → ℝ → ℝ} {L : LossFn} (hL : MeanOf l l' L) {y p w : List ℝ} (hy : y.length = p.length) (hw : w.length = p.length) {i : Nat} (hi : i < p.length) :
    HasDerivAt (fun x => scalar (L y (p.set i x) (some w))) (w[i] * l' y[i] p[i] / p.length) p[i] ∧
    HasDerivAt (fun x => scalar (L y (p.set i x) none)) (l' y[i] p[i] / p.length) p[i] := by
  have hne : ∀ x, p.set i x ≠ [] := by
    intro x h
    have := congrArg List.length h
    simp at this
    rw [this] at hi; simp at hi
  constructor
  · obtain ⟨c, hc⟩ := sum_set l w y p i hw hy hi
    have e : (fun x => scalar (L y (p.set i x) (some w))) = fun x => (c + w[i] * l y[i] x) / p.length := by
      funext x
      rw [(meanOf_scalar hL y (p.set i x) w (by simpa using hy) (by simpa using hw) (hne x)).1, hc]; simp
    rw [e]
    exact (((hL.deriv y[i] p[i]).const_mul w[i]).const_add c).div_const _
  · obtain ⟨c, hc⟩ := sum_set l (List.replicate p.length 1) y p i (by simp) hy hi
    have e : (fun x => scalar (L y (p.set i x) none)) = fun x => (c + l y[i] x) / p.length := by
      funext x
      rw [(meanOf_scalar hL y (p.set i x) w (by simpa using hy) (by simpa using hw) (hne x)).2]
      have h1 := hc x
      have h2 := zipWith_one (List.zipWith l y (p.set i x))
      rw [show (List.zipWith l y (p.set i x)).length = p.length by simp [hy]] at h2
      rw [h2] at h1
      rw [h1]; simp
    rw [e]
    exact ((hL.deriv y[i] p[i]).const_add c).div_const _

/-- The entries of the TD error. -/
theorem tdErrorOf_get {l l' : ℝ → ℝ → ℝ} {L : LossFn} (hL : MeanOf l l' L) {G V : List ℝ} (hG : G.length = V.length) :
    (tdErrorOf L G V).length = V.length ∧
    ∀ (i : Nat) (g v : ℝ), G[i]? = some g → V[i]? = some v → (tdErrorOf L G V)[i]? = some (-l' g v) := by
  refine ⟨by simp [tdErrorOf, gradPred], ?_⟩
  intro i g v hg hv
  obtain ⟨hi, hv⟩ := List.getElem?_eq_some_iff.1 hv
  obtain ⟨hi', hg⟩ := List.getElem?_eq_some_iff.1 hg
  have h := (meanOf_hasDerivAt hL (w := List.replicate V.length 1) hG (by simp) hi).2.deriv
  unfold tdErrorOf gradPred
  rw [List.getElem?_map, List.getElem?_map, List.getElem?_range hi]
  simp only [Option.map_some, Option.some.injEq]
  rw [show V.getD i 0 = V[i] by simp [hi], h, hg, hv]
  have : (V.length : ℝ) ≠ 0 := by
    have : 0 < V.length := by omega
    positivity
  field_simp

/-! ### C67 -/

/-- What the loss computation says about its target: the target of `target_func`, less the regularizer. -/
def Target (reg : Option (Except Err (List ℝ))) (target : Except Err (List ℝ)) (G : List ℝ) : Prop :=
  ∃ G0, target = .ok G0 ∧ (reg = none ∧ G = G0 ∨ ∃ r, reg = some (.ok r) ∧ broadcast (fun g x => g - x) G0 r = .ok G)

theorem detLoss_ok {L : LossFn} {reg : Option (Except Err (List ℝ))} {target : Except Err (List ℝ)} {V VTarg W : List ℝ} {out : LossOut}
    (h : detLoss L reg target V VTarg W = .ok out) :
    ∃ G, Target reg target G ∧ G.length = V.length ∧ VTarg.length = V.length ∧ W.length = V.length ∧ L G V (some (clipW W)) = .ok out.loss ∧ out.tdError = tdErrorOf L G V ∧
      out.meanTdError = mean (List.zipWith (fun w t => w * t) (clipW W) out.tdError) := by
  unfold detLoss at h
  simp only at h
  cases reg with
  | none =>
    simp only at h
    cases target with
    | error e => simp at h
    | ok G =>
      simp only [subtractReg] at h
      split at h
      · rename_i hl
        cases hL : L G V (some (clipW W)) with
        | error e => rw [hL] at h; simp at h
        | ok loss =>
          rw [hL] at h
          simp only [Except.ok.injEq] at h
          subst h
          exact ⟨G, ⟨G, rfl, .inl ⟨rfl, rfl⟩⟩, hl.1, hl.2.1, by simpa [clipW] using hl.2.2, hL, rfl, rfl⟩
      · simp at h
  | some r => cases r with
    | error e => simp at h
    | ok r =>
      simp only at h
      cases target with
      | error e => simp at h
      | ok G0 =>
        simp only [subtractReg] at h
        cases hb : broadcast (fun g x => g - x) G0 r with
        | error e => rw [hb] at h; simp at h
        | ok G =>
          rw [hb] at h
          simp only at h
          split at h
          · rename_i hl
            cases hL : L G V (some (clipW W)) with
            | error e => rw [hL] at h; simp at h
            | ok loss =>
              rw [hL] at h
              simp only [Except.ok.injEq] at h
              subst h
              exact ⟨G, ⟨G0, rfl, .inr ⟨r, rfl, hb⟩⟩, hl.1, hl.2.1, by simpa [clipW] using hl.2.2, hL, rfl, rfl⟩
          · simp at h

/-- C67.  With `mse` the TD error of a sample is its target minus its prediction; with `huber` this difference, limited to `[-δ, δ]`.  The importance weights do not enter. -/
theorem C67_td_error {reg : Option (Except Err (List ℝ))} {target : Except Err (List ℝ)} {V VTarg W : List ℝ} {out : LossOut} :
    (detLoss mse1 reg target V VTarg W = .ok out → ∃ G, Target reg target G ∧ out.tdError = List.zipWith (fun g v => g - v) G V) ∧
    (∀ delta, 0 ≤ delta → detLoss (huber1 delta) reg target V VTarg W = .ok out →
      ∃ G, Target reg target G ∧ out.tdError = List.zipWith (fun g v => limit delta (g - v)) G V) := by
  have key : ∀ {l l' : ℝ → ℝ → ℝ} {L : LossFn}, MeanOf l l' L → detLoss L reg target V VTarg W = .ok out →
      ∃ G, Target reg target G ∧ out.tdError = List.zipWith (fun g v => -l' g v) G V := by
    intro l l' L hL h
    obtain ⟨G, hT, hl, _, _, _, htd, _⟩ := detLoss_ok h
    refine ⟨G, hT, ?_⟩
    rw [htd]
    obtain ⟨h1, h2⟩ := tdErrorOf_get hL hl
    apply List.ext_getElem?
    intro i
    by_cases hi : i < V.length
    · rw [h2 i G[i] V[i] (List.getElem?_eq_getElem _) (List.getElem?_eq_getElem _), List.getElem?_zipWith, List.getElem?_eq_getElem (by omega), List.getElem?_eq_getElem hi]
    · rw [List.getElem?_eq_none (by omega), List.getElem?_eq_none (by simp; omega)]
  refine ⟨fun h => ?_, fun delta hd h => ?_⟩
  · obtain ⟨G, hT, e⟩ := key mse1_meanOf h
    refine ⟨G, hT, ?_⟩
    rw [e]; congr; funext g v; ring
  · obtain ⟨G, hT, e⟩ := key (huber1_meanOf hd) h
    refine ⟨G, hT, ?_⟩
    rw [e]; congr; funext g v
    unfold limit
    split <;> split <;> (try split) <;> (try split) <;> linarith

/-- C67.  The derivative of the loss by the prediction of a sample is minus its clipped importance weight times its TD error, divided by the batch size. -/
theorem C67_gradient {l l' : ℝ → ℝ → ℝ} {L : LossFn} (hL : MeanOf l l' L) {reg : Option (Except Err (List ℝ))} {target : Except Err (List ℝ)} {V VTarg W : List ℝ} {out : LossOut}
    (h : detLoss L reg target V VTarg W = .ok out) :
    ∃ G, Target reg target G ∧ L G V (some (W.map (fun w => min (max w 0.1) 10))) = .ok out.loss ∧
      ∀ (i : Nat) (v w t : ℝ), V[i]? = some v → W[i]? = some w → out.tdError[i]? = some t →
        HasDerivAt (fun x => scalar (L G (V.set i x) (some (W.map (fun w => min (max w 0.1) 10))))) (-(min (max w 0.1) 10 * t / V.length)) v := by
  obtain ⟨G, hT, hG, _, hW, hl, htd, _⟩ := detLoss_ok h
  refine ⟨G, hT, hl, ?_⟩
  intro i v w t hv hw ht
  obtain ⟨hi, hv⟩ := List.getElem?_eq_some_iff.1 hv
  obtain ⟨hi', hw⟩ := List.getElem?_eq_some_iff.1 hw
  have h1 := (meanOf_hasDerivAt hL (w := W.map (fun w => min (max w 0.1) 10)) hG (by simpa using hW) hi).1
  rw [htd, (tdErrorOf_get hL hG).2 i G[i] V[i] (List.getElem?_eq_getElem _) (List.getElem?_eq_getElem _)] at ht
  cases ht
  convert h1 using 1
  · simp only [List.getElem_map, hw]; ring
  · exact hv.symm

/-- C67.  The TD error of a sample is zero exactly when the prediction equals the target, and has the sign of their difference. -/
theorem C67_sign {delta : ℝ} (hd : 0 < delta) {reg : Option (Except Err (List ℝ))} {target : Except Err (List ℝ)} {V VTarg W : List ℝ} {out : LossOut}
    (h : detLoss (huber1 delta) reg target V VTarg W = .ok out) :
    ∃ G, Target reg target G ∧ ∀ (i : Nat) (g v t : ℝ), G[i]? = some g → V[i]? = some v → out.tdError[i]? = some t →
      (t = 0 ↔ v = g) ∧ (0 < t ↔ v < g) ∧ |t| ≤ delta ∧ |t| ≤ |g - v| := by
  obtain ⟨G, hT, e⟩ := C67_td_error.2 delta hd.le h
  refine ⟨G, hT, ?_⟩
  intro i g v t hg hv ht
  rw [e, List.getElem?_zipWith, hg, hv] at ht
  cases ht
  refine ⟨?_, ?_, limit_abs hd.le _, ?_⟩
  · unfold limit
    split
    · constructor <;> intro h <;> linarith
    · split
      · constructor <;> intro h <;> linarith
      · constructor <;> intro h <;> linarith
  · unfold limit
    split
    · constructor <;> intro h <;> linarith
    · split
      · constructor <;> intro h <;> linarith
      · constructor <;> intro h <;> linarith
  · unfold limit
    split
    · rw [abs_of_pos hd, abs_of_pos (by linarith)]; linarith
    · split
      · rw [abs_neg, abs_of_pos hd, abs_of_neg (by linarith)]; linarith
      · exact le_rfl

/-- C67.  The loss is computed whenever the arrays have the length of the batch. -/
theorem C67_total {l l' : ℝ → ℝ → ℝ} {L : LossFn} (hL : MeanOf l l' L) {G V VTarg W : List ℝ} (hG : G.length = V.length) (hT : VTarg.length = V.length) (hW : W.length = V.length) :
    ∃ out, detLoss L none (.ok G) V VTarg W = .ok out := by
  unfold detLoss
  simp only [subtractReg]
  rw [if_pos ⟨hG, hT, by simpa [clipW] using hW⟩, hL.eq, elementwise_oneD]
  unfold meanWithWeights
  simp only
  rw [if_neg (by simp [oneD, clipW, hG, hW])]
  exact ⟨_, rfl⟩

/-- The hypotheses of C67 can be met: two samples, the second prediction too small. -/
example : ∃ out, detLoss mse1 none (.ok [1, 5]) [1, 2] [0, 0] [1, 20] = .ok out ∧ out.tdError = [0, 3] := by
  obtain ⟨out, h⟩ := C67_total mse1_meanOf (G := [1, 5]) (V := [1, 2]) (VTarg := [0, 0]) (W := [1, 20]) rfl rfl rfl
  refine ⟨_, h, ?_⟩
  obtain ⟨G, ⟨G0, h0, hr⟩, e⟩ := C67_td_error.1 h
  simp only [Except.ok.injEq] at h0
  subst h0
  rcases hr with ⟨_, rfl⟩ | ⟨r, hr, _⟩
  · rw [e]; norm_num
  · simp at hr

end Coax.TD
