import Verif.Loop.LinearQDataProps

/-! Property C151: linear value functions with the Huber loss, which is the default. -/

namespace Coax.Loop

open Coax.RewardTracing Coax.TD Coax.Core Coax.Values Coax.Pol Filter Topology

variable {σ : Type _} {n d : Nat}

theorem limit_eq_min {delta : ℝ} (hd : 0 ≤ delta) (x : ℝ) : limit delta x = min delta (max (-delta) x) := by
  unfold limit
  split_ifs with h1 h2
  · rw [min_eq_left (h1.le.trans (le_max_right _ _))]
  · rw [max_eq_left h2.le, min_eq_right (by linarith)]
  · rw [max_eq_right (not_lt.1 h2), min_eq_right (not_lt.1 h1)]

theorem limit_neg_eq {delta : ℝ} (hd : 0 ≤ delta) (x : ℝ) : limit delta (-x) = -limit delta x := by
  unfold limit
  split_ifs <;> linarith

/-- Claim C151, the update: each param moves along its feature, weighted with the differences between targets and values, which are limited to `delta`. -/
theorem C151_update {delta : ℝ} (hdel : 0 ≤ delta) (lr : ℝ) (base : σ → ℝ) (phi : σ → Fin d → ℝ) (θT θ : Fin d → ℝ) {rows : List (Out σ (Fin n) ℝ)} (hne : rows ≠ []) (hs : ∀ o ∈ rows, o.S_next.isSome) :
    affineUpdate lr (huber1 delta) base phi θT θ rows =
      .ok fun k => θ k + lr * ((rows.map fun o => min (max o.W 0.1) 10 * (min delta (max (-delta) (o.Rn + o.In * o.S_next.elim 0 (lin base phi θT) - lin base phi θ o.S)) * phi o.S k)).sum / rows.length) := by
  unfold affineUpdate
  obtain ⟨out, h1, h2⟩ := affineLoss_eq (huber1_meanOf hdel) base phi (θT := θT) (θV := θ) hne hs θ
  rw [h1]
  simp only
  rw [if_neg (by simp [h2])]
  congr 1
  funext k
  have hd : HasDerivAt (fun x => lossValue (affineLoss (huber1 delta) base phi rows θT θ (setState θ k x))) ((rows.map fun o => weight o * (limit delta (lin base phi θ o.S - (o.Rn + o.In * o.S_next.elim 0 (lin base phi θT))) * phi o.S k)).sum / rows.length) (θ k) := by
    have e : (fun x => lossValue (affineLoss (huber1 delta) base phi rows θT θ (setState θ k x))) =
        fun x => (rows.map fun o => weight o * huberLoss delta (o.Rn + o.In * o.S_next.elim 0 (lin base phi θT)) (lin base phi θ o.S + phi o.S k * (x - θ k))).sum / rows.length := by
      funext x
      obtain ⟨out, h1, h2⟩ := affineLoss_eq (huber1_meanOf hdel) base phi (θT := θT) (θV := θ) hne hs (setState θ k x)
      rw [h1]
      obtain ⟨loss, b2, b3, b4⟩ := out
      simp only [lin_setState] at h2
      subst h2
      rfl
    rw [e]
    refine HasDerivAt.div_const (hasDerivAt_sum rows (fun o x => weight o * huberLoss delta (o.Rn + o.In * o.S_next.elim 0 (lin base phi θT)) (lin base phi θ o.S + phi o.S k * (x - θ k))) _ _ fun o _ => ?_) _
    refine HasDerivAt.const_mul _ ?_
    have h3 : HasDerivAt (fun x => lin base phi θ o.S + phi o.S k * (x - θ k)) (phi o.S k) (θ k) := by
      simpa using (((hasDerivAt_id (θ k)).sub_const (θ k)).const_mul (phi o.S k)).const_add (lin base phi θ o.S)
    have h4 := (huber1_meanOf hdel).deriv (o.Rn + o.In * o.S_next.elim 0 (lin base phi θT)) (lin base phi θ o.S + phi o.S k * (θ k - θ k))
    have h5 := HasDerivAt.comp (θ k) h4 h3
    simp only [sub_self, mul_zero, add_zero] at h5
    exact h5
  rw [hd.deriv]
  have e : (rows.map fun o => weight o * (limit delta (lin base phi θ o.S - (o.Rn + o.In * o.S_next.elim 0 (lin base phi θT))) * phi o.S k)) =
      rows.map fun o => min (max o.W 0.1) 10 * (min delta (max (-delta) (o.Rn + o.In * o.S_next.elim 0 (lin base phi θT) - lin base phi θ o.S)) * phi o.S k) * (-1) := by
    refine List.map_congr_left fun o _ => ?_
    rw [← limit_eq_min hdel, ← neg_sub (lin base phi θ o.S), limit_neg_eq hdel]
    unfold weight
    ring
  rw [e, List.sum_map_mul_right]
  ring

/-- Claim C151, the size of the steps: however far the targets are from the values, an update moves a param by at most the learning rate times ten times `delta` times the greatest feature. -/
theorem C151_bounded {delta : ℝ} (hdel : 0 ≤ delta) {lr : ℝ} (hlr : 0 ≤ lr) (base : σ → ℝ) (phi : σ → Fin d → ℝ) {θT θ θ' : Fin d → ℝ} {rows : List (Out σ (Fin n) ℝ)} (hne : rows ≠ []) (hs : ∀ o ∈ rows, o.S_next.isSome) {B : ℝ} (hB : ∀ o ∈ rows, ∀ k, |phi o.S k| ≤ B)
    (h : affineUpdate lr (huber1 delta) base phi θT θ rows = .ok θ') (k : Fin d) : |θ' k - θ k| ≤ lr * (10 * (delta * B)) := by
  rw [C151_update hdel lr base phi θT θ hne hs] at h
  cases h
  simp only [add_sub_cancel_left]
  have hN : (0 : ℝ) < rows.length := by
    have := List.length_pos_iff.2 hne
    exact_mod_cast this
  rw [abs_mul, abs_of_nonneg hlr, abs_div, abs_of_pos hN]
  refine mul_le_mul_of_nonneg_left ?_ hlr
  rw [div_le_iff₀ hN]
  have key : ∀ l : List (Out σ (Fin n) ℝ), (∀ o ∈ l, o ∈ rows) →
      |(l.map fun o => min (max o.W 0.1) 10 * (min delta (max (-delta) (o.Rn + o.In * o.S_next.elim 0 (lin base phi θT) - lin base phi θ o.S)) * phi o.S k)).sum| ≤ 10 * (delta * B) * l.length := by
    intro l
    induction l with
    | nil => simp
    | cons o l ih =>
      intro hl
      have h1 := ih fun o ho => hl o (by simp [ho])
      rw [List.map_cons, List.sum_cons, List.length_cons, Nat.cast_succ]
      refine (abs_add_le _ _).trans ?_
      have h2 : |min (max o.W 0.1) 10| ≤ 10 := abs_le.2 ⟨le_min (le_trans (by norm_num) (le_max_right _ _)) (by norm_num), min_le_right _ _⟩
      have h3 : |min delta (max (-delta) (o.Rn + o.In * o.S_next.elim 0 (lin base phi θT) - lin base phi θ o.S))| ≤ delta := abs_le.2 ⟨le_min (by linarith) (le_max_left _ _), min_le_left _ _⟩
      have h4 : |min (max o.W 0.1) 10 * (min delta (max (-delta) (o.Rn + o.In * o.S_next.elim 0 (lin base phi θT) - lin base phi θ o.S)) * phi o.S k)| ≤ 10 * (delta * B) := by
        rw [abs_mul, abs_mul]
        exact mul_le_mul h2 (mul_le_mul h3 (hB o (hl o (by simp)) k) (abs_nonneg _) hdel) (mul_nonneg (abs_nonneg _) (abs_nonneg _)) (by norm_num)
      linarith
  exact key rows fun _ h => h

theorem affineUpdate_huber {delta : ℝ} (hdel : 0 ≤ delta) (lr : ℝ) (base : σ → ℝ) (phi : σ → Fin d → ℝ) {θ : Fin d → ℝ} {rows : List (Out σ (Fin n) ℝ)} (hne : rows ≠ []) (hs : ∀ o ∈ rows, o.S_next.isSome)
    (h : ∀ o ∈ rows, |tdErr (lin base phi θ) o| ≤ delta) : affineUpdate lr (huber1 delta) base phi θ θ rows = affineUpdate lr mse1 base phi θ θ rows := by
  rw [C151_update hdel lr base phi θ θ hne hs, C149_update lr base phi θ θ hne hs]
  congr 1
  funext k
  congr 4
  refine List.map_congr_left fun o ho => ?_
  have h2 := abs_le.1 (h o ho)
  unfold tdErr at h2
  rw [max_eq_right h2.1, min_eq_right h2.2]

/-- Claim C151, near the limit: if the differences between targets and values are at most `delta` for all params that are no farther from the limit than the initial ones, then updates converge to the values that they converge to with `mse`. -/
theorem C151_near {gamma : ℝ} (h0 : 0 ≤ gamma) (h1 : gamma < 1) {rows : List (Out σ (Fin n) ℝ)} (hne : rows ≠ []) (hp : OnPolicy gamma rows) (base : σ → ℝ) (phi : σ → Fin d → ℝ) {F : ℝ} (hF : ∀ o ∈ rows, ∑ k, phi o.S k ^ 2 ≤ F) {lr : ℝ}
    (hlr : 0 < lr) (hs : lr * F * (1 + gamma) ^ 2 < 2 * (1 - gamma)) {delta : ℝ} (hdel : 0 ≤ delta) {best θ0 : Fin d → ℝ} (hb : Projected base phi rows best)
    (hnear : ∀ θ : Fin d → ℝ, ∑ k, (θ k - best k) ^ 2 ≤ ∑ k, (θ0 k - best k) ^ 2 → ∀ o ∈ rows, |tdErr (lin base phi θ) o| ≤ delta) :
    ∃ θ : ℕ → Fin d → ℝ, (∀ t, affineLearn (fun _ => lr) (huber1 delta) base phi 0 θ0 (List.replicate t rows) = .ok (θ t)) ∧
      ∀ s, phi s ∈ covered phi rows → Tendsto (fun t => lin base phi (θ t) s) atTop (𝓝 (lin base phi best s)) := by
  obtain ⟨θ, hθ, best', hb', hlim⟩ := C149_converges h0 h1 hne hp base phi hF hlr hs θ0
  have hN : (0 : ℝ) < rows.length := by
    have := List.length_pos_iff.2 hne
    exact_mod_cast this
  have hF' : ∀ i, feats phi rows i ⬝ᵥ feats phi rows i ≤ F := fun i => by
    have := hF rows[i] (List.getElem_mem _)
    simpa [dotProduct, feats, ← sq] using this
  have hF0 : 0 ≤ F := by
    obtain ⟨o, ho⟩ := List.exists_mem_of_ne_nil _ hne
    exact (Finset.sum_nonneg fun k _ => sq_nonneg _).trans (hF o ho)
  have hsmall : lr / rows.length * (Fintype.card (Fin rows.length) * F * (1 + gamma) ^ 2) < 2 * (1 - gamma) := by
    rw [Fintype.card_fin]
    have : lr / rows.length * (rows.length * F * (1 + gamma) ^ 2) = lr * F * (1 + gamma) ^ 2 := by field_simp
    rw [this]
    exact hs
  have hsq : ∀ w : Fin d → ℝ, ∑ k, (w k - best k) ^ 2 = (w - best) ⬝ᵥ (w - best) := fun w => by simp [dotProduct, ← sq]
  have hsame : ∀ t k w, ∑ k, (w k - best k) ^ 2 ≤ ∑ k, (θ0 k - best k) ^ 2 → affineLearn (fun _ => lr) (huber1 delta) base phi k w (List.replicate t rows) = affineLearn (fun _ => lr) mse1 base phi k w (List.replicate t rows) := fun t => by
    induction t with
    | zero => intro k w _; rfl
    | succ t ih =>
      intro k w hw
      rw [List.replicate_succ, affineLearn, affineLearn, affineUpdate_huber hdel lr base phi hne hp.s_next (hnear w hw), affineUpdate_resid lr base phi hne hp.s_next hp.w hb w]
      refine ih _ _ (le_trans ?_ hw)
      rw [hsq, hsq, sub_right_comm]
      have h2 := resid_step h0 (div_pos hlr hN).le hF' (hp.feats phi (w - best)) hF0
      have h3 : 0 ≤ lr / rows.length * (2 * (1 - gamma) - lr / rows.length * (Fintype.card (Fin rows.length) * F * (1 + gamma) ^ 2)) * ∑ i, (feats phi rows i ⬝ᵥ (w - best)) ^ 2 :=
        mul_nonneg (mul_nonneg (div_pos hlr hN).le (by linarith)) (Finset.sum_nonneg fun i _ => sq_nonneg _)
      linarith
  refine ⟨θ, fun t => (hsame t 0 θ0 le_rfl).trans (hθ t), fun s hs' => ?_⟩
  rw [C149_unique h0 h1 hp hb hb' s hs']
  exact hlim s hs'

/-- One feature: it is 3, 4 and 5 in three states. -/
def rising (s : Fin 3) (_ : Fin 1) : ℝ := s + 3

theorem rising_diverges {lr : ℝ} (hlr : 0 < lr) {x : ℝ} (hx : -1 ≤ x) :
    ∃ tracer rows k, onlineU (fun _ (acc : List (Out (Fin 3) (Fin 1) ℝ)) o => .ok (acc ++ [o])) (NStep.init 1 (9 / 10) false, [], 0) [(⟨0, 0, 9 / 5, 0, 1⟩, false), (⟨1, 0, 3 / 2, 0, 1⟩, false), (⟨2, 0, -15, 0, 1⟩, true)] = .ok (tracer, rows, k) ∧
      (rows ≠ [] ∧ ∀ o ∈ rows, o.S_next.isSome ∧ o.A_next.isSome) ∧ (∀ o ∈ rows, tdErr (lin (fun _ => 0) rising fun _ => -3) o = 0) ∧
      ∃ θ : ℕ → Fin 1 → ℝ, (∀ t, affineLearn (fun _ => lr) (huber1 1) (fun _ => 0) rising 0 (fun _ => x) (List.replicate t rows) = .ok (θ t)) ∧ ∀ s, Tendsto (fun t => lin (fun _ => 0) rising (θ t) s) atTop atTop := by
  obtain ⟨xs, dn, T, hsteps, hdT, -, tracer, k, hrun⟩ := episodes_run (σ := Fin 3) (n := 1) (gamma := 9 / 10) (by norm_num) (by norm_num) (N := 1) one_pos
    (steps := [(⟨0, 0, 9 / 5, 0, 1⟩, false), (⟨1, 0, 3 / 2, 0, 1⟩, false), (⟨2, 0, -15, 0, 1⟩, true)]) (x := ⟨2, 0, -15, 0, 1⟩) rfl (by simp) (by simp)
  obtain rfl : T = 2 := by
    have := congrArg List.length hsteps
    simpa using this
  simp only [List.range_succ, List.range_zero, List.nil_append, List.map_append, List.map_cons, List.map_nil, List.cons_append, List.cons.injEq, Prod.mk.injEq, and_true] at hsteps hrun
  obtain ⟨⟨e1, e2⟩, ⟨e3, e4⟩, e5, e6⟩ := hsteps
  refine ⟨_, _, _, hrun, ⟨by simp, by simp [rowN]⟩, ?_, ?_⟩
  · intro o ho
    simp only [List.mem_cons, List.not_mem_nil, or_false] at ho
    rcases ho with rfl | rfl | rfl <;> norm_num [tdErr, rowN, returnN, endsN, e1, e2, e3, e4, e5, e6, lin, rising]
  set rows : List (Out (Fin 3) (Fin 1) ℝ) := [rowN (9 / 10) 1 xs dn 0, rowN (9 / 10) 1 xs dn 1, rowN (9 / 10) 1 xs dn 2] with hrows
  have hstep : ∀ y : ℝ, -1 ≤ y → affineUpdate lr (huber1 1) (fun _ => 0) rising (fun _ => y) (fun _ => y) rows = .ok fun _ => y + lr * (2 / 3) := by
    intro y hy
    rw [C151_update zero_le_one lr _ rising _ _ (by simp [rows]) (by simp [rows, rowN])]
    congr 1
    funext k
    have a1 : (1 : ℝ) ≤ 9 / 5 + 9 / 10 * (4 * y) - 3 * y := by linarith
    have a2 : (1 : ℝ) ≤ 3 / 2 + 9 / 10 * (5 * y) - 4 * y := by linarith
    have a3 : -15 - 5 * y ≤ -1 := by linarith
    have b1 : (rowN (9 / 10) 1 xs dn 0).Rn + (rowN (9 / 10) 1 xs dn 0).In * (rowN (9 / 10) 1 xs dn 0).S_next.elim 0 (lin (fun _ => 0) rising fun _ => y) - lin (fun _ => 0) rising (fun _ => y) (rowN (9 / 10) 1 xs dn 0).S = 9 / 5 + 9 / 10 * (4 * y) - 3 * y := by
      norm_num [rowN, returnN, endsN, e1, e2, e3, lin, rising]
    have b2 : (rowN (9 / 10) 1 xs dn 1).Rn + (rowN (9 / 10) 1 xs dn 1).In * (rowN (9 / 10) 1 xs dn 1).S_next.elim 0 (lin (fun _ => 0) rising fun _ => y) - lin (fun _ => 0) rising (fun _ => y) (rowN (9 / 10) 1 xs dn 1).S = 3 / 2 + 9 / 10 * (5 * y) - 4 * y := by
      norm_num [rowN, returnN, endsN, e3, e4, e5, lin, rising]
    have b3 : (rowN (9 / 10) 1 xs dn 2).Rn + (rowN (9 / 10) 1 xs dn 2).In * (rowN (9 / 10) 1 xs dn 2).S_next.elim 0 (lin (fun _ => 0) rising fun _ => y) - lin (fun _ => 0) rising (fun _ => y) (rowN (9 / 10) 1 xs dn 2).S = -15 - 5 * y := by
      norm_num [rowN, returnN, endsN, e5, e6, lin, rising]
    simp only [rows, List.map_cons, List.map_nil, List.sum_cons, List.sum_nil, b1, b2, b3, max_eq_right ((by norm_num : (-1 : ℝ) ≤ 1).trans a1), max_eq_right ((by norm_num : (-1 : ℝ) ≤ 1).trans a2), max_eq_left a3, min_eq_left a1, min_eq_left a2]
    norm_num [rowN, e1, e3, e5, rising]
  refine ⟨fun t _ => x + lr * (2 / 3) * t, fun t => ?_, fun s => ?_⟩
  · suffices h : ∀ (t k : ℕ) (x : ℝ), -1 ≤ x → affineLearn (fun _ => lr) (huber1 1) (fun _ => 0) rising k (fun _ => x) (List.replicate t rows) = .ok fun _ => x + lr * (2 / 3) * t from h t 0 x hx
    intro t
    induction t with
    | zero => intro k x _; simp [affineLearn]
    | succ t ih =>
      intro k x hx
      rw [List.replicate_succ, affineLearn, hstep x hx]
      simp only
      rw [ih (k + 1) (x + lr * (2 / 3)) (by linarith)]
      congr 1
      funext _
      push_cast
      ring
  · simp only [lin, rising, Finset.univ_unique, Finset.sum_const, Finset.card_singleton, one_smul, zero_add]
    refine Tendsto.const_mul_atTop (by positivity) (tendsto_atTop_add_const_left _ _ (tendsto_natCast_atTop_atTop.const_mul_atTop (by linarith)))

/-- Claim C151 is false far from the limit: one complete episode of three steps.  The param -3 gives values that agree exactly with the rewards and the values of the next states.  With `delta = 1`, which is the default, updates diverge with
every learning rate from all params from -1 on, zero among them.  (They converge with `mse`, by `C149_pipeline`.) -/
theorem C151_counterexample {lr : ℝ} (hlr : 0 < lr) {x : ℝ} (hx : -1 ≤ x) :
    ∃ tracer rows k, onlineU (fun _ (acc : List (Out (Fin 3) (Fin 1) ℝ)) o => .ok (acc ++ [o])) (NStep.init 1 (9 / 10) false, [], 0) [(⟨0, 0, 9 / 5, 0, 1⟩, false), (⟨1, 0, 3 / 2, 0, 1⟩, false), (⟨2, 0, -15, 0, 1⟩, true)] = .ok (tracer, rows, k) ∧
      (∀ o ∈ rows, tdErr (lin (fun _ => 0) rising fun _ => -3) o = 0) ∧
      ∃ θ : ℕ → Fin 1 → ℝ, (∀ t, affineLearn (fun _ => lr) (huber1 1) (fun _ => 0) rising 0 (fun _ => x) (List.replicate t rows) = .ok (θ t)) ∧ ∀ s, Tendsto (fun t => lin (fun _ => 0) rising (θ t) s) atTop atTop := by
  obtain ⟨tracer, rows, k, h1, -, h2, h3⟩ := rising_diverges hlr hx
  exact ⟨tracer, rows, k, h1, h2, h3⟩

/-- `mse` on the same episode: the conditions are met with a learning rate of 1/1000. -/
example : ∃ (rows : List (Out (Fin 3) (Fin 1) ℝ)) (θ : ℕ → Fin 1 → ℝ) (best : Fin 1 → ℝ), (∀ t, affineLearn (fun _ => 1 / 1000) mse1 (fun _ => 0) rising 0 (fun _ => 0) (List.replicate t rows) = .ok (θ t)) ∧
    Tendsto (fun t => lin (fun _ => 0) rising (θ t) 0) atTop (𝓝 (lin (fun _ => 0) rising best 0)) := by
  obtain ⟨-, rows, -, -, θ, best, h1, h2, -⟩ := C149_pipeline (σ := Fin 3) (n := 1) (gamma := 9 / 10) (by norm_num) (by norm_num) (N := 1) one_pos (steps := [(⟨0, 0, 9 / 5, 0, 1⟩, false), (⟨1, 0, 3 / 2, 0, 1⟩, false), (⟨2, 0, -15, 0, 1⟩, true)])
    (x := ⟨2, 0, -15, 0, 1⟩) rfl (by simp) (by simp) (fun _ => 0) rising (F := 25) (by norm_num [rising]) (lr := 1 / 1000) (by norm_num) (by norm_num) fun _ => 0
  exact ⟨rows, θ, best, h1, h2 (⟨0, 0, 9 / 5, 0, 1⟩, false) (by simp)⟩

/-- The same with `Sarsa` and a q-function. -/
theorem C151_sarsa_counterexample {lr : ℝ} (hlr : 0 < lr) (type1 : Bool) {x : ℝ} (hx : -1 ≤ x) :
    ∃ tracer rows k, onlineU (fun _ (acc : List (Out (Fin 3) (Fin 1) ℝ)) o => .ok (acc ++ [o])) (NStep.init 1 (9 / 10) false, [], 0) [(⟨0, 0, 9 / 5, 0, 1⟩, false), (⟨1, 0, 3 / 2, 0, 1⟩, false), (⟨2, 0, -15, 0, 1⟩, true)] = .ok (tracer, rows, k) ∧
      (∀ o ∈ rows, tdErrQ (linQ (fun _ _ => 0) (fun s _ => rising s) fun _ => -3) o = 0) ∧
      ∃ θ : ℕ → Fin 1 → ℝ, (∀ t, affineLearnQ (fun _ => lr) (huber1 1) (sarsa 1) type1 (fun _ _ => 0) (fun s _ => rising s) 0 (fun _ => x) (List.replicate t rows) = .ok (θ t)) ∧ ∀ s a, Tendsto (fun t => linQ (n := 1) (fun _ _ => 0) (fun s _ => rising s) (θ t) s a) atTop atTop := by
  obtain ⟨tracer, rows, k, h1, ⟨hne, hsa⟩, h2, θ, h3, h4⟩ := rising_diverges hlr hx
  have hpair : ∀ o ∈ rows, ∀ θ : Fin 1 → ℝ, (pair o).S_next.elim 0 (lin (fun _ => 0) (fun p : Fin 3 × Fin 1 => rising p.1) θ) = o.S_next.elim 0 (lin (fun _ => 0) rising θ) := fun o ho θ => by
    obtain ⟨s, hs⟩ := Option.isSome_iff_exists.1 (hsa o ho).1
    obtain ⟨a, ha⟩ := Option.isSome_iff_exists.1 (hsa o ho).2
    simp [pair, hs, ha, lin]
  refine ⟨tracer, rows, k, h1, fun o ho => ?_, θ, fun t => ?_, fun s _ => h4 s⟩
  · obtain ⟨s, hs⟩ := Option.isSome_iff_exists.1 (hsa o ho).1
    obtain ⟨a, ha⟩ := Option.isSome_iff_exists.1 (hsa o ho).2
    refine Eq.trans ?_ (h2 o ho)
    simp [tdErrQ, tdErr, hs, ha, linQ, lin]
  · rw [affineLearnQ_pair (huber1_meanOf zero_le_one) _ type1 _ _ fun r hr => ?_, ← h3 t, List.map_replicate]
    · have hup : ∀ θ : Fin 1 → ℝ, affineUpdate lr (huber1 1) (fun _ => 0) (fun p : Fin 3 × Fin 1 => rising p.1) θ θ (rows.map pair) = affineUpdate lr (huber1 1) (fun _ => 0) rising θ θ rows := fun θ => by
        rw [C151_update zero_le_one lr _ _ θ θ (by simpa using hne) fun o ho => ?_, C151_update zero_le_one lr _ _ θ θ hne fun o ho => (hsa o ho).1]
        · congr 1
          funext k
          rw [List.map_map, List.length_map]
          congr 4
          refine List.map_congr_left fun o ho => ?_
          simp only [Function.comp]
          rw [hpair o ho]
          rfl
        · obtain ⟨o, ho', rfl⟩ := List.mem_map.1 ho
          obtain ⟨s, hs⟩ := Option.isSome_iff_exists.1 (hsa o ho').1
          obtain ⟨a, ha⟩ := Option.isSome_iff_exists.1 (hsa o ho').2
          simp [pair, hs, ha]
      clear h3
      generalize (fun _ : Fin 1 => x) = θ1
      suffices h : ∀ t k (θ1 : Fin 1 → ℝ), affineLearn (fun _ => lr) (huber1 1) (fun _ => 0) (fun p : Fin 3 × Fin 1 => rising p.1) k θ1 (List.replicate t (rows.map pair)) = affineLearn (fun _ => lr) (huber1 1) (fun _ => 0) rising k θ1 (List.replicate t rows) from
        h t 0 θ1
      intro t
      induction t with
      | zero => intro k θ1; rfl
      | succ t ih =>
        intro k θ1
        rw [List.replicate_succ, List.replicate_succ, affineLearn, affineLearn, hup]
        cases affineUpdate lr (huber1 1) (fun _ => 0) rising θ1 θ1 rows with
        | error e => rfl
        | ok θ' => exact ih _ _
    · rw [(List.mem_replicate.1 hr).2]
      exact ⟨hne, hsa⟩

/-- The update near the limit: the param -29/10 is near enough to -3 for the same episode. -/
example : ∃ (rows : List (Out (Fin 3) (Fin 1) ℝ)) (θ : ℕ → Fin 1 → ℝ), (∀ t, affineLearn (fun _ => 1 / 1000) (huber1 1) (fun _ => 0) rising 0 (fun _ => -29 / 10) (List.replicate t rows) = .ok (θ t)) ∧
    Tendsto (fun t => lin (fun _ => 0) rising (θ t) 0) atTop (𝓝 (-9)) := by
  obtain ⟨tracer, rows, k, h1, h2, -⟩ := C151_counterexample one_pos (le_refl (-1))
  obtain ⟨_, rows', _, h3, hS, hne, hp⟩ := C149_episodes (σ := Fin 3) (n := 1) (gamma := 9 / 10) (by norm_num) (by norm_num) (N := 1) one_pos (steps := [(⟨0, 0, 9 / 5, 0, 1⟩, false), (⟨1, 0, 3 / 2, 0, 1⟩, false), (⟨2, 0, -15, 0, 1⟩, true)])
    (x := ⟨2, 0, -15, 0, 1⟩) rfl (by simp) (by simp)
  rw [h1] at h3
  cases h3
  have hsum : ∀ s : Fin 3, ∑ k, rising s k ^ 2 ≤ 25 := fun s => by fin_cases s <;> norm_num [rising]
  have hnear : ∀ θ : Fin 1 → ℝ, ∑ k, (θ k - -3) ^ 2 ≤ ∑ _k : Fin 1, ((-29 / 10 : ℝ) - -3) ^ 2 → ∀ o ∈ rows, |tdErr (lin (fun _ => 0) rising θ) o| ≤ 1 := by
    intro θ hθ o ho
    have h6 := h2 o ho
    have h7 : (θ 0 - -3) ^ 2 ≤ (1 / 10) ^ 2 := by
      simp only [Finset.univ_unique, Fin.default_eq_zero, Finset.sum_singleton] at hθ
      refine hθ.trans (by norm_num)
    have h8 := abs_le_of_sq_le_sq' h7 (by norm_num)
    have hi0 := hp.in_nonneg o ho
    have hi1 := hp.in_le o ho
    obtain ⟨s, hs⟩ := Option.isSome_iff_exists.1 (hp.s_next o ho)
    unfold tdErr at h6 ⊢
    rw [hs] at h6 ⊢
    simp only [Option.elim_some, lin, Finset.univ_unique, Fin.default_eq_zero, Finset.sum_singleton, zero_add] at h6 ⊢
    have b : ∀ s : Fin 3, 3 ≤ rising s 0 ∧ rising s 0 ≤ 5 := fun s => by fin_cases s <;> norm_num [rising]
    have e : o.Rn + o.In * (rising s 0 * θ 0) - rising o.S 0 * θ 0 = (o.In * rising s 0 - rising o.S 0) * (θ 0 - -3) := by linear_combination h6
    rw [e, abs_mul]
    have c1 : |o.In * rising s 0 - rising o.S 0| ≤ 5 := abs_le.2 ⟨by nlinarith [b s, b o.S], by nlinarith [b s, b o.S]⟩
    have c2 : |θ 0 - -3| ≤ 1 / 10 := abs_le.2 h8
    calc _ ≤ 5 * (1 / 10 : ℝ) := mul_le_mul c1 c2 (abs_nonneg _) (by norm_num)
      _ ≤ 1 := by norm_num
  obtain ⟨θ, h4, h5⟩ := C151_near (best := fun _ => -3) (θ0 := fun _ => -29 / 10) (lr := 1 / 1000) (delta := 1) (by norm_num) (by norm_num) hne hp (fun _ => 0) rising (F := 25) (fun o _ => hsum o.S) (by norm_num) (by norm_num) (by norm_num)
    (fun k => by rw [List.map_congr_left (g := fun _ => 0) fun o ho => by rw [h2 o ho, zero_mul]]; simp) hnear
  refine ⟨rows, θ, h4, ?_⟩
  have h6 : (0 : Fin 3) ∈ rows.map (·.S) := by rw [hS]; simp
  obtain ⟨o, ho, e⟩ := List.mem_map.1 h6
  have := h5 0 (Submodule.subset_span ⟨o, ho, by rw [e]⟩)
  convert this using 2
  norm_num [lin, rising]

end Coax.Loop
