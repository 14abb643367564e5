import Verif.Loop.EvaluateLemmas

/-! Tabular learning from batches of transitions that are replayed. -/

namespace Coax.Loop

open Coax.RewardTracing Coax.TD Coax.Core Coax.Values Coax.Pol Filter Topology MeasureTheory

/-! ### One update -/

section
variable {σ : Type _} {n : Nat} [DecidableEq σ]

/-- The update with a batch whose rows may have different targets for the same state and action. -/
theorem sgdUpdate_rows {l l' : ℝ → ℝ → ℝ} {L : LossFn} (hL : MeanOf l l' L) (hn : 0 < n) {updateRule} {type1 : Bool} {θT θ : σ → Fin n → ℝ} {rows : List (Out σ (Fin n) ℝ)} (hne : rows ≠ [])
    {b : TBatch σ (List ℝ)} (hb : toTBatch id (fun a : Fin n => oneHot n a) rows = .ok b) {target : Out σ (Fin n) ℝ → ℝ} (ht : updateRule (tabular type1 θ) (tabular type1 θT) b = .ok (rows.map target)) (lr : ℝ) :
    sgdUpdate lr L updateRule type1 θT θ rows = .ok fun s a => θ s a - lr * ((rows.map fun o => if s = o.S ∧ a = o.A then weight o * l' (target o) (θ s a) else 0).sum / rows.length) := by
  unfold sgdUpdate
  obtain ⟨out, h1, h2⟩ := tableLoss_eq hL hn hne hb ht θ
  rw [h1]
  simp only
  rw [if_neg (by simp [h2])]
  congr 1
  funext s a
  have hd : HasDerivAt (fun x => lossValue (tableLoss L updateRule type1 rows θT θ (setEntry θ s a x))) ((rows.map fun o => if s = o.S ∧ a = o.A then weight o * l' (target o) (θ s a) else 0).sum / rows.length) (θ s a) := by
    have e : (fun x => lossValue (tableLoss L updateRule type1 rows θT θ (setEntry θ s a x))) = fun x => (rows.map fun o => weight o * l (target o) (setEntry θ s a x o.S o.A)).sum / rows.length := by
      funext x
      obtain ⟨out, h1, h2⟩ := tableLoss_eq hL hn hne hb ht (setEntry θ s a x)
      rw [h1]
      obtain ⟨loss, b2, b3, b4⟩ := out
      simp only at h2
      subst h2
      rfl
    rw [e]
    refine HasDerivAt.div_const (hasDerivAt_sum rows (fun o x => weight o * l (target o) (setEntry θ s a x o.S o.A)) _ _ fun o _ => ?_) _
    by_cases ho : s = o.S ∧ a = o.A
    · rw [if_pos ho]
      obtain ⟨rfl, rfl⟩ := ho
      simpa [setEntry] using (hL.deriv (target o) (θ o.S o.A)).const_mul (weight o)
    · rw [if_neg ho]
      have : (fun x => weight o * l (target o) (setEntry θ s a x o.S o.A)) = fun _ => weight o * l (target o) (θ o.S o.A) := by
        funext x
        simp only [setEntry]
        rw [if_neg fun hh => ho ⟨hh.1.symm, hh.2.symm⟩]
      rw [this]
      exact hasDerivAt_const _ _
  rw [hd.deriv]

omit [DecidableEq σ] in
theorem rule_rows {updateRule} {type1 : Bool} {boot : σ → (Fin n → ℝ) → ℝ → Prop} (hr : Rule updateRule type1 boot) {val : σ → (Fin n → ℝ) → ℝ} (hval : ∀ s row, boot s row (val s row))
    {rows : List (Out σ (Fin n) ℝ)} (h : ∀ o ∈ rows, o.S_next.isSome ∧ o.A_next.isSome) (θQ θT : σ → Fin n → ℝ) :
    ∃ b, toTBatch id (fun a : Fin n => oneHot n a) rows = .ok b ∧
      updateRule (tabular type1 θQ) (tabular type1 θT) b = .ok (rows.map fun o => o.Rn + o.In * (o.S_next.elim 0 fun s => val s (θT s))) := by
  obtain ⟨b, hb, h1, h2, h3⟩ := toTBatch_ok (fun a : Fin n => oneHot n a) rows h
  have hl : b.S_next.length = rows.length := by
    have := congrArg List.length h3
    simpa using this.symm
  refine ⟨b, hb, ?_⟩
  obtain ⟨G, e1, l1, hG⟩ := hr.bootstraps θQ θT b ⟨by rw [h1, hl]; simp, by rw [h2, hl]; simp⟩
  rw [e1]
  congr 1
  apply List.ext_getElem
  · rw [l1, hl]; simp
  · intro i i1 i2
    have hi : i < rows.length := by simpa using i2
    have hs : rows[i].S_next = some (b.S_next[i]'(by omega)) := by
      have := congrArg (fun l => l[i]?) h3
      simpa [hi, hl] using this
    obtain ⟨x, hx, hx'⟩ := hG i rows[i].Rn rows[i].In (b.S_next[i]'(by omega)) (by rw [h1]; simp [hi]) (by rw [h2]; simp [hi]) (by simp [hl, hi])
    rw [List.getElem?_eq_getElem i1] at hx'
    have hx' := Option.some.inj hx'
    rw [hx', List.getElem_map, hs]
    simp only [id, Option.elim]
    rw [hr.unique hx (hval _ _)]

end

/-! ### Paths -/

/-- The lagging copy moves little, in total, when its moves are weighted with the learning rates. -/
theorem lag_moves {lr tau f g : ℕ → ℝ} {K : ℝ} (hl0 : ∀ t, 0 ≤ lr t) (hanti : Antitone lr) (hsq : Summable fun t => lr t ^ 2) (hK : 0 ≤ K) (hf : ∀ t, |f (t + 1) - f t| ≤ K * lr t) (ht0 : ∀ t, 0 ≤ tau t) (ht1 : ∀ t, tau t ≤ 1)
    (hg : ∀ t, g (t + 1) = (1 - tau t) * g t + tau t * f (t + 1)) : Summable fun t => lr t * |g (t + 1) - g t| := by
  have hstep : ∀ N, ∑ u ∈ Finset.range N, lr u * |g (u + 1) - g u| + lr N * |f N - g N| ≤ lr 0 * |f 0 - g 0| + K * ∑ u ∈ Finset.range N, lr u ^ 2 := by
    intro N
    induction N with
    | zero => simp
    | succ N ih =>
      rw [Finset.sum_range_succ, Finset.sum_range_succ]
      have e1 : |g (N + 1) - g N| = tau N * |f (N + 1) - g N| := by
        have e3 : g (N + 1) - g N = tau N * (f (N + 1) - g N) := by rw [hg]; ring
        rw [e3, abs_mul, abs_of_nonneg (ht0 N)]
      have e2 : |f (N + 1) - g (N + 1)| = (1 - tau N) * |f (N + 1) - g N| := by
        have h1 : 0 ≤ 1 - tau N := by linarith [ht1 N]
        have e3 : f (N + 1) - g (N + 1) = (1 - tau N) * (f (N + 1) - g N) := by rw [hg]; ring
        rw [e3, abs_mul, abs_of_nonneg h1]
      have h2 : |f (N + 1) - g N| ≤ |f N - g N| + K * lr N := by
        have e3 : f (N + 1) - g N = (f (N + 1) - f N) + (f N - g N) := by ring
        rw [e3]
        linarith [abs_add_le (f (N + 1) - f N) (f N - g N), hf N]
      have h3 : lr (N + 1) * |f (N + 1) - g (N + 1)| ≤ lr N * |f (N + 1) - g (N + 1)| := mul_le_mul_of_nonneg_right (hanti (by omega)) (abs_nonneg _)
      have h4 : lr N * |g (N + 1) - g N| + lr N * |f (N + 1) - g (N + 1)| = lr N * |f (N + 1) - g N| := by
        rw [e1, e2]
        ring
      have h5 := mul_le_mul_of_nonneg_left h2 (hl0 N)
      have e4 : lr N * (|f N - g N| + K * lr N) = lr N * |f N - g N| + K * lr N ^ 2 := by ring
      rw [e4] at h5
      linarith
  refine summable_of_sum_range_le (c := lr 0 * |f 0 - g 0| + K * ∑' u, lr u ^ 2) (fun t => mul_nonneg (hl0 t) (abs_nonneg _)) fun N => ?_
  have h1 := hstep N
  have h2 : ∑ u ∈ Finset.range N, lr u ^ 2 ≤ ∑' u, lr u ^ 2 := hsq.sum_le_tsum _ fun u _ => sq_nonneg _
  have h3 := mul_nonneg (hl0 N) (abs_nonneg (f N - g N))
  have h4 := mul_le_mul_of_nonneg_left h2 hK
  linarith

theorem abs_telescope (g : ℕ → ℝ) (k r : ℕ) : |g (k + r) - g k| ≤ ∑ u ∈ Finset.range r, |g (k + u + 1) - g (k + u)| := by
  induction r with
  | zero => simp
  | succ r ih =>
    rw [Finset.sum_range_succ]
    have e : g (k + (r + 1)) - g k = (g (k + r + 1) - g (k + r)) + (g (k + r) - g k) := by
      rw [← add_assoc]
      ring
    rw [e]
    linarith [abs_add_le (g (k + r + 1) - g (k + r)) (g (k + r) - g k)]

/-- Sums of a sequence whose values are those of a convergent series, later, with errors that are summable. -/
theorem lagged_partial_sums {e x y : ℕ → ℝ} {r : ℕ} (h : ∀ k, e (k + r) = x k + y k) (hx : ∃ S, Tendsto (fun t => ∑ k ∈ Finset.range t, x k) atTop (𝓝 S)) (hy : Summable y) : ∃ S, Tendsto (fun t => ∑ k ∈ Finset.range t, e k) atTop (𝓝 S) := by
  obtain ⟨S, hS⟩ := hx
  refine ⟨∑ k ∈ Finset.range r, e k + (S + ∑' k, y k), ?_⟩
  rw [← tendsto_add_atTop_iff_nat r]
  have e1 : (fun t => ∑ k ∈ Finset.range (t + r), e k) = fun t => ∑ k ∈ Finset.range r, e k + (∑ k ∈ Finset.range t, x k + ∑ k ∈ Finset.range t, y k) := by
    funext t
    rw [add_comm t r, Finset.sum_range_add, ← Finset.sum_add_distrib]
    congr 1
    refine Finset.sum_congr rfl fun k _ => ?_
    rw [add_comm r k, h]
  rw [e1]
  exact (hS.add hy.hasSum.tendsto_sum_nat).const_add _

theorem list_sum_lags (l : List ℕ) {D : ℕ} (hD : ∀ r ∈ l, r ≤ D) (φ : ℕ → ℝ) : (l.map φ).sum = ∑ r ∈ Finset.range (D + 1), (l.count r : ℝ) * φ r := by
  rw [Finset.sum_list_map_count]
  have h1 : l.toFinset ⊆ Finset.range (D + 1) := fun r hr => Finset.mem_range.2 (by have := hD r (List.mem_toFinset.1 hr); omega)
  rw [Finset.sum_subset h1 fun r _ hr => by
    have : l.count r = 0 := List.count_eq_zero.2 fun h => hr (List.mem_toFinset.2 h)
    rw [this, zero_smul]]
  exact Finset.sum_congr rfl fun r _ => by rw [nsmul_eq_mul]

/-! ### Convergence -/

variable {σ Ω : Type _} {n m : Nat} {m0 : MeasurableSpace Ω}

/-- The batch of update `k` consists of the transitions `k + L - r`, where the lags `r` are at most `D` and were chosen beforehand. -/
structure Replays (ℱ : Filtration ℕ m0) (lags : ℕ → Ω → List ℕ) (D B : ℕ) : Prop where
  known : ∀ k l, MeasurableSet[ℱ 0] {ω | lags k ω = l}
  nonempty : ∀ k ω, lags k ω ≠ []
  size : ∀ k ω, (lags k ω).length ≤ B
  recent : ∀ k ω, ∀ r ∈ lags k ω, r ≤ D

/-- The conditions of Robbins and Monro, for learning rates that do not increase. -/
structure ReplayRates [DecidableEq σ] (μ : Measure Ω) (rows : ℕ → Ω → Out σ (Fin n) ℝ) (lags : ℕ → Ω → List ℕ) (L : ℕ) (lr tau : ℕ → ℝ) : Prop where
  nonneg : ∀ k, 0 ≤ lr k
  antitone : Antitone lr
  le : ∀ k i ω, lr k * min (max (rows i ω).W 0.1) 10 ≤ 1
  squares : Summable fun k => lr k ^ 2
  visits : ∀ s a, ∀ᵐ ω ∂μ, ¬ Summable fun k => if ∃ r ∈ lags k ω, (rows (k + L - r) ω).S = s ∧ (rows (k + L - r) ω).A = a then lr k else 0
  tau_nonneg : ∀ k, 0 ≤ tau k
  tau_le : ∀ k, tau k ≤ 1
  syncs : ¬ Summable tau

theorem known_fun {ℱ : Filtration ℕ m0} {lags : ℕ → Ω → List ℕ} {D B : ℕ} (h : Replays ℱ lags D B) (t k : ℕ) (φ : List ℕ → ℝ) : Measurable[ℱ t] fun ω => φ (lags k ω) := by
  let _ : MeasurableSpace (List ℕ) := ⊤
  have h1 : Measurable[ℱ t] (lags k) := @measurable_to_countable' _ _ _ _ (ℱ t) _ fun l => ℱ.mono (Nat.zero_le t) _ (h.known k l)
  exact Measurable.comp (g := φ) (fun _ _ => trivial) h1


/-! ### Averages of delayed samples -/

section

variable {X J Ω : Type _} [Fintype X] [Fintype J] {m0 : MeasurableSpace Ω}

/-- The entries `f` are moved by update `k` towards the samples `k + L - r` of the targets `G`, for lags `r ≤ D`. -/
structure Delayed (μ : Measure Ω) (ℱ : Filtration ℕ m0) (q : X → J → ℝ) (G : (X → ℝ) → X → J → ℝ) (L D : ℕ) (out : ℕ → Ω → J) (w : ℕ → ℕ → X → Ω → ℝ) (f g : ℕ → Ω → X → ℝ) (lr tau : ℕ → ℝ) (gamma : ℝ) : Prop where
  q_nonneg : ∀ p j, 0 ≤ q p j
  q_total : ∀ p, ∑ j, q p j = 1
  close : ∀ (q1 q2 : X → ℝ) M, (∀ p, |q1 p - q2 p| ≤ M) → 0 ≤ M → ∀ p j, |G q1 p j - G q2 p j| ≤ gamma * M
  init : ∃ f0 g0, ∀ ω, f 0 ω = f0 ∧ g 0 ω = g0
  move : ∀ t ω p, f (t + 1) ω p = f t ω p + ∑ r ∈ Finset.range (D + 1), w t r p ω * (G (g t ω) p (out (t + L - r) ω) - f t ω p)
  sync : ∀ t ω p, g (t + 1) ω p = (1 - tau t) * g t ω p + tau t * f (t + 1) ω p
  w_nonneg : ∀ k r p ω, 0 ≤ w k r p ω
  w_le : ∀ k p ω, ∑ r ∈ Finset.range (D + 1), w k r p ω ≤ 1
  w_lr : ∀ k p ω, ∑ r ∈ Finset.range (D + 1), w k r p ω ≤ 10 * lr k
  w_known : ∀ t k r p, k + L - r ≤ t → Measurable[ℱ t] (w k r p)
  lr_nonneg : ∀ k, 0 ≤ lr k
  antitone : Antitone lr
  squares : Summable fun k => lr k ^ 2
  tau_nonneg : ∀ k, 0 ≤ tau k
  tau_le : ∀ k, tau k ≤ 1
  out_known : ∀ t j, MeasurableSet[ℱ (t + 1)] {ω | out t ω = j}
  law : ∀ k r p j, r ≤ D → ∀ᵐ ω ∂μ, w (k + r) r p ω ≠ 0 → (μ[Set.indicator {ω | out (k + L) ω = j} (fun _ => (1 : ℝ)) | ℱ (k + L)]) ω = q p j

variable {μ : Measure Ω} {ℱ : Filtration ℕ m0} {q : X → J → ℝ} {G : (X → ℝ) → X → J → ℝ} {L D : ℕ} {out : ℕ → Ω → J} {w : ℕ → ℕ → X → Ω → ℝ} {f g : ℕ → Ω → X → ℝ} {lr tau : ℕ → ℝ} {gamma : ℝ}

theorem Delayed.w_lr' (h : Delayed μ ℱ q G L D out w f g lr tau gamma) {r : ℕ} (hr : r ≤ D) (k p ω) : w k r p ω ≤ 10 * lr k :=
  (Finset.single_le_sum (f := fun r => w k r p ω) (fun r _ => h.w_nonneg k r p ω) (Finset.mem_range.2 (by omega))).trans (h.w_lr k p ω)

theorem Delayed.w_le' (h : Delayed μ ℱ q G L D out w f g lr tau gamma) {r : ℕ} (hr : r ≤ D) (k p ω) : w k r p ω ≤ 1 :=
  (Finset.single_le_sum (f := fun r => w k r p ω) (fun r _ => h.w_nonneg k r p ω) (Finset.mem_range.2 (by omega))).trans (h.w_le k p ω)

theorem Delayed.bounded (h : Delayed μ ℱ q G L D out w f g lr tau gamma) (h1 : gamma < 1) (star : X → ℝ) :
    ∃ M, 0 ≤ M ∧ (∀ t ω, (∀ p, |f t ω p - star p| ≤ M) ∧ ∀ p, |g t ω p - star p| ≤ M) ∧ ∀ t ω p j, |G (g t ω) p j - star p| ≤ M := by
  obtain ⟨f0, g0, hi⟩ := h.init
  obtain ⟨K, hK⟩ := (Set.finite_range fun x : X × J => |G star x.1 x.2 - star x.1|).bddAbove
  have hK : ∀ p j, |G star p j - star p| ≤ K := fun p j => hK ⟨(p, j), rfl⟩
  obtain ⟨C, hC⟩ := (Set.finite_range fun p : X => max |f0 p - star p| |g0 p - star p|).bddAbove
  have hC : ∀ p, max |f0 p - star p| |g0 p - star p| ≤ C := fun p => hC ⟨p, rfl⟩
  obtain ⟨M, hMC0, hMK0⟩ : ∃ M, max C 0 ≤ M ∧ K / (1 - gamma) ≤ M := ⟨_, le_max_left _ _, le_max_right _ _⟩
  have hM0 : 0 ≤ M := (le_max_right C 0).trans hMC0
  have hMC : C ≤ M := (le_max_left C 0).trans hMC0
  have hMK : K + gamma * M ≤ M := by
    rw [div_le_iff₀ (by linarith)] at hMK0
    linarith
  have hG : ∀ x : X → ℝ, (∀ p, |x p - star p| ≤ M) → ∀ p j, |G x p j - star p| ≤ M := by
    intro x hx p j
    have h2 := h.close x star M hx hM0 p j
    have h3 := hK p j
    have h4 : G x p j - star p = (G x p j - G star p j) + (G star p j - star p) := by ring
    rw [h4]
    exact (abs_add_le _ _).trans (by linarith)
  have hbound : ∀ t ω, (∀ p, |f t ω p - star p| ≤ M) ∧ ∀ p, |g t ω p - star p| ≤ M := by
    intro t ω
    induction t with
    | zero =>
      rw [(hi ω).1, (hi ω).2]
      exact ⟨fun p => ((le_max_left _ _).trans (hC p)).trans hMC, fun p => ((le_max_right _ _).trans (hC p)).trans hMC⟩
    | succ t ih =>
      have hf : ∀ p, |f (t + 1) ω p - star p| ≤ M := by
        intro p
        have e1 : f (t + 1) ω p - star p = (1 - ∑ r ∈ Finset.range (D + 1), w t r p ω) * (f t ω p - star p) + ∑ r ∈ Finset.range (D + 1), w t r p ω * (G (g t ω) p (out (t + L - r) ω) - star p) := by
          rw [h.move]
          simp only [mul_sub, Finset.sum_sub_distrib, ← Finset.sum_mul]
          ring
        rw [e1]
        have hb := h.w_le t p ω
        have h2 : |∑ r ∈ Finset.range (D + 1), w t r p ω * (G (g t ω) p (out (t + L - r) ω) - star p)| ≤ (∑ r ∈ Finset.range (D + 1), w t r p ω) * M := by
          refine (Finset.abs_sum_le_sum_abs _ _).trans ?_
          rw [Finset.sum_mul]
          refine Finset.sum_le_sum fun r _ => ?_
          rw [abs_mul, abs_of_nonneg (h.w_nonneg t r p ω)]
          exact mul_le_mul_of_nonneg_left (hG _ ih.2 p _) (h.w_nonneg t r p ω)
        have h3 : |(1 - ∑ r ∈ Finset.range (D + 1), w t r p ω) * (f t ω p - star p)| ≤ (1 - ∑ r ∈ Finset.range (D + 1), w t r p ω) * M := by
          rw [abs_mul, abs_of_nonneg (by linarith)]
          exact mul_le_mul_of_nonneg_left (ih.1 p) (by linarith)
        refine (abs_add_le _ _).trans ?_
        linarith
      refine ⟨hf, fun p => ?_⟩
      rw [h.sync]
      exact (abs_mix (h.tau_nonneg t) (h.tau_le t) (ih.2 p) (hf p)).trans (le_of_eq (by ring))
  exact ⟨M, hM0, hbound, fun t ω => hG _ (hbound t ω).2⟩

theorem Delayed.moves (h : Delayed μ ℱ q G L D out w f g lr tau gamma) (h1 : gamma < 1) : ∃ K, 0 ≤ K ∧ ∀ t ω p, |f (t + 1) ω p - f t ω p| ≤ K * lr t := by
  obtain ⟨M, hM0, hbound, hG⟩ := h.bounded h1 0
  refine ⟨20 * M, by linarith, ?_⟩
  intro t ω p
  have e1 : f (t + 1) ω p - f t ω p = ∑ r ∈ Finset.range (D + 1), w t r p ω * (G (g t ω) p (out (t + L - r) ω) - f t ω p) := by rw [h.move]; ring
  rw [e1]
  refine (Finset.abs_sum_le_sum_abs _ _).trans ?_
  have h2 : ∑ r ∈ Finset.range (D + 1), |w t r p ω * (G (g t ω) p (out (t + L - r) ω) - f t ω p)| ≤ ∑ r ∈ Finset.range (D + 1), w t r p ω * (2 * M) := by
    refine Finset.sum_le_sum fun r _ => ?_
    rw [abs_mul, abs_of_nonneg (h.w_nonneg t r p ω)]
    refine mul_le_mul_of_nonneg_left ?_ (h.w_nonneg t r p ω)
    have h3 := hG t ω p (out (t + L - r) ω)
    have h4 := (hbound t ω).1 p
    simp only [Pi.zero_apply, sub_zero] at h3 h4
    exact (abs_sub _ _).trans (by linarith)
  refine h2.trans ?_
  rw [← Finset.sum_mul]
  have := mul_le_mul_of_nonneg_right (h.w_lr t p ω) (by linarith : 0 ≤ 2 * M)
  linarith

theorem Delayed.known (h : Delayed μ ℱ q G L D out w f g lr tau gamma) (h0 : 0 ≤ gamma) : (∀ p j, Measurable fun x => G x p j) ∧ ∀ t, (∀ p, Measurable[ℱ (t + L)] fun ω => f t ω p) ∧ ∀ p, Measurable[ℱ (t + L)] fun ω => g t ω p := by
  have hGm : ∀ p j, Measurable fun x => G x p j := by
    intro p j
    have : LipschitzWith gamma.toNNReal fun x => G x p j := LipschitzWith.of_dist_le_mul fun x y => by
      rw [Real.dist_eq, Real.coe_toNNReal _ h0]
      exact h.close x y _ (fun p => by rw [← Real.dist_eq]; exact dist_le_pi_dist x y p) dist_nonneg p j
    exact this.continuous.measurable
  obtain ⟨f0, g0, hi⟩ := h.init
  refine ⟨hGm, fun t => ?_⟩
  induction t with
  | zero =>
    simp only [(hi _).1, (hi _).2]
    exact ⟨fun p => measurable_const, fun p => measurable_const⟩
  | succ t ih =>
    have up : ∀ {F : Ω → ℝ}, Measurable[ℱ (t + L)] F → Measurable[ℱ (t + 1 + L)] F := fun h => h.mono (ℱ.mono (by omega)) le_rfl
    have hgm : Measurable[ℱ (t + L)] fun ω => g t ω := @measurable_pi_lambda _ _ _ (ℱ (t + L)) _ _ ih.2
    have hf : ∀ p, Measurable[ℱ (t + 1 + L)] fun ω => f (t + 1) ω p := fun p => by
      simp only [h.move]
      refine (up (ih.1 p)).add (Finset.measurable_fun_sum _ fun r _ => (h.w_known _ t r p (by omega)).mul (Measurable.sub ?_ (up (ih.1 p))))
      exact target_known (F := fun j ω => G (g t ω) p j) (ℱ.mono (by omega : t + L ≤ t + 1 + L)) (fun j => (hGm p j).comp hgm) fun j => ℱ.mono (by omega : t + L - r + 1 ≤ t + 1 + L) _ (h.out_known (t + L - r) j)
    refine ⟨hf, fun p => ?_⟩
    simp only [h.sync]
    exact ((up (ih.2 p)).const_mul _).add ((hf p).const_mul _)

theorem Delayed.noise [IsProbabilityMeasure μ] (h : Delayed μ ℱ q G L D out w f g lr tau gamma) (h0 : 0 ≤ gamma) (h1 : gamma < 1) {r : ℕ} (hr : r ≤ D) (p : X) :
    ∀ᵐ ω ∂μ, ∃ S, Tendsto (fun t => ∑ k ∈ Finset.range t, w (k + r) r p ω * (G (g k ω) p (out (k + L) ω) - ∑ j, q p j * G (g k ω) p j)) atTop (𝓝 S) := by
  obtain ⟨hGm, hmeas⟩ := h.known h0
  obtain ⟨M, hM0, -, hG⟩ := h.bounded h1 0
  let 𝒢 : Filtration ℕ m0 := ⟨fun k => ℱ (k + L), fun i j h => ℱ.mono (by omega), fun i => ℱ.le _⟩
  refine outcome_noise (ℱ := 𝒢) (q := q p) (a := fun k => w (k + r) r p) (Z := fun k ω j => G (g k ω) p j) (x := fun k => out (k + L)) (c := fun k => 10 * lr k) (B := M) (h.q_nonneg _) (h.q_total _) (fun k ω => h.w_nonneg _ _ _ _)
    (fun k ω => h.w_le' hr _ _ _) (fun k ω => (h.w_lr' hr _ _ _).trans (by have := h.antitone (show k ≤ k + r by omega); linarith)) ?_ (fun k => h.w_known _ _ _ _ (by omega)) (fun k j => (hGm p j).comp (@measurable_pi_lambda _ _ _ (ℱ (k + L)) _ _ (hmeas k).2)) (fun k ω j => ?_)
    (fun k j => ?_) (fun k j => h.law k r p j hr) hM0
  · have : (fun t => (10 * lr t) ^ 2) = fun t => 10 ^ 2 * lr t ^ 2 := by funext t; ring
    rw [this]
    exact h.squares.mul_left _
  · simpa using hG k ω p j
  · show MeasurableSet[ℱ (k + 1 + L)] _
    rw [show k + 1 + L = k + L + 1 by omega]
    exact h.out_known (k + L) j

theorem Delayed.mean_close (h : Delayed μ ℱ q G L D out w f g lr tau gamma) (q1 q2 : X → ℝ) (M : ℝ) (hM : ∀ p, |q1 p - q2 p| ≤ M) (hM0 : 0 ≤ M) (p : X) : |∑ j, q p j * G q1 p j - ∑ j, q p j * G q2 p j| ≤ gamma * M := by
  rw [← Finset.sum_sub_distrib]
  calc _ ≤ ∑ j, |q p j * G q1 p j - q p j * G q2 p j| := Finset.abs_sum_le_sum_abs _ _
    _ ≤ ∑ j, q p j * (gamma * M) := Finset.sum_le_sum fun j _ => by
        rw [← mul_sub, abs_mul, abs_of_nonneg (h.q_nonneg p j)]
        exact mul_le_mul_of_nonneg_left (h.close _ _ M hM hM0 p j) (h.q_nonneg p j)
    _ = gamma * M := by rw [← Finset.sum_mul, h.q_total, one_mul]

theorem Delayed.lagged (h : Delayed μ ℱ q G L D out w f g lr tau gamma) (h1 : gamma < 1) {r : ℕ} (hr : r ≤ D) (p : X) (ω : Ω)
    (hS : ∃ S, Tendsto (fun t => ∑ k ∈ Finset.range t, w (k + r) r p ω * (G (g k ω) p (out (k + L) ω) - ∑ j, q p j * G (g k ω) p j)) atTop (𝓝 S)) :
    ∃ S, Tendsto (fun t => ∑ k ∈ Finset.range t, w k r p ω * (G (g k ω) p (out (k + L - r) ω) - ∑ j, q p j * G (g k ω) p j)) atTop (𝓝 S) := by
  obtain ⟨K, hK0, hK⟩ := h.moves h1
  have hmoves : ∀ p, Summable fun t => lr t * |g (t + 1) ω p - g t ω p| := fun p => lag_moves (lr := lr) (tau := tau) (K := K) (f := fun t => f t ω p) (g := fun t => g t ω p) h.lr_nonneg h.antitone h.squares hK0 (fun t => hK t ω p) h.tau_nonneg h.tau_le fun t => h.sync t ω p
  refine lagged_partial_sums (r := r) (x := fun k => w (k + r) r p ω * (G (g k ω) p (out (k + L) ω) - ∑ j, q p j * G (g k ω) p j))
    (y := fun k => w (k + r) r p ω * ((G (g (k + r) ω) p (out (k + L) ω) - G (g k ω) p (out (k + L) ω)) - (∑ j, q p j * G (g (k + r) ω) p j - ∑ j, q p j * G (g k ω) p j))) (fun k => ?_) hS ?_
  · have e1 : k + r + L - r = k + L := by omega
    have e2 : ∀ v A A' C C' : ℝ, v * (A' - C') = v * (A - C) + v * ((A' - A) - (C' - C)) := fun v A A' C C' => by ring
    simp only [e1]
    exact e2 _ _ _ _ _
  · have hsh : ∀ p u, Summable fun k => lr (k + u) * |g (k + u + 1) ω p - g (k + u) ω p| := by
      intro p u
      have := (summable_nat_add_iff u).2 (hmoves p)
      exact this
    have hsum1 : Summable fun k => ∑ p : X, ∑ u ∈ Finset.range r, lr (k + u) * |g (k + u + 1) ω p - g (k + u) ω p| := summable_sum fun p _ => summable_sum fun u _ => hsh p u
    have hsum : Summable fun k => 20 * ∑ p : X, ∑ u ∈ Finset.range r, lr (k + u) * |g (k + u + 1) ω p - g (k + u) ω p| := hsum1.mul_left 20
    refine Summable.of_norm_bounded hsum fun k => ?_
    rw [Real.norm_eq_abs, abs_mul, abs_of_nonneg (h.w_nonneg _ _ _ _)]
    obtain ⟨Δ, hΔe⟩ : ∃ Δ : ℝ, Δ = ∑ p : X, |g (k + r) ω p - g k ω p| := ⟨_, rfl⟩
    have hΔ : ∀ p, |g (k + r) ω p - g k ω p| ≤ Δ := fun p => by
      rw [hΔe]
      exact Finset.single_le_sum (f := fun p => |g (k + r) ω p - g k ω p|) (fun p _ => abs_nonneg _) (Finset.mem_univ p)
    have hΔ0 : 0 ≤ Δ := (abs_nonneg _).trans (hΔ p)
    have h2 := h.close _ _ Δ hΔ hΔ0 p (out (k + L) ω)
    have h3 := h.mean_close _ _ Δ hΔ hΔ0 p
    have h4 : |(G (g (k + r) ω) p (out (k + L) ω) - G (g k ω) p (out (k + L) ω)) - (∑ j, q p j * G (g (k + r) ω) p j - ∑ j, q p j * G (g k ω) p j)| ≤ 2 * Δ := by
      have h5 : gamma * Δ ≤ Δ := mul_le_of_le_one_left hΔ0 h1.le
      exact (abs_sub _ _).trans (by linarith)
    have h5 : lr (k + r) * Δ ≤ ∑ p : X, ∑ u ∈ Finset.range r, lr (k + u) * |g (k + u + 1) ω p - g (k + u) ω p| := by
      rw [hΔe, Finset.mul_sum]
      refine Finset.sum_le_sum fun p _ => ?_
      refine (mul_le_mul_of_nonneg_left (abs_telescope (fun t => g t ω p) k r) (h.lr_nonneg _)).trans ?_
      rw [Finset.mul_sum]
      refine Finset.sum_le_sum fun u hu => mul_le_mul_of_nonneg_right (h.antitone ?_) (abs_nonneg _)
      have := Finset.mem_range.1 hu
      omega
    calc _ ≤ (10 * lr (k + r)) * (2 * Δ) := mul_le_mul (h.w_lr' hr _ _ _) h4 (abs_nonneg _) (mul_nonneg (by norm_num) (h.lr_nonneg _))
      _ = 20 * (lr (k + r) * Δ) := by ring
      _ ≤ _ := mul_le_mul_of_nonneg_left h5 (by norm_num)

theorem Delayed.converges [IsProbabilityMeasure μ] (h : Delayed μ ℱ q G L D out w f g lr tau gamma) (h0 : 0 ≤ gamma) (h1 : gamma < 1) {star : X → ℝ} (hstar : ∀ p, ∑ j, q p j * G star p j = star p)
    (hb : ∀ p, ∀ᵐ ω ∂μ, ¬ Summable fun t => ∑ r ∈ Finset.range (D + 1), w t r p ω) (ht : ¬ Summable tau) :
    ∀ᵐ ω ∂μ, ∀ p, Tendsto (fun t => f t ω p) atTop (𝓝 (star p)) ∧ Tendsto (fun t => g t ω p) atTop (𝓝 (star p)) := by
  filter_upwards [ae_all_iff.2 fun p => ae_all_iff.2 fun r : Fin (D + 1) => h.noise h0 h1 (Nat.lt_succ_iff.1 r.2) p, ae_all_iff.2 hb] with ω hS hv p
  obtain ⟨M, -, hbound, -⟩ := h.bounded h1 star
  have hlag : ∀ p, ∀ r ≤ D, ∃ S, Tendsto (fun t => ∑ k ∈ Finset.range t, w k r p ω * (G (g k ω) p (out (k + L - r) ω) - ∑ j, q p j * G (g k ω) p j)) atTop (𝓝 S) := fun p r hr => h.lagged h1 hr p ω (hS p ⟨r, by omega⟩)
  have hd : ∀ p, ∃ S, Tendsto (fun t => ∑ k ∈ Finset.range t, ∑ r ∈ Finset.range (D + 1), w k r p ω * (G (g k ω) p (out (k + L - r) ω) - ∑ j, q p j * G (g k ω) p j)) atTop (𝓝 S) := by
    intro p
    have hlag : ∀ r : ℕ, ∃ S, r ∈ Finset.range (D + 1) → Tendsto (fun t => ∑ k ∈ Finset.range t, w k r p ω * (G (g k ω) p (out (k + L - r) ω) - ∑ j, q p j * G (g k ω) p j)) atTop (𝓝 S) := by
      intro r
      by_cases hr : r ≤ D
      · obtain ⟨S, hS⟩ := hlag p r hr
        exact ⟨S, fun _ => hS⟩
      · exact ⟨0, fun h2 => absurd (Finset.mem_range.1 h2) (by omega)⟩
    choose S hS using hlag
    refine ⟨∑ r ∈ Finset.range (D + 1), S r, ?_⟩
    have e1 : ∀ t, (∑ k ∈ Finset.range t, ∑ r ∈ Finset.range (D + 1), w k r p ω * (G (g k ω) p (out (k + L - r) ω) - ∑ j, q p j * G (g k ω) p j)) = ∑ r ∈ Finset.range (D + 1), ∑ k ∈ Finset.range t, w k r p ω * (G (g k ω) p (out (k + L - r) ω) - ∑ j, q p j * G (g k ω) p j) := fun t => Finset.sum_comm
    simp only [e1]
    exact tendsto_finsetSum _ hS
  have hN : Noisy (fun x p => ∑ j, q p j * G x p j) (fun t p => f t ω p) (fun t p => g t ω p) (fun t p => ∑ r ∈ Finset.range (D + 1), w t r p ω) (fun t p => ∑ r ∈ Finset.range (D + 1), w t r p ω * (G (g t ω) p (out (t + L - r) ω) - ∑ j, q p j * G (g t ω) p j)) tau := by
    refine ⟨fun t p => Finset.sum_nonneg fun r _ => h.w_nonneg _ _ _ _, fun t p => h.w_le t p ω, fun t p => ?_, h.tau_nonneg, h.tau_le, fun t p => h.sync t ω p⟩
    rw [h.move]
    simp only [mul_sub, Finset.sum_sub_distrib, ← Finset.sum_mul]
    ring
  have hT : Attracts (fun x p => ∑ j, q p j * G x p j) star gamma := by
    intro x M' hM' p
    have h2 := h.mean_close x star M' hM' ((abs_nonneg _).trans (hM' p)) p
    rwa [hstar] at h2
  exact hN.converges hT h0 h1 hv ht hd (fun t p => ⟨(hbound t ω).1 p, (hbound t ω).2 p⟩) p

end

variable [DecidableEq σ]

theorem learnS_replay [Fintype σ] {μ : Measure Ω} [IsProbabilityMeasure μ] {ℱ : Filtration ℕ m0} {updateRule} {type1 : Bool} {boot : σ → (Fin n → ℝ) → ℝ → Prop} (hr : Rule updateRule type1 boot) (hn : 0 < n) {e : Mdp σ n m} (he : e.Proper)
    {gamma : ℝ} (h0 : 0 ≤ gamma) (h1 : gamma < 1) {lr tau : ℕ → ℝ} {rows : ℕ → Ω → Out σ (Fin n) ℝ} {out : ℕ → Ω → Fin m} (hs : Samples e gamma μ ℱ rows out) {lags : ℕ → Ω → List ℕ} {L D B : ℕ} (hp : Replays ℱ lags D B)
    (hl : ReplayRates μ rows lags L lr tau) {best : σ → Fin n → ℝ} (hbest : e.Solves gamma boot best) (θ0 θT0 : σ → Fin n → ℝ) :
    ∃ θ θT : ℕ → Ω → σ → Fin n → ℝ, (∀ k ω, learnS lr mse1 updateRule type1 0 (θ0, θT0) ((List.range k).map fun t => ((lags t ω).map fun r => rows (t + L - r) ω, tau t)) = .ok (θ k ω, θT k ω)) ∧
      ∀ᵐ ω ∂μ, ∀ s a, Tendsto (fun k => θ k ω s a) atTop (𝓝 (best s a)) ∧ Tendsto (fun k => θT k ω s a) atTop (𝓝 (best s a)) := by
  choose val hval using hr.value
  let G : (σ × Fin n → ℝ) → σ × Fin n → Fin m → ℝ := e.goal gamma val
  -- the share of lag `r` in update `k`
  let c : ℕ → Ω → ℕ → ℝ := fun k ω r => ((lags k ω).count r : ℝ) / (lags k ω).length
  let hit : ℕ → σ × Fin n → Ω → ℝ := fun i p ω => if p.1 = (rows i ω).S ∧ p.2 = (rows i ω).A then weight (rows i ω) else 0
  let w : ℕ → ℕ → σ × Fin n → Ω → ℝ := fun k r p ω => lr k * (c k ω r * hit (k + L - r) p ω)
  let b : ℕ → σ × Fin n → Ω → ℝ := fun k p ω => ∑ r ∈ Finset.range (D + 1), w k r p ω
  have hlen : ∀ k ω, 0 < ((lags k ω).length : ℝ) := fun k ω => Nat.cast_pos.2 (List.length_pos_iff.2 (hp.nonempty k ω))
  -- one update
  have step : ∀ θT θ k ω, sgdUpdate (lr k) mse1 updateRule type1 θT θ ((lags k ω).map fun r => rows (k + L - r) ω) =
      .ok fun s a => θ s a + ∑ r ∈ Finset.range (D + 1), w k r (s, a) ω * (G (fun p => θT p.1 p.2) (s, a) (out (k + L - r) ω) - θ s a) := by
    intro θT θ k ω
    obtain ⟨b', hb', ht⟩ := rule_rows hr hval (rows := (lags k ω).map fun r => rows (k + L - r) ω) (fun o ho => by
      obtain ⟨r, -, rfl⟩ := List.mem_map.1 ho
      exact ⟨hs.s_next _ _, hs.a_next _ _⟩) θ θT
    rw [sgdUpdate_rows mse1_meanOf hn (by simpa using hp.nonempty k ω) hb' ht (lr k)]
    congr 1
    funext s a
    rw [List.map_map, list_sum_lags _ (hp.recent k ω), List.length_map, sub_eq_add_neg, Finset.sum_div, Finset.mul_sum, ← Finset.sum_neg_distrib]
    congr 1
    refine Finset.sum_congr rfl fun r _ => ?_
    simp only [Function.comp, w, c, hit]
    by_cases hq : s = (rows (k + L - r) ω).S ∧ a = (rows (k + L - r) ω).A
    · rw [if_pos hq, if_pos hq]
      have hgoal : (rows (k + L - r) ω).Rn + (rows (k + L - r) ω).In * ((rows (k + L - r) ω).S_next.elim 0 fun s => val s (θT s)) = G (fun p => θT p.1 p.2) (s, a) (out (k + L - r) ω) := by
        simp only [G, Mdp.goal]
        rw [hs.rn, hq.1, hq.2]
        cases hend : e.ends (rows (k + L - r) ω).S (rows (k + L - r) ω).A (out (k + L - r) ω) with
        | true => rw [hs.ended _ _ hend]; simp
        | false =>
          obtain ⟨g1, g2⟩ := hs.goes _ _ hend
          rw [g1, g2, if_neg (by simp)]
          rfl
      rw [hgoal]
      ring
    · rw [if_neg hq, if_neg hq]
      ring
  let next : ℕ → Ω → (σ → Fin n → ℝ) × (σ → Fin n → ℝ) → (σ → Fin n → ℝ) × (σ → Fin n → ℝ) := fun k ω x =>
    let θ' : σ → Fin n → ℝ := fun s a => x.1 s a + ∑ r ∈ Finset.range (D + 1), w k r (s, a) ω * (G (fun p => x.2 p.1 p.2) (s, a) (out (k + L - r) ω) - x.1 s a)
    (θ', softTable (tau k) x.2 θ')
  let run : ℕ → Ω → (σ → Fin n → ℝ) × (σ → Fin n → ℝ) := fun k ω => Nat.rec (θ0, θT0) (fun t x => next t ω x) k
  have hrun : ∀ k ω, learnS lr mse1 updateRule type1 0 (θ0, θT0) ((List.range k).map fun t => ((lags t ω).map fun r => rows (t + L - r) ω, tau t)) = .ok (run k ω) := by
    intro k ω
    induction k with
    | zero => rfl
    | succ k ih =>
      rw [List.range_succ, List.map_append, learnS_append ih]
      show learnS lr mse1 updateRule type1 _ ((run k ω).1, (run k ω).2) [((lags k ω).map fun r => rows (k + L - r) ω, tau k)] = _
      rw [learnS]
      simp only [List.length_map, List.length_range, Nat.zero_add]
      rw [step]
      rfl
  refine ⟨fun k ω => (run k ω).1, fun k ω => (run k ω).2, hrun, ?_⟩
  let f : ℕ → Ω → σ × Fin n → ℝ := fun t ω p => (run t ω).1 p.1 p.2
  let g : ℕ → Ω → σ × Fin n → ℝ := fun t ω p => (run t ω).2 p.1 p.2
  have hfstep : ∀ t ω p, f (t + 1) ω p = f t ω p + ∑ r ∈ Finset.range (D + 1), w t r p ω * (G (g t ω) p (out (t + L - r) ω) - f t ω p) := fun t ω p => rfl
  have hgstep : ∀ t ω p, g (t + 1) ω p = (1 - tau t) * g t ω p + tau t * f (t + 1) ω p := fun t ω p => rfl
  -- the weights
  have hhit0 : ∀ i p ω, 0 ≤ hit i p ω := by
    intro i p ω
    simp only [hit, weight]
    split
    · exact le_min ((by norm_num : (0 : ℝ) ≤ 0.1).trans (le_max_right _ _)) (by norm_num)
    · exact le_rfl
  have hhit10 : ∀ i p ω, hit i p ω ≤ 10 := by
    intro i p ω
    simp only [hit, weight]
    split
    · exact min_le_right _ _
    · norm_num
  have hhit1 : ∀ k i p ω, lr k * hit i p ω ≤ 1 := by
    intro k i p ω
    simp only [hit, weight]
    split
    · exact hl.le k i ω
    · simp
  have hc0 : ∀ k ω r, 0 ≤ c k ω r := fun k ω r => div_nonneg (Nat.cast_nonneg _) (Nat.cast_nonneg _)
  have hc1 : ∀ k ω r, c k ω r ≤ 1 := fun k ω r => div_le_one_of_le₀ (Nat.cast_le.2 List.count_le_length) (Nat.cast_nonneg _)
  have hcsum : ∀ k ω, ∑ r ∈ Finset.range (D + 1), c k ω r = 1 := by
    intro k ω
    have h2 := list_sum_lags (lags k ω) (hp.recent k ω) fun _ => 1
    simp only [mul_one, List.map_const', List.sum_replicate, nsmul_eq_mul] at h2
    simp only [c]
    rw [← Finset.sum_div, ← h2, div_self (hlen k ω).ne']
  have hw0 : ∀ k r p ω, 0 ≤ w k r p ω := fun k r p ω => mul_nonneg (hl.nonneg k) (mul_nonneg (hc0 _ _ _) (hhit0 _ _ _))
  have hwc : ∀ k r p ω, w k r p ω ≤ c k ω r := by
    intro k r p ω
    have e1 : w k r p ω = c k ω r * (lr k * hit (k + L - r) p ω) := by simp only [w]; ring
    rw [e1]
    exact mul_le_of_le_one_right (hc0 _ _ _) (hhit1 _ _ _ _)
  have hw10 : ∀ k r p ω, w k r p ω ≤ 10 * lr k * c k ω r := by
    intro k r p ω
    have e1 : w k r p ω = lr k * c k ω r * hit (k + L - r) p ω := by simp only [w]; ring
    rw [e1]
    have := mul_le_mul_of_nonneg_left (hhit10 (k + L - r) p ω) (mul_nonneg (hl.nonneg k) (hc0 k ω r))
    linarith
  have hw10' : ∀ k r p ω, w k r p ω ≤ 10 * lr k := fun k r p ω => (hw10 k r p ω).trans (mul_le_of_le_one_right (mul_nonneg (by norm_num) (hl.nonneg k)) (hc1 _ _ _))
  have hb0 : ∀ k p ω, 0 ≤ b k p ω := fun k p ω => Finset.sum_nonneg fun r _ => hw0 k r p ω
  have hb1 : ∀ k p ω, b k p ω ≤ 1 := fun k p ω => (Finset.sum_le_sum fun r _ => hwc k r p ω).trans (hcsum k ω).le
  have hb10 : ∀ k p ω, b k p ω ≤ 10 * lr k := fun k p ω => (Finset.sum_le_sum fun r _ => hw10 k r p ω).trans (by rw [← Finset.mul_sum, hcsum, mul_one])
  have hhitm : ∀ i p, Measurable[ℱ i] (hit i p) := by
    intro i p
    have h2 : {ω | p.1 = (rows i ω).S ∧ p.2 = (rows i ω).A} = {ω | (rows i ω).S = p.1 ∧ (rows i ω).A = p.2} := by
      ext ω
      simp only [Set.mem_ofPred_eq, eq_comm]
    exact Measurable.ite (by rw [h2]; exact hs.at_known i p.1 p.2) (((hs.w_known i).max measurable_const).min measurable_const) measurable_const
  have hcm : ∀ t k r, Measurable[ℱ t] fun ω => c k ω r := fun t k r => known_fun hp t k fun l => (l.count r : ℝ) / l.length
  have hwm : ∀ t k r p, k + L - r ≤ t → Measurable[ℱ t] (w k r p) := fun t k r p h => ((hcm t k r).mul ((hhitm _ p).mono (ℱ.mono h) le_rfl)).const_mul _
  have hdel : Delayed μ ℱ (fun p => e.prob p.1 p.2) G L D out w f g lr tau gamma := {
    q_nonneg := fun p => he.nonneg p.1 p.2
    q_total := fun p => he.total p.1 p.2
    close := fun q1 q2 M hM hM0 p j => goal_close hr hval (e := e) h0 q1 q2 M hM hM0 p j
    init := ⟨fun p => θ0 p.1 p.2, fun p => θT0 p.1 p.2, fun ω => ⟨rfl, rfl⟩⟩
    move := hfstep
    sync := hgstep
    w_nonneg := hw0
    w_le := hb1
    w_lr := hb10
    w_known := hwm
    lr_nonneg := hl.nonneg
    antitone := hl.antitone
    squares := hl.squares
    tau_nonneg := hl.tau_nonneg
    tau_le := hl.tau_le
    out_known := hs.out_known
    law := by
      intro k r p j _
      filter_upwards [hs.law (k + L) j] with ω h2 hne
      have h3 : p.1 = (rows (k + L) ω).S ∧ p.2 = (rows (k + L) ω).A := by
        by_contra hcon
        refine hne ?_
        simp only [w, hit]
        rw [show k + r + L - r = k + L by omega, if_neg hcon]
        ring
      rw [h2, h3.1, h3.2] }
  have hnb : ∀ p, ∀ᵐ ω ∂μ, ¬ Summable fun t => b t p ω := by
    intro p
    filter_upwards [hl.visits p.1 p.2] with ω hv hsm
    have hsm2 : Summable fun t => 10 * (B : ℝ) * b t p ω := hsm.mul_left _
    refine hv (Summable.of_nonneg_of_le (fun t => ?_) (fun t => ?_) hsm2)
    · split
      · exact hl.nonneg t
      · exact le_rfl
    · split
      · next hex =>
        obtain ⟨r, hr1, hr2, hr3⟩ := hex
        have hle : w t r p ω ≤ b t p ω := Finset.single_le_sum (f := fun r => w t r p ω) (fun r _ => hw0 t r p ω) (Finset.mem_range.2 (by have := hp.recent t ω r hr1; omega))
        have hB : (0 : ℝ) < B := (hlen t ω).trans_le (Nat.cast_le.2 (hp.size t ω))
        have hcr : 1 / (B : ℝ) ≤ c t ω r := by
          have h2 : (1 : ℝ) ≤ (lags t ω).count r := Nat.one_le_cast.2 (List.count_pos_iff.2 hr1)
          exact div_le_div₀ (by linarith) h2 (hlen t ω) (Nat.cast_le.2 (hp.size t ω))
        have hh : (0.1 : ℝ) ≤ hit (t + L - r) p ω := by
          simp only [hit]
          rw [if_pos ⟨hr2.symm, hr3.symm⟩]
          exact le_min (le_max_right _ _) (by norm_num)
        have h2 : 1 / (B : ℝ) * 0.1 ≤ c t ω r * hit (t + L - r) p ω := mul_le_mul hcr hh (by norm_num) (hc0 _ _ _)
        have h3 : lr t * (1 / (B : ℝ) * 0.1) ≤ b t p ω := (mul_le_mul_of_nonneg_left h2 (hl.nonneg t)).trans hle
        have h4 := mul_le_mul_of_nonneg_left h3 (by positivity : (0 : ℝ) ≤ 10 * B)
        have e1 : 10 * (B : ℝ) * (lr t * (1 / (B : ℝ) * 0.1)) = lr t := by
          field_simp
          ring
        rwa [e1] at h4
      · exact mul_nonneg (by positivity) (hb0 _ _ _)
  have h2 := hdel.converges h0 h1 (star := fun p => best p.1 p.2) (fun p => congrFun ((mdp_solves_iff hr hval best).1 hbest) p) hnb hl.syncs
  filter_upwards [h2] with ω h3 s a
  exact h3 (s, a)

end Coax.Loop
