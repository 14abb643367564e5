import Verif.Loop.ReplayLemmas

/-! Stochastic approximation with targets that look several steps ahead along a path. -/

namespace Coax.Loop

open Filter Topology MeasureTheory

variable {X J Ω : Type _} {m0 : MeasurableSpace Ω}

/-- A path of cells `z` with outcomes `x`: the outcome is drawn with the probabilities `q` of the cell, and leads to the next cell unless it stops the episode. -/
structure Chain (μ : Measure Ω) (ℱ : Filtration ℕ m0) (q : X → J → ℝ) (stop : X → J → Bool) (next : X → J → X) (z : ℕ → Ω → X) (x : ℕ → Ω → J) : Prop where
  z_known : ∀ t p, MeasurableSet[ℱ t] {ω | z t ω = p}
  x_known : ∀ t j, MeasurableSet[ℱ (t + 1)] {ω | x t ω = j}
  law : ∀ t j, ∀ᵐ ω ∂μ, (μ[Set.indicator {ω | x t ω = j} (fun _ => (1 : ℝ)) | ℱ t]) ω = q (z t ω) j
  goes : ∀ t ω, stop (z t ω) (x t ω) = false → z (t + 1) ω = next (z t ω) (x t ω)

/-- The discounted rewards of `N` steps from time `t` on, and the value of the cell that is reached. -/
noncomputable def pathRet (rew : X → J → ℝ) (stop : X → J → Bool) (gamma : ℝ) (z : ℕ → X) (x : ℕ → J) (v : X → ℝ) : ℕ → ℕ → ℝ
  | 0, t => v (z t)
  | N + 1, t => rew (z t) (x t) + if stop (z t) (x t) then 0 else gamma * pathRet rew stop gamma z x v N (t + 1)

/-- The mean of one step. -/
noncomputable def chainOp [Fintype J] (q : X → J → ℝ) (rew : X → J → ℝ) (stop : X → J → Bool) (next : X → J → X) (gamma : ℝ) (v : X → ℝ) (p : X) : ℝ := ∑ j, q p j * (rew p j + if stop p j then 0 else gamma * v (next p j))

variable {q rew : X → J → ℝ} {stop : X → J → Bool} {next : X → J → X} {gamma : ℝ}

theorem pathRet_close (h0 : 0 ≤ gamma) (h1 : gamma ≤ 1) {v v' : X → ℝ} {M : ℝ} (hM : ∀ p, |v p - v' p| ≤ M) (z : ℕ → X) (x : ℕ → J) (N t : ℕ) :
    |pathRet rew stop gamma z x v N t - pathRet rew stop gamma z x v' N t| ≤ M := by
  have hM0 : 0 ≤ M := (abs_nonneg _).trans (hM (z t))
  induction N generalizing t with
  | zero => exact hM _
  | succ N ih =>
    simp only [pathRet]
    split
    · simpa using hM0
    · rw [add_sub_add_left_eq_sub, ← mul_sub, abs_mul, abs_of_nonneg h0]
      exact (mul_le_of_le_one_left (abs_nonneg _) h1).trans (ih _)

theorem pathRet_bound (h0 : 0 ≤ gamma) {R M : ℝ} (hM0 : 0 ≤ M) (hR : ∀ p j, |rew p j| ≤ R) (hRM : R + gamma * M ≤ M) {v : X → ℝ} (hv : ∀ p, |v p| ≤ M) (z : ℕ → X) (x : ℕ → J) (N t : ℕ) : |pathRet rew stop gamma z x v N t| ≤ M := by
  induction N generalizing t with
  | zero => exact hv _
  | succ N ih =>
    simp only [pathRet]
    refine (abs_add_le _ _).trans (le_trans (add_le_add (hR _ _) ?_) hRM)
    split
    · simpa using mul_nonneg h0 hM0
    · rw [abs_mul, abs_of_nonneg h0]
      exact mul_le_mul_of_nonneg_left (ih _) h0

section
variable [Fintype J]

theorem chainOp_bound (h0 : 0 ≤ gamma) (hq0 : ∀ p j, 0 ≤ q p j) (hq1 : ∀ p, ∑ j, q p j = 1) {R M : ℝ} (hM0 : 0 ≤ M) (hR : ∀ p j, |rew p j| ≤ R) (hRM : R + gamma * M ≤ M) {v : X → ℝ} (hv : ∀ p, |v p| ≤ M) (p : X) :
    |chainOp q rew stop next gamma v p| ≤ M := by
  unfold chainOp
  calc _ ≤ ∑ j, |q p j * (rew p j + if stop p j then 0 else gamma * v (next p j))| := Finset.abs_sum_le_sum_abs _ _
    _ ≤ ∑ j, q p j * M := Finset.sum_le_sum fun j _ => by
        rw [abs_mul, abs_of_nonneg (hq0 p j)]
        refine mul_le_mul_of_nonneg_left ?_ (hq0 p j)
        refine (abs_add_le _ _).trans (le_trans (add_le_add (hR _ _) ?_) hRM)
        split
        · simpa using mul_nonneg h0 hM0
        · rw [abs_mul, abs_of_nonneg h0]
          exact mul_le_mul_of_nonneg_left (hv _) h0
    _ = M := by rw [← Finset.sum_mul, hq1, one_mul]

theorem chainOp_close (h0 : 0 ≤ gamma) (hq0 : ∀ p j, 0 ≤ q p j) (hq1 : ∀ p, ∑ j, q p j = 1) {v v' : X → ℝ} {M : ℝ} (hM : ∀ p, |v p - v' p| ≤ M) (p : X) :
    |chainOp q rew stop next gamma v p - chainOp q rew stop next gamma v' p| ≤ gamma * M := by
  have hM0 : 0 ≤ M := (abs_nonneg _).trans (hM p)
  unfold chainOp
  rw [← Finset.sum_sub_distrib]
  calc _ ≤ ∑ j, |q p j * (rew p j + if stop p j then 0 else gamma * v (next p j)) - q p j * (rew p j + if stop p j then 0 else gamma * v' (next p j))| := Finset.abs_sum_le_sum_abs _ _
    _ ≤ ∑ j, q p j * (gamma * M) := Finset.sum_le_sum fun j _ => by
        rw [← mul_sub, abs_mul, abs_of_nonneg (hq0 p j)]
        refine mul_le_mul_of_nonneg_left ?_ (hq0 p j)
        split
        · simpa using mul_nonneg h0 hM0
        · rw [add_sub_add_left_eq_sub, ← mul_sub, abs_mul, abs_of_nonneg h0]
          exact mul_le_mul_of_nonneg_left (hM _) h0
    _ = gamma * M := by rw [← Finset.sum_mul, hq1, one_mul]

theorem chainOp_iterate_close (h0 : 0 ≤ gamma) (hq0 : ∀ p j, 0 ≤ q p j) (hq1 : ∀ p, ∑ j, q p j = 1) {v v' : X → ℝ} {M : ℝ} (hM : ∀ p, |v p - v' p| ≤ M) (N : ℕ) (p : X) :
    |(chainOp q rew stop next gamma)^[N] v p - (chainOp q rew stop next gamma)^[N] v' p| ≤ gamma ^ N * M := by
  induction N generalizing p with
  | zero => simpa using hM p
  | succ N ih =>
    rw [Function.iterate_succ_apply', Function.iterate_succ_apply']
    refine (chainOp_close h0 hq0 hq1 ih p).trans (le_of_eq ?_)
    ring

theorem chainOp_iterate_bound (h0 : 0 ≤ gamma) (hq0 : ∀ p j, 0 ≤ q p j) (hq1 : ∀ p, ∑ j, q p j = 1) {R M : ℝ} (hM0 : 0 ≤ M) (hR : ∀ p j, |rew p j| ≤ R) (hRM : R + gamma * M ≤ M) {v : X → ℝ} (hv : ∀ p, |v p| ≤ M) (N : ℕ) (p : X) :
    |(chainOp q rew stop next gamma)^[N] v p| ≤ M := by
  induction N generalizing p with
  | zero => exact hv p
  | succ N ih =>
    rw [Function.iterate_succ_apply']
    exact chainOp_bound h0 hq0 hq1 hM0 hR hRM ih p

end

variable {μ : Measure Ω} {ℱ : Filtration ℕ m0} {z : ℕ → Ω → X} {x : ℕ → Ω → J}

section
variable [Fintype X] [Fintype J]

/-- What is known when cell and outcome are. -/
theorem Chain.pair_known (h : Chain μ ℱ q stop next z x) {t s : ℕ} (hts : t < s) {f : X → J → Ω → ℝ} (hf : ∀ p j, Measurable[ℱ s] (f p j)) : Measurable[ℱ s] fun ω => f (z t ω) (x t ω) ω :=
  target_known (F := fun p ω => f p (x t ω) ω) (o := z t) le_rfl (fun p => target_known (F := fun j ω => f p j ω) (o := x t) le_rfl (hf p) fun j => ℱ.mono hts _ (h.x_known t j)) fun p => ℱ.mono hts.le _ (h.z_known t p)

theorem chainOp_known {F : MeasurableSpace Ω} {v : Ω → X → ℝ} (hv : ∀ p, Measurable[F] fun ω => v ω p) (N : ℕ) (p : X) : Measurable[F] fun ω => (chainOp q rew stop next gamma)^[N] (v ω) p := by
  induction N generalizing p with
  | zero => exact hv p
  | succ N ih =>
    simp only [Function.iterate_succ_apply']
    unfold chainOp
    refine Finset.measurable_fun_sum _ fun j _ => Measurable.const_mul (Measurable.const_add ?_ _) _
    split
    · exact measurable_const
    · exact (ih _).const_mul _

theorem Chain.pathRet_known (h : Chain μ ℱ q stop next z x) {s : ℕ} {v : Ω → X → ℝ} (hv : ∀ p, Measurable[ℱ s] fun ω => v ω p) (N t : ℕ) (hs : t + N ≤ s) :
    Measurable[ℱ s] fun ω => pathRet rew stop gamma (fun t => z t ω) (fun t => x t ω) (v ω) N t := by
  induction N generalizing t with
  | zero => exact target_known (F := fun p ω => v ω p) (o := z t) le_rfl hv fun p => ℱ.mono (by omega) _ (h.z_known t p)
  | succ N ih =>
    simp only [pathRet]
    refine h.pair_known (f := fun p j ω => rew p j + if stop p j then 0 else gamma * pathRet rew stop gamma (fun t => z t ω) (fun t => x t ω) (v ω) N (t + 1)) (by omega) fun p j => Measurable.const_add ?_ _
    split
    · exact measurable_const
    · exact (ih (t + 1) (by omega)).const_mul _

/-- Returns along the path minus their means, times weights that are known before, have a convergent sum, almost surely. -/
theorem Chain.noise [IsProbabilityMeasure μ] (h : Chain μ ℱ q stop next z x) (h0 : 0 ≤ gamma) (h1 : gamma ≤ 1) (hq0 : ∀ p j, 0 ≤ q p j) (hq1 : ∀ p, ∑ j, q p j = 1) {R M : ℝ} (hM0 : 0 ≤ M) (hR : ∀ p j, |rew p j| ≤ R) (hRM : R + gamma * M ≤ M)
    {c : ℕ → ℝ} (hc : Summable fun t => c t ^ 2) {v : ℕ → Ω → X → ℝ} (hvM : ∀ t ω p, |v t ω p| ≤ M) (N : ℕ) (i : ℕ) (hv : ∀ t p, Measurable[ℱ (t + i)] fun ω => v t ω p) (a : ℕ → Ω → ℝ) (ha0 : ∀ t ω, 0 ≤ a t ω) (ha1 : ∀ t ω, a t ω ≤ 1)
    (hac : ∀ t ω, a t ω ≤ c t) (ham : ∀ t, Measurable[ℱ (t + i)] (a t)) :
    ∀ᵐ ω ∂μ, ∃ S, Tendsto (fun T => ∑ k ∈ Finset.range T, a k ω * (pathRet rew stop gamma (fun t => z t ω) (fun t => x t ω) (v k ω) N (k + i) - (chainOp q rew stop next gamma)^[N] (v k ω) (z (k + i) ω))) atTop (𝓝 S) := by
  classical
  induction N generalizing i a with
  | zero =>
    refine Eventually.of_forall fun ω => ⟨0, ?_⟩
    simp [pathRet]
  | succ N ih =>
    let V : ℕ → Ω → X → ℝ := fun k ω => (chainOp q rew stop next gamma)^[N] (v k ω)
    let Z : X → ℕ → Ω → J → ℝ := fun p k ω j => rew p j + if stop p j then 0 else gamma * V k ω (next p j)
    let a' : ℕ → Ω → ℝ := fun k ω => a k ω * (if stop (z (k + i) ω) (x (k + i) ω) then 0 else gamma)
    have up : ∀ {t} {F : Ω → ℝ}, Measurable[ℱ (t + i)] F → Measurable[ℱ (t + (i + 1))] F := fun h => h.mono (ℱ.mono (by omega)) le_rfl
    have hg : ∀ k ω, 0 ≤ (if stop (z (k + i) ω) (x (k + i) ω) then 0 else gamma) ∧ (if stop (z (k + i) ω) (x (k + i) ω) then 0 else gamma) ≤ 1 := by
      intro k ω
      split
      · exact ⟨le_rfl, zero_le_one⟩
      · exact ⟨h0, h1⟩
    have later := ih (i + 1) (fun t p => up (hv t p)) a' (fun t ω => mul_nonneg (ha0 t ω) (hg t ω).1) (fun t ω => mul_le_one₀ (ha1 t ω) (hg t ω).1 (hg t ω).2)
      (fun t ω => (mul_le_of_le_one_right (ha0 t ω) (hg t ω).2).trans (hac t ω)) (fun t => (up (ham t)).mul (h.pair_known (f := fun p j _ => if stop p j then 0 else gamma) (by omega) fun p j => measurable_const))
    let 𝒢 : Filtration ℕ m0 := ⟨fun k => ℱ (k + i), fun _ _ h => ℱ.mono (by omega), fun _ => ℱ.le _⟩
    have first : ∀ p, ∀ᵐ ω ∂μ, ∃ S, Tendsto (fun T => ∑ k ∈ Finset.range T, (if z (k + i) ω = p then a k ω else 0) * (Z p k ω (x (k + i) ω) - ∑ j, q p j * Z p k ω j)) atTop (𝓝 S) := by
      intro p
      refine outcome_noise (ℱ := 𝒢) (q := q p) (a := fun k ω => if z (k + i) ω = p then a k ω else 0) (Z := Z p) (x := fun k => x (k + i)) (c := c) (B := M) (hq0 p) (hq1 p) (fun k ω => ?_) (fun k ω => ?_) (fun k ω => ?_) hc (fun k => ?_) (fun k j => ?_)
        (fun k ω j => ?_) (fun k j => ?_) (fun k j => ?_) hM0
      · split
        · exact ha0 k ω
        · exact le_rfl
      · split
        · exact ha1 k ω
        · exact zero_le_one
      · split
        · exact hac k ω
        · exact (ha0 k ω).trans (hac k ω)
      · exact Measurable.ite (h.z_known (k + i) p) (ham k) measurable_const
      · refine Measurable.const_add ?_ _
        split
        · exact measurable_const
        · exact (chainOp_known (hv k) N _).const_mul _
      · refine (abs_add_le _ _).trans (le_trans (add_le_add (hR _ _) ?_) hRM)
        split
        · simpa using mul_nonneg h0 hM0
        · rw [abs_mul, abs_of_nonneg h0]
          exact mul_le_mul_of_nonneg_left (chainOp_iterate_bound h0 hq0 hq1 hM0 hR hRM (hvM k ω) N _) h0
      · show MeasurableSet[ℱ (k + 1 + i)] _
        rw [show k + 1 + i = k + i + 1 by omega]
        exact h.x_known (k + i) j
      · filter_upwards [h.law (k + i) j] with ω h2 hne
        have h3 : z (k + i) ω = p := by
          by_contra hcon
          exact hne (if_neg hcon)
        rw [← h3]
        exact h2
    filter_upwards [later, ae_all_iff.2 first] with ω ⟨S', hS'⟩ hS
    choose S hS using hS
    refine ⟨∑ p, S p + S', ?_⟩
    have h2 := (tendsto_finsetSum Finset.univ fun p _ => hS p).add hS'
    refine h2.congr fun T => ?_
    rw [Finset.sum_comm, ← Finset.sum_add_distrib]
    refine Finset.sum_congr rfl fun k _ => ?_
    simp only [ite_mul, zero_mul, Finset.sum_ite_eq, Finset.mem_univ, if_true]
    rw [Function.iterate_succ_apply', show k + (i + 1) = k + i + 1 by omega]
    show a k ω * (Z (z (k + i) ω) k ω (x (k + i) ω) - ∑ j, q (z (k + i) ω) j * Z (z (k + i) ω) k ω j) + a k ω * (if stop (z (k + i) ω) (x (k + i) ω) then 0 else gamma) * _ = a k ω * (pathRet rew stop gamma (fun t => z t ω) (fun t => x t ω) (v k ω) (N + 1) (k + i) - ∑ j, q (z (k + i) ω) j * Z (z (k + i) ω) k ω j)
    simp only [pathRet, Z]
    cases hst : stop (z (k + i) ω) (x (k + i) ω) with
    | true => simp
    | false =>
      rw [h.goes _ _ hst]
      simp only [Bool.false_eq_true, if_false, V]
      ring

end

/-! ### Learning -/

/-- The entry of the cell at time `t` is moved by update `t` towards the return of `N` steps, in which the value of the cell that is reached is `boot` of the lagging copy. -/
structure Stepped [Fintype J] (μ : Measure Ω) (ℱ : Filtration ℕ m0) (q rew : X → J → ℝ) (stop : X → J → Bool) (next : X → J → X) (z : ℕ → Ω → X) (x : ℕ → Ω → J) (N : ℕ) (boot : (X → ℝ) → X → ℝ) (b : ℕ → X → Ω → ℝ) (f g : ℕ → Ω → X → ℝ)
    (lr tau : ℕ → ℝ) (gamma : ℝ) : Prop where
  chain : Chain μ ℱ q stop next z x
  q_nonneg : ∀ p j, 0 ≤ q p j
  q_total : ∀ p, ∑ j, q p j = 1
  close : ∀ (q1 q2 : X → ℝ) M, (∀ p, |q1 p - q2 p| ≤ M) → ∀ p, |boot q1 p - boot q2 p| ≤ M
  init : ∃ f0 g0, ∀ ω, f 0 ω = f0 ∧ g 0 ω = g0
  move : ∀ t ω p, f (t + 1) ω p = f t ω p + b t p ω * (pathRet rew stop gamma (fun t => z t ω) (fun t => x t ω) (boot (g t ω)) N t - f t ω p)
  sync : ∀ t ω p, g (t + 1) ω p = (1 - tau t) * g t ω p + tau t * f (t + 1) ω p
  b_nonneg : ∀ t p ω, 0 ≤ b t p ω
  b_le : ∀ t p ω, b t p ω ≤ 1
  b_lr : ∀ t p ω, b t p ω ≤ 10 * lr t
  b_known : ∀ t p, Measurable[ℱ t] (b t p)
  b_at : ∀ t p ω, b t p ω ≠ 0 → z t ω = p
  lr_nonneg : ∀ k, 0 ≤ lr k
  antitone : Antitone lr
  squares : Summable fun k => lr k ^ 2
  tau_nonneg : ∀ k, 0 ≤ tau k
  tau_le : ∀ k, tau k ≤ 1

section
variable [Fintype X] [Fintype J] {N : ℕ} {boot : (X → ℝ) → X → ℝ} {b : ℕ → X → Ω → ℝ} {f g : ℕ → Ω → X → ℝ} {lr tau : ℕ → ℝ}

theorem Stepped.bounded (h : Stepped μ ℱ q rew stop next z x N boot b f g lr tau gamma) (h0 : 0 ≤ gamma) (h1 : gamma < 1) (hN : 0 < N) :
    ∃ M R, 0 ≤ M ∧ (∀ p j, |rew p j| ≤ R) ∧ R + gamma * M ≤ M ∧ (∀ t ω, (∀ p, |f t ω p| ≤ M) ∧ ∀ p, |g t ω p| ≤ M) ∧ ∀ t ω p, |boot (g t ω) p| ≤ M := by
  obtain ⟨f0, g0, hi⟩ := h.init
  obtain ⟨R, hR⟩ := (Set.finite_range fun y : X × J => |rew y.1 y.2|).bddAbove
  have hR : ∀ p j, |rew p j| ≤ R := fun p j => hR ⟨(p, j), rfl⟩
  obtain ⟨K, hK⟩ := (Set.finite_range fun p : X => |boot 0 p|).bddAbove
  have hK : ∀ p, |boot 0 p| ≤ max K 0 := fun p => (hK ⟨p, rfl⟩).trans (le_max_left _ _)
  generalize hK' : max K 0 = K' at hK
  have hK0 : 0 ≤ K' := hK' ▸ le_max_right _ _
  obtain ⟨C, hC⟩ := (Set.finite_range fun p : X => max |f0 p| |g0 p|).bddAbove
  have hC : ∀ p, max |f0 p| |g0 p| ≤ C := fun p => hC ⟨p, rfl⟩
  obtain ⟨M, hMC0, hMK0⟩ : ∃ M, max C 0 ≤ M ∧ (R + gamma * K') / (1 - gamma) ≤ M := ⟨_, le_max_left _ _, le_max_right _ _⟩
  have hM0 : 0 ≤ M := (le_max_right C 0).trans hMC0
  have hMC : C ≤ M := (le_max_left C 0).trans hMC0
  have hMK : R + gamma * (M + K') ≤ M := by
    rw [div_le_iff₀ (by linarith)] at hMK0
    linarith
  have hboot : ∀ v : X → ℝ, (∀ p, |v p| ≤ M) → ∀ p, |boot v p| ≤ M + K' := by
    intro v hv p
    have h2 := h.close v 0 M (by simpa using hv) p
    have h3 : boot v p = (boot v p - boot 0 p) + boot 0 p := by ring
    rw [h3]
    exact (abs_add_le _ _).trans (add_le_add h2 (hK p))
  have hret : ∀ v : X → ℝ, (∀ p, |v p| ≤ M) → ∀ ω t, |pathRet rew stop gamma (fun t => z t ω) (fun t => x t ω) (boot v) N t| ≤ M := by
    intro v hv ω t
    obtain ⟨N', rfl⟩ := Nat.exists_eq_succ_of_ne_zero hN.ne'
    simp only [Nat.succ_eq_add_one, pathRet]
    refine (abs_add_le _ _).trans (le_trans (add_le_add (hR _ _) ?_) hMK)
    split
    · simpa using mul_nonneg h0 (by linarith)
    · rw [abs_mul, abs_of_nonneg h0]
      exact mul_le_mul_of_nonneg_left (pathRet_bound h0 (by linarith) hR (by linarith) (hboot v hv) _ _ _ _) h0
  have hbound : ∀ t ω, (∀ p, |f t ω p| ≤ M) ∧ ∀ p, |g t ω p| ≤ M := by
    intro t ω
    induction t with
    | zero =>
      rw [(hi ω).1, (hi ω).2]
      exact ⟨fun p => ((le_max_left _ _).trans (hC p)).trans hMC, fun p => ((le_max_right _ _).trans (hC p)).trans hMC⟩
    | succ t ih =>
      have hf : ∀ p, |f (t + 1) ω p| ≤ M := by
        intro p
        rw [h.move]
        have e1 : ∀ u y w : ℝ, u + w * (y - u) = (1 - w) * u + w * y := fun u y w => by ring
        rw [e1]
        simpa using (abs_mix (z := 0) (A := M) (B := M) (h.b_nonneg t p ω) (h.b_le t p ω) (by simpa using ih.1 p) (by simpa using hret _ ih.2 ω t)).trans (le_of_eq (by ring : _ = M))
      refine ⟨hf, fun p => ?_⟩
      rw [h.sync]
      simpa using (abs_mix (z := 0) (A := M) (B := M) (h.tau_nonneg t) (h.tau_le t) (by simpa using ih.2 p) (by simpa using hf p)).trans (le_of_eq (by ring : _ = M))
  exact ⟨M + K', R, by linarith, hR, by linarith, fun t ω => ⟨fun p => ((hbound t ω).1 p).trans (by linarith), fun p => ((hbound t ω).2 p).trans (by linarith)⟩, fun t ω => hboot _ (hbound t ω).2⟩

theorem Stepped.known (h : Stepped μ ℱ q rew stop next z x N boot b f g lr tau gamma) :
    (∀ p, Measurable fun v => boot v p) ∧ ∀ t, (∀ p, Measurable[ℱ (t + N)] fun ω => f t ω p) ∧ ∀ p, Measurable[ℱ (t + N)] fun ω => g t ω p := by
  have hB : ∀ p, Measurable fun v => boot v p := by
    intro p
    have : LipschitzWith 1 fun v => boot v p := LipschitzWith.of_dist_le_mul fun v w => by
      rw [Real.dist_eq, NNReal.coe_one, one_mul]
      exact h.close v w _ (fun p => by rw [← Real.dist_eq]; exact dist_le_pi_dist v w p) p
    exact this.continuous.measurable
  obtain ⟨f0, g0, hi⟩ := h.init
  refine ⟨hB, fun t => ?_⟩
  induction t with
  | zero =>
    simp only [(hi _).1, (hi _).2]
    exact ⟨fun p => measurable_const, fun p => measurable_const⟩
  | succ t ih =>
    have up : ∀ {F : Ω → ℝ}, Measurable[ℱ (t + N)] F → Measurable[ℱ (t + 1 + N)] F := fun h => h.mono (ℱ.mono (by omega)) le_rfl
    have hgm : Measurable[ℱ (t + N)] fun ω => g t ω := @measurable_pi_lambda _ _ _ (ℱ (t + N)) _ _ ih.2
    have hf : ∀ p, Measurable[ℱ (t + 1 + N)] fun ω => f (t + 1) ω p := fun p => by
      simp only [h.move]
      exact (up (ih.1 p)).add (((h.b_known t p).mono (ℱ.mono (by omega)) le_rfl).mul ((h.chain.pathRet_known (fun p => up ((hB p).comp hgm)) N t (by omega)).sub (up (ih.1 p))))
    refine ⟨hf, fun p => ?_⟩
    simp only [h.sync]
    exact ((up (ih.2 p)).const_mul _).add ((hf p).const_mul _)

theorem Stepped.converges [IsProbabilityMeasure μ] (h : Stepped μ ℱ q rew stop next z x N boot b f g lr tau gamma) (h0 : 0 ≤ gamma) (h1 : gamma < 1) (hN : 0 < N) {star : X → ℝ} (hstar : ∀ p, (chainOp q rew stop next gamma)^[N] (boot star) p = star p)
    (hb : ∀ p, ∀ᵐ ω ∂μ, ¬ Summable fun t => b t p ω) (ht : ¬ Summable tau) : ∀ᵐ ω ∂μ, ∀ p, Tendsto (fun t => f t ω p) atTop (𝓝 (star p)) ∧ Tendsto (fun t => g t ω p) atTop (𝓝 (star p)) := by
  obtain ⟨M, R, hM0, hR, hRM, hbound, hboot⟩ := h.bounded h0 h1 hN
  obtain ⟨hB, hmeas⟩ := h.known
  have hsq : Summable fun t => (10 * lr t) ^ 2 := by
    have : (fun t => (10 * lr t) ^ 2) = fun t => 10 ^ 2 * lr t ^ 2 := by funext t; ring
    rw [this]
    exact h.squares.mul_left _
  have noise : ∀ p, ∀ᵐ ω ∂μ, ∃ S, Tendsto (fun T => ∑ k ∈ Finset.range T, b (k + N) p ω * (pathRet rew stop gamma (fun t => z t ω) (fun t => x t ω) (boot (g k ω)) N (k + N) - (chainOp q rew stop next gamma)^[N] (boot (g k ω)) (z (k + N) ω))) atTop (𝓝 S) := fun p =>
    h.chain.noise h0 h1.le h.q_nonneg h.q_total hM0 hR hRM hsq (v := fun k ω => boot (g k ω)) hboot N N (fun t p => (hB p).comp (@measurable_pi_lambda _ _ _ (ℱ (t + N)) _ _ (hmeas t).2)) (fun k => b (k + N) p) (fun k ω => h.b_nonneg _ _ _) (fun k ω => h.b_le _ _ _)
      (fun k ω => (h.b_lr _ _ _).trans (by have := h.antitone (show k ≤ k + N by omega); linarith)) (fun k => h.b_known _ _)
  have hmove : ∀ t ω p, |f (t + 1) ω p - f t ω p| ≤ (20 * M) * lr t := by
    intro t ω p
    rw [h.move, add_sub_cancel_left, abs_mul, abs_of_nonneg (h.b_nonneg t p ω)]
    have h2 : |pathRet rew stop gamma (fun t => z t ω) (fun t => x t ω) (boot (g t ω)) N t - f t ω p| ≤ 2 * M := by
      have h3 := pathRet_bound (stop := stop) h0 hM0 hR hRM (hboot t ω) (fun t => z t ω) (fun t => x t ω) N t
      exact (abs_sub _ _).trans (by linarith [(hbound t ω).1 p])
    calc _ ≤ (10 * lr t) * (2 * M) := mul_le_mul (h.b_lr t p ω) h2 (abs_nonneg _) (mul_nonneg (by norm_num) (h.lr_nonneg t))
      _ = _ := by ring
  filter_upwards [ae_all_iff.2 noise, ae_all_iff.2 hb] with ω hS hv p
  have hmoves : ∀ p, Summable fun t => lr t * |g (t + 1) ω p - g t ω p| := fun p => lag_moves (lr := lr) (tau := tau) (K := 20 * M) (f := fun t => f t ω p) (g := fun t => g t ω p) h.lr_nonneg h.antitone h.squares (by linarith) (fun t => hmove t ω p) h.tau_nonneg h.tau_le fun t => h.sync t ω p
  let P : (X → ℝ) → ℕ → ℝ := fun v t => pathRet rew stop gamma (fun t => z t ω) (fun t => x t ω) (boot v) N t
  let T : (X → ℝ) → X → ℝ := fun v => (chainOp q rew stop next gamma)^[N] (boot v)
  have hTclose : ∀ (v w : X → ℝ) Δ, (∀ p, |v p - w p| ≤ Δ) → ∀ p, |T v p - T w p| ≤ gamma ^ N * Δ := fun v w Δ hΔ p => chainOp_iterate_close h0 h.q_nonneg h.q_total (h.close v w Δ hΔ) N p
  have hgN : gamma ^ N ≤ gamma := pow_le_of_le_one h0 h1.le hN.ne'
  have hd : ∀ p, ∃ S, Tendsto (fun t => ∑ k ∈ Finset.range t, b k p ω * (P (g k ω) k - T (g k ω) p)) atTop (𝓝 S) := by
    intro p
    have at' : ∀ k v, b k p ω * (P v k - T v (z k ω)) = b k p ω * (P v k - T v p) := by
      intro k v
      by_cases hz : b k p ω = 0
      · rw [hz, zero_mul, zero_mul]
      · rw [h.b_at k p ω hz]
    refine lagged_partial_sums (r := N) (x := fun k => b (k + N) p ω * (P (g k ω) (k + N) - T (g k ω) p)) (y := fun k => b (k + N) p ω * ((P (g (k + N) ω) (k + N) - P (g k ω) (k + N)) - (T (g (k + N) ω) p - T (g k ω) p))) (fun k => ?_) ?_ ?_
    · have e2 : ∀ v A A' C C' : ℝ, v * (A' - C') = v * (A - C) + v * ((A' - A) - (C' - C)) := fun v A A' C C' => by ring
      exact e2 _ _ _ _ _
    · obtain ⟨S, hS⟩ := hS p
      refine ⟨S, hS.congr fun T => Finset.sum_congr rfl fun k _ => ?_⟩
      exact at' (k + N) (g k ω)
    · have hsh : ∀ p u, Summable fun k => lr (k + u) * |g (k + u + 1) ω p - g (k + u) ω p| := fun p u => (summable_nat_add_iff u).2 (hmoves p)
      have hsum1 : Summable fun k => ∑ p : X, ∑ u ∈ Finset.range N, lr (k + u) * |g (k + u + 1) ω p - g (k + u) ω p| := summable_sum fun p _ => summable_sum fun u _ => hsh p u
      refine Summable.of_norm_bounded (hsum1.mul_left 20) fun k => ?_
      rw [Real.norm_eq_abs, abs_mul, abs_of_nonneg (h.b_nonneg _ _ _)]
      obtain ⟨Δ, hΔe⟩ : ∃ Δ : ℝ, Δ = ∑ p : X, |g (k + N) ω p - g k ω p| := ⟨_, rfl⟩
      have hΔ : ∀ p, |g (k + N) ω p - g k ω p| ≤ Δ := fun p => by
        rw [hΔe]
        exact Finset.single_le_sum (f := fun p => |g (k + N) ω p - g k ω p|) (fun p _ => abs_nonneg _) (Finset.mem_univ p)
      have hΔ0 : 0 ≤ Δ := (abs_nonneg _).trans (hΔ p)
      have h2 : |P (g (k + N) ω) (k + N) - P (g k ω) (k + N)| ≤ Δ := pathRet_close h0 h1.le (h.close _ _ Δ hΔ) _ _ _ _
      have h3 := hTclose _ _ Δ hΔ p
      have h4 : |(P (g (k + N) ω) (k + N) - P (g k ω) (k + N)) - (T (g (k + N) ω) p - T (g k ω) p)| ≤ 2 * Δ := by
        have h5 : gamma ^ N * Δ ≤ Δ := mul_le_of_le_one_left hΔ0 (hgN.trans h1.le)
        exact (abs_sub _ _).trans (by linarith)
      have h5 : lr (k + N) * Δ ≤ ∑ p : X, ∑ u ∈ Finset.range N, lr (k + u) * |g (k + u + 1) ω p - g (k + u) ω p| := by
        rw [hΔe, Finset.mul_sum]
        refine Finset.sum_le_sum fun p _ => ?_
        refine (mul_le_mul_of_nonneg_left (abs_telescope (fun t => g t ω p) k N) (h.lr_nonneg _)).trans ?_
        rw [Finset.mul_sum]
        refine Finset.sum_le_sum fun u hu => mul_le_mul_of_nonneg_right (h.antitone ?_) (abs_nonneg _)
        have := Finset.mem_range.1 hu
        omega
      calc _ ≤ (10 * lr (k + N)) * (2 * Δ) := mul_le_mul (h.b_lr _ _ _) h4 (abs_nonneg _) (mul_nonneg (by norm_num) (h.lr_nonneg _))
        _ = 20 * (lr (k + N) * Δ) := by ring
        _ ≤ _ := mul_le_mul_of_nonneg_left h5 (by norm_num)
  have hNoisy : Noisy T (fun t p => f t ω p) (fun t p => g t ω p) (fun t p => b t p ω) (fun t p => b t p ω * (P (g t ω) t - T (g t ω) p)) tau := by
    refine ⟨fun t p => h.b_nonneg t p ω, fun t p => h.b_le t p ω, fun t p => ?_, h.tau_nonneg, h.tau_le, fun t p => h.sync t ω p⟩
    rw [h.move]
    show f t ω p + b t p ω * (P (g t ω) t - f t ω p) = _
    ring
  have hT : Attracts T star gamma := by
    intro v M' hM' p
    have h2 := hTclose v star M' hM' p
    rw [show T star p = star p from hstar p] at h2
    exact h2.trans (mul_le_mul_of_nonneg_right hgN ((abs_nonneg _).trans (hM' p)))
  obtain ⟨S, hS'⟩ := (Set.finite_range fun p : X => |star p|).bddAbove
  have hS' : ∀ p, |star p| ≤ S := fun p => hS' ⟨p, rfl⟩
  exact hNoisy.converges hT h0 h1 hv ht hd (M := M + S) (fun t p => ⟨(abs_sub _ _).trans (add_le_add ((hbound t ω).1 p) (hS' p)), (abs_sub _ _).trans (add_le_add ((hbound t ω).2 p) (hS' p))⟩) p

end

end Coax.Loop
