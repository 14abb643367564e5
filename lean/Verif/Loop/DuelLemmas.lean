import Verif.Loop.ProcessLemmas
import Mathlib.Analysis.PSeries

/-! Stochastic approximation by two learners with common targets, one of which is moved in each step, chosen by a fair coin. -/

namespace Coax.Loop

open Filter Topology MeasureTheory

variable {X J Ω : Type _} {m0 : MeasurableSpace Ω}

/-- Learning rates that hardly differ at times that hardly differ. -/
def Steady (lr : ℕ → ℝ) : Prop :=
  ∀ u v : ℕ → ℕ, Tendsto u atTop atTop → Tendsto v atTop atTop → Tendsto (fun t => (u t : ℝ) / v t) atTop (𝓝 1) → Tendsto (fun t => lr (u t) / lr (v t)) atTop (𝓝 1)

/-- How often the coin has shown `i` before time `t`. -/
def chosen (coin : ℕ → Ω → Bool) (i : Bool) (t : ℕ) (ω : Ω) : ℕ := ∑ k ∈ Finset.range t, if coin k ω = i then 1 else 0

/-- Entry `p` of the learner that the coin shows is moved towards the target for the outcome, with the next of its own learning rates. -/
structure Duel [Fintype J] (μ : Measure Ω) (ℱ : Filtration ℕ m0) (prob : X → J → ℝ) (f g : Bool → ℕ → Ω → X → ℝ) (lr : ℕ → ℝ) (v : ℕ → X → Ω → ℝ) (Y : ℕ → Ω → X → J → ℝ) (coin : ℕ → Ω → Bool) (out : ℕ → Ω → J) (tau : ℕ → ℝ) (B : ℝ) : Prop where
  prob_nonneg : ∀ p j, 0 ≤ prob p j
  prob_total : ∀ p, ∑ j, prob p j = 1
  move : ∀ i t ω p, f i (t + 1) ω p = if coin t ω = i then f i t ω p + lr (chosen coin i t ω) * v t p ω * (Y t ω p (out t ω) - f i t ω p) else f i t ω p
  sync : ∀ i t ω p, g i (t + 1) ω p = (1 - tau t) * g i t ω p + tau t * f i (t + 1) ω p
  v_nonneg : ∀ t p ω, 0 ≤ v t p ω
  v_le : ∀ t p ω, v t p ω ≤ 10
  rate_le : ∀ k t p ω, lr k * v t p ω ≤ 1
  lr_pos : ∀ k, 0 < lr k
  lr_anti : Antitone lr
  squares : Summable fun k => lr k ^ 2
  steady : Steady lr
  v_known : ∀ t p, Measurable[ℱ t] (v t p)
  y_known : ∀ t p j, Measurable[ℱ t] fun ω => Y t ω p j
  f_known : ∀ i t p, Measurable[ℱ t] fun ω => f i t ω p
  y_le : ∀ t ω p j, |Y t ω p j| ≤ B
  f_le : ∀ i t ω p, |f i t ω p| ≤ B
  coin_known : ∀ t i, MeasurableSet[ℱ (t + 1)] {ω | coin t ω = i}
  out_known : ∀ t j, MeasurableSet[ℱ (t + 1)] {ω | out t ω = j}
  law : ∀ t p i j, ∀ᵐ ω ∂μ, v t p ω ≠ 0 → (μ[Set.indicator {ω | (coin t ω, out t ω) = (i, j)} (fun _ => (1 : ℝ)) | ℱ t]) ω = 1 / 2 * prob p j
  fair : ∀ t i, ∀ᵐ ω ∂μ, (μ[Set.indicator {ω | coin t ω = i} (fun _ => (1 : ℝ)) | ℱ t]) ω = 1 / 2
  visits : ∀ p, ∀ᵐ ω ∂μ, ¬ Summable fun t => lr t * v t p ω
  tau_nonneg : ∀ t, 0 ≤ tau t
  tau_le : ∀ t, tau t ≤ 1
  syncs : ¬ Summable tau

theorem chosen_le (coin : ℕ → Ω → Bool) (i : Bool) (t : ℕ) (ω : Ω) : chosen coin i t ω ≤ t := by
  unfold chosen
  calc _ ≤ ∑ _k ∈ Finset.range t, 1 := Finset.sum_le_sum fun k _ => by split <;> simp
    _ = t := by simp

/-- The sum of what has been moved by an average with a decreasing error and with noise. -/
theorem averaging_both {x a h d : ℕ → ℝ} (ha0 : ∀ t, 0 ≤ a t) (ha1 : ∀ t, a t ≤ 1) (hs : ¬ Summable a) (hx : ∀ t, x (t + 1) = (1 - a t) * x t + a t * h t + d t) (hh : Tendsto h atTop (𝓝 0)) {S : ℝ}
    (hS : Tendsto (fun t => ∑ k ∈ Finset.range t, d k) atTop (𝓝 S)) : Tendsto x atTop (𝓝 0) := by
  let y : ℕ → ℝ := fun t => Nat.rec 0 (fun t y => (1 - a t) * y + a t * h t) t
  have h1 : Tendsto y atTop (𝓝 0) := averaging_zero ha0 ha1 hs (fun t => rfl) hh
  have h2 := averaging_noise (x := fun t => x t - y t) (d := d) ha0 ha1 hs (fun t => by
    show x (t + 1) - ((1 - a t) * y t + a t * h t) = _
    rw [hx]; ring) hS
  simpa using h2.add h1

theorem summable_div4 {F : ℕ → ℝ} (h0 : ∀ k, 0 ≤ F k) (hs : Summable F) : Summable fun t : ℕ => F (t / 4) := by
  have e : ∀ n, ∑ t ∈ Finset.range (4 * n), F (t / 4) = 4 * ∑ k ∈ Finset.range n, F k := by
    intro n
    induction n with
    | zero => simp
    | succ n ih =>
      rw [show 4 * (n + 1) = 4 * n + 1 + 1 + 1 + 1 by ring, Finset.sum_range_succ, Finset.sum_range_succ, Finset.sum_range_succ, Finset.sum_range_succ, ih, Finset.sum_range_succ,
        show (4 * n) / 4 = n by omega, show (4 * n + 1) / 4 = n by omega, show (4 * n + 1 + 1) / 4 = n by omega, show (4 * n + 1 + 1 + 1) / 4 = n by omega]
      ring
  refine summable_of_sum_range_le (c := 4 * ∑' k, F k) (fun t => h0 _) fun n => ?_
  calc _ ≤ ∑ t ∈ Finset.range (4 * n), F (t / 4) := Finset.sum_le_sum_of_subset_of_nonneg (fun x hx => by
          rw [Finset.mem_range] at hx ⊢
          omega) fun t _ _ => h0 _
    _ = 4 * ∑ k ∈ Finset.range n, F k := e n
    _ ≤ _ := mul_le_mul_of_nonneg_left (hs.sum_le_tsum _ fun k _ => h0 k) (by norm_num)

variable [Fintype J] {μ : Measure Ω} {ℱ : Filtration ℕ m0} {prob : X → J → ℝ} {f g : Bool → ℕ → Ω → X → ℝ} {lr : ℕ → ℝ} {v : ℕ → X → Ω → ℝ} {Y : ℕ → Ω → X → J → ℝ} {coin : ℕ → Ω → Bool} {out : ℕ → Ω → J} {tau : ℕ → ℝ} {B : ℝ}

/-- A fair coin shows each side half of the time. -/
theorem chosen_half [IsProbabilityMeasure μ] (hc : ∀ t i, MeasurableSet[ℱ (t + 1)] {ω | coin t ω = i}) (hf : ∀ t i, ∀ᵐ ω ∂μ, (μ[Set.indicator {ω | coin t ω = i} (fun _ => (1 : ℝ)) | ℱ t]) ω = 1 / 2) (i : Bool) :
    ∀ᵐ ω ∂μ, Tendsto (fun t => (chosen coin i t ω : ℝ) / t) atTop (𝓝 (1 / 2)) := by
  have hn := outcome_noise (μ := μ) (ℱ := ℱ) (B := 1) (q := fun _ : Bool => 1 / 2) (a := fun t _ => 1 / ((t : ℝ) + 1)) (c := fun t => 1 / ((t : ℝ) + 1)) (Z := fun _ _ j => if j = i then 1 else 0) (x := coin)
    (fun _ => by norm_num) (by simp) (fun t _ => by positivity) (fun t _ => by
      rw [div_le_one (by positivity)]
      linarith [(Nat.cast_nonneg t : (0 : ℝ) ≤ t)]) (fun t _ => le_rfl) (by
      have := (summable_nat_add_iff (f := fun n : ℕ => 1 / (n : ℝ) ^ 2) 1).2 (Real.summable_one_div_nat_pow.2 (by norm_num))
      simpa [div_pow] using this) (fun _ => measurable_const) (fun _ _ => measurable_const) (fun _ _ j => by split <;> simp) hc (fun t j => by
      filter_upwards [hf t j] with ω h _
      exact h) zero_le_one
  filter_upwards [hn] with ω ⟨S, hS⟩
  have hns : ¬ Summable fun t : ℕ => 1 / ((t : ℝ) + 1) := by
    intro h
    have h2 := (summable_nat_add_iff (f := fun n : ℕ => 1 / (n : ℝ)) 1).1 (by simpa using h)
    exact Real.not_summable_one_div_natCast h2
  have h0 := averaging_noise (x := fun t => (chosen coin i t ω : ℝ) / t - 1 / 2) (a := fun t => 1 / ((t : ℝ) + 1))
    (d := fun t => 1 / ((t : ℝ) + 1) * ((if coin t ω = i then 1 else 0) - ∑ j : Bool, 1 / 2 * (if j = i then 1 else 0))) (fun t => by positivity) (fun t => by
      rw [div_le_one (by positivity)]
      linarith [(Nat.cast_nonneg t : (0 : ℝ) ≤ t)]) hns (fun t => by
      have e1 : (chosen coin i (t + 1) ω : ℝ) = chosen coin i t ω + if coin t ω = i then 1 else 0 := by
        unfold chosen
        rw [Finset.sum_range_succ]
        push_cast
        split <;> simp
      have e2 : ∑ j : Bool, (1 / 2 : ℝ) * (if j = i then 1 else 0) = 1 / 2 := by cases i <;> simp
      rw [e1, e2]
      push_cast
      rcases Nat.eq_zero_or_pos t with rfl | ht
      · simp [chosen]
      · have : (0 : ℝ) < t := by exact_mod_cast ht
        field_simp
        ring) hS
  refine (by simpa only [zero_add] using h0.add_const (1 / 2) : Tendsto _ atTop (𝓝 (1 / 2 : ℝ))).congr fun t => ?_
  ring

/-- Half of the rate by which an entry of learner `i` is moved if the coin shows `i`. -/
noncomputable def rate (lr : ℕ → ℝ) (v : ℕ → X → Ω → ℝ) (coin : ℕ → Ω → Bool) (i : Bool) (t : ℕ) (p : X) (ω : Ω) : ℝ := lr (chosen coin i t ω) * v t p ω / 2

/-- By how much an entry is moved, relative to the rate. -/
def moveBy (f : Bool → ℕ → Ω → X → ℝ) (Y : ℕ → Ω → X → J → ℝ) (i : Bool) (t : ℕ) (ω : Ω) (p : X) (x : Bool × J) : ℝ := if x.1 = i then 2 * (Y t ω p x.2 - f i t ω p) else 0

/-- The noise. -/
noncomputable def moveNoise (prob : X → J → ℝ) (f : Bool → ℕ → Ω → X → ℝ) (lr : ℕ → ℝ) (v : ℕ → X → Ω → ℝ) (Y : ℕ → Ω → X → J → ℝ) (coin : ℕ → Ω → Bool) (out : ℕ → Ω → J) (i : Bool) (t : ℕ) (p : X) (ω : Ω) : ℝ :=
  rate lr v coin i t p ω * (moveBy f Y i t ω p (coin t ω, out t ω) - ∑ x : Bool × J, 1 / 2 * prob p x.2 * moveBy f Y i t ω p x)

theorem moveBy_mean (hp : ∀ p, ∑ j, prob p j = 1) (i : Bool) (t : ℕ) (ω : Ω) (p : X) : ∑ x : Bool × J, 1 / 2 * prob p x.2 * moveBy f Y i t ω p x = ∑ j, prob p j * Y t ω p j - f i t ω p := by
  rw [Fintype.sum_prod_type]
  have e : ∀ c : Bool, ∑ j, 1 / 2 * prob p j * moveBy f Y i t ω p (c, j) = if c = i then ∑ j, prob p j * Y t ω p j - f i t ω p else 0 := by
    intro c
    unfold moveBy
    simp only
    split
    · have : ∀ j, 1 / 2 * prob p j * (2 * (Y t ω p j - f i t ω p)) = prob p j * Y t ω p j - prob p j * f i t ω p := fun j => by ring
      simp only [this, Finset.sum_sub_distrib, ← Finset.sum_mul, hp, one_mul]
    · simp
  simp only [e]
  cases i <;> simp

theorem Duel.step (h : Duel μ ℱ prob f g lr v Y coin out tau B) (i : Bool) (t : ℕ) (ω : Ω) (p : X) :
    f i (t + 1) ω p = f i t ω p + rate lr v coin i t p ω * (∑ j, prob p j * Y t ω p j - f i t ω p) + moveNoise prob f lr v Y coin out i t p ω := by
  unfold moveNoise
  rw [moveBy_mean h.prob_total, h.move]
  unfold rate moveBy
  simp only
  split <;> ring

theorem chosen_known (hc : ∀ t i, MeasurableSet[ℱ (t + 1)] {ω | coin t ω = i}) (i : Bool) (t : ℕ) : Measurable[ℱ t] (chosen coin i t) := by
  unfold chosen
  refine Finset.measurable_fun_sum _ fun k hk => ?_
  have hk := Finset.mem_range.1 hk
  exact Measurable.ite (ℱ.mono (by omega : k + 1 ≤ t) _ (hc k i)) measurable_const measurable_const

theorem Duel.noise [IsProbabilityMeasure μ] (h : Duel μ ℱ prob f g lr v Y coin out tau B) (hB : 0 ≤ B) (i : Bool) (p : X) :
    ∀ᵐ ω ∂μ, ∃ S, Tendsto (fun t => ∑ k ∈ Finset.range t, moveNoise prob f lr v Y coin out i k p ω) atTop (𝓝 S) := by
  classical
  let a : ℕ → Ω → ℝ := fun t ω => if t / 4 ≤ chosen coin i t ω then rate lr v coin i t p ω else 0
  have hr0 : ∀ t ω, 0 ≤ rate lr v coin i t p ω := fun t ω => div_nonneg (mul_nonneg (h.lr_pos _).le (h.v_nonneg _ _ _)) (by norm_num)
  have hr1 : ∀ t ω, rate lr v coin i t p ω ≤ 1 := fun t ω => by
    have := h.rate_le (chosen coin i t ω) t p ω
    unfold rate
    linarith
  have hpm : ∀ t x, Measurable[ℱ t] fun ω => moveBy f Y i t ω p x := by
    intro t x
    unfold moveBy
    split
    · exact ((h.y_known t p x.2).sub (h.f_known i t p)).const_mul _
    · exact measurable_const
  have hpb : ∀ t ω x, |moveBy f Y i t ω p x| ≤ 4 * B := by
    intro t ω x
    unfold moveBy
    split
    · rw [abs_mul, abs_two]
      have := (abs_sub (Y t ω p x.2) (f i t ω p)).trans (add_le_add (h.y_le t ω p x.2) (h.f_le i t ω p))
      linarith
    · simpa using hB
  have hsum4 : Summable fun t : ℕ => (10 * lr (t / 4)) ^ 2 := by
    have h4 : Summable fun t : ℕ => lr (t / 4) ^ 2 := by
      exact summable_div4 (fun k => sq_nonneg _) h.squares
    have e : (fun t : ℕ => (10 * lr (t / 4)) ^ 2) = fun t => 10 ^ 2 * lr (t / 4) ^ 2 := by funext t; ring
    rw [e]
    exact h4.mul_left _
  have hn := outcome_noise (μ := μ) (ℱ := ℱ) (B := 4 * B) (q := fun x : Bool × J => 1 / 2 * prob p x.2) (a := a) (c := fun t => 10 * lr (t / 4)) (Z := fun t ω x => moveBy f Y i t ω p x) (x := fun t ω => (coin t ω, out t ω))
    (fun x => mul_nonneg (by norm_num) (h.prob_nonneg _ _)) (by
      rw [Fintype.sum_prod_type]
      simp only [← Finset.mul_sum, h.prob_total]
      simp) (fun t ω => by
      simp only [a]
      split
      · exact hr0 t ω
      · exact le_rfl) (fun t ω => by
      simp only [a]
      split
      · exact hr1 t ω
      · exact zero_le_one) (fun t ω => by
      simp only [a]
      split
      · next hh =>
        have h1 := h.lr_anti hh
        have h2 := h.v_le t p ω
        have h3 := mul_le_mul h1 h2 (h.v_nonneg t p ω) (h.lr_pos _).le
        have h4 := h.lr_pos (t / 4)
        unfold rate
        linarith
      · exact mul_nonneg (by norm_num) (h.lr_pos _).le) hsum4 (fun t => by
      refine Measurable.ite ?_ ?_ measurable_const
      · exact measurableSet_le measurable_const (chosen_known h.coin_known i t)
      · unfold rate
        exact (((measurable_from_nat (f := lr)).comp (chosen_known h.coin_known i t)).mul (h.v_known t p)).div_const _) hpm hpb (fun t x => by
      have : {ω | (coin t ω, out t ω) = x} = {ω | coin t ω = x.1} ∩ {ω | out t ω = x.2} := by
        ext ω
        simp [Prod.ext_iff]
      rw [this]
      exact (h.coin_known t x.1).inter (h.out_known t x.2)) (fun t x => by
      filter_upwards [h.law t p x.1 x.2] with ω h1 h2
      refine h1 fun h3 => h2 ?_
      simp [a, rate, h3]) (by linarith)
  filter_upwards [hn, chosen_half h.coin_known h.fair i] with ω ⟨S, hS⟩ hh
  have hev : ∀ᶠ t : ℕ in atTop, t / 4 ≤ chosen coin i t ω := by
    filter_upwards [hh.eventually (lt_mem_nhds (by norm_num : (1 / 4 : ℝ) < 1 / 2)), eventually_gt_atTop 0] with t h1 h2
    have h3 : (0 : ℝ) < t := by exact_mod_cast h2
    rw [lt_div_iff₀ h3] at h1
    have h4 : (t : ℝ) < 4 * chosen coin i t ω := by linarith
    have h5 : t < 4 * chosen coin i t ω := by exact_mod_cast h4
    omega
  obtain ⟨T, hT⟩ := eventually_atTop.1 hev
  have e : ∀ t, ∑ k ∈ Finset.range (T + t), moveNoise prob f lr v Y coin out i k p ω
      = (∑ k ∈ Finset.range (T + t), a k ω * (moveBy f Y i k ω p (coin k ω, out k ω) - ∑ x : Bool × J, 1 / 2 * prob p x.2 * moveBy f Y i k ω p x))
        + (∑ k ∈ Finset.range T, moveNoise prob f lr v Y coin out i k p ω - ∑ k ∈ Finset.range T, a k ω * (moveBy f Y i k ω p (coin k ω, out k ω) - ∑ x : Bool × J, 1 / 2 * prob p x.2 * moveBy f Y i k ω p x)) := by
    intro t
    induction t with
    | zero => simp
    | succ t ih =>
      rw [← Nat.add_assoc, Finset.sum_range_succ, ih, Finset.sum_range_succ (fun k => a k ω * _)]
      have : a (T + t) ω = rate lr v coin i (T + t) p ω := by simp only [a]; rw [if_pos (hT _ (by omega))]
      rw [this]
      unfold moveNoise
      ring
  refine ⟨S + (∑ k ∈ Finset.range T, moveNoise prob f lr v Y coin out i k p ω - ∑ k ∈ Finset.range T, a k ω * (moveBy f Y i k ω p (coin k ω, out k ω) - ∑ x : Bool × J, 1 / 2 * prob p x.2 * moveBy f Y i k ω p x)),
    (tendsto_add_atTop_iff_nat T).1 ?_⟩
  · have h2 := (hS.comp (tendsto_add_atTop_nat T)).add_const
      (∑ k ∈ Finset.range T, moveNoise prob f lr v Y coin out i k p ω - ∑ k ∈ Finset.range T, a k ω * (moveBy f Y i k ω p (coin k ω, out k ω) - ∑ x : Bool × J, 1 / 2 * prob p x.2 * moveBy f Y i k ω p x))
    refine h2.congr fun t => ?_
    rw [Nat.add_comm t T, e t]
    simp only [Function.comp_apply]
    rw [Nat.add_comm t T]

theorem chosen_atTop {N : ℕ → ℕ} (h : Tendsto (fun t => (N t : ℝ) / t) atTop (𝓝 (1 / 2))) : Tendsto N atTop atTop := by
  rw [tendsto_atTop]
  intro b
  filter_upwards [h.eventually (lt_mem_nhds (by norm_num : (1 / 4 : ℝ) < 1 / 2)), eventually_ge_atTop (4 * b + 1)] with t h1 h2
  have h3 : (0 : ℝ) < t := by exact_mod_cast (by omega : 0 < t)
  rw [lt_div_iff₀ h3] at h1
  have h4 : (t : ℝ) < 4 * N t := by linarith
  have h5 : t < 4 * N t := by exact_mod_cast h4
  omega

theorem Duel.rates_not_summable (h : Duel μ ℱ prob f g lr v Y coin out tau B) {ω : Ω} {p : X} (hv : ¬ Summable fun t => lr t * v t p ω) (i : Bool) : ¬ Summable fun t => rate lr v coin i t p ω := by
  intro hs
  refine hv (Summable.of_nonneg_of_le (fun t => mul_nonneg (h.lr_pos t).le (h.v_nonneg t p ω)) (fun t => ?_) (hs.mul_left 2))
  have h1 := mul_le_mul_of_nonneg_right (h.lr_anti (chosen_le coin i t ω)) (h.v_nonneg t p ω)
  unfold rate
  linarith

/-- The two learners come close to each other. -/
theorem Duel.together [IsProbabilityMeasure μ] (h : Duel μ ℱ prob f g lr v Y coin out tau B) (hB : 0 ≤ B) (p : X) : ∀ᵐ ω ∂μ, Tendsto (fun t => f true t ω p - f false t ω p) atTop (𝓝 0) := by
  filter_upwards [h.noise hB true p, h.noise hB false p, h.visits p, chosen_half h.coin_known h.fair true, chosen_half h.coin_known h.fair false] with ω ⟨S1, hS1⟩ ⟨S0, hS0⟩ hv h1 h0
  have hrate0 : ∀ t, 0 ≤ rate lr v coin true t p ω := fun t => div_nonneg (mul_nonneg (h.lr_pos _).le (h.v_nonneg _ _ _)) (by norm_num)
  have hrate1 : ∀ t, rate lr v coin true t p ω ≤ 1 := fun t => by
    have := h.rate_le (chosen coin true t ω) t p ω
    have h2 := hrate0 t
    unfold rate at h2 ⊢
    linarith
  have hq : Tendsto (fun t => lr (chosen coin false t ω) / lr (chosen coin true t ω)) atTop (𝓝 1) := by
    refine h.steady _ _ (chosen_atTop h0) (chosen_atTop h1) ?_
    have h2 := h0.div h1 (by norm_num)
    rw [show (1 / 2 : ℝ) / (1 / 2) = 1 by norm_num] at h2
    refine h2.congr' ?_
    filter_upwards [eventually_gt_atTop 0] with t ht
    have ht : (0 : ℝ) < t := by exact_mod_cast ht
    simp only [Pi.div_apply]
    rw [div_div_div_cancel_right₀ ht.ne']
  have hmean : ∀ t, |∑ j, prob p j * Y t ω p j - f false t ω p| ≤ 2 * B := by
    intro t
    have h3 : |∑ j, prob p j * Y t ω p j| ≤ B := by
      calc _ ≤ ∑ j, |prob p j * Y t ω p j| := Finset.abs_sum_le_sum_abs _ _
        _ ≤ ∑ j, prob p j * B := Finset.sum_le_sum fun j _ => by
            rw [abs_mul, abs_of_nonneg (h.prob_nonneg p j)]
            exact mul_le_mul_of_nonneg_left (h.y_le _ _ _ _) (h.prob_nonneg p j)
        _ = B := by rw [← Finset.sum_mul, h.prob_total, one_mul]
    exact (abs_sub _ _).trans (by linarith [h.f_le false t ω p])
  refine averaging_both (a := fun t => rate lr v coin true t p ω) (h := fun t => (1 - lr (chosen coin false t ω) / lr (chosen coin true t ω)) * (∑ j, prob p j * Y t ω p j - f false t ω p))
    (d := fun t => moveNoise prob f lr v Y coin out true t p ω - moveNoise prob f lr v Y coin out false t p ω) hrate0 hrate1 (h.rates_not_summable hv true) (fun t => ?_) ?_ (S := S1 - S0) ?_
  · rw [h.step, h.step]
    have e : rate lr v coin false t p ω = lr (chosen coin false t ω) / lr (chosen coin true t ω) * rate lr v coin true t p ω := by
      have := (h.lr_pos (chosen coin true t ω)).ne'
      unfold rate
      field_simp
    rw [e]
    ring
  · have hz : Tendsto (fun t => |1 - lr (chosen coin false t ω) / lr (chosen coin true t ω)| * (2 * B)) atTop (𝓝 0) := by
      have h3 := ((hq.const_sub 1).abs).mul_const (2 * B)
      simpa using h3
    refine squeeze_zero_norm (fun t => ?_) hz
    rw [Real.norm_eq_abs, abs_mul]
    exact mul_le_mul_of_nonneg_left (hmean t) (abs_nonneg _)
  · simp only [Finset.sum_sub_distrib]
    exact hS1.sub hS0

/-- Both learners and both lagging copies converge, if the means of the targets come close to an operator that attracts to `fs` as soon as the copies are close to each other. -/
theorem Duel.converges [Finite X] [IsProbabilityMeasure μ] (h : Duel μ ℱ prob f g lr v Y coin out tau B) {T : (X → ℝ) → X → ℝ} {fs : X → ℝ} {gamma : ℝ} (hT : Attracts T fs gamma) (h0 : 0 ≤ gamma) (h1 : gamma < 1) (hB : 0 ≤ B)
    {M : ℝ} (hM : ∀ i t ω p, |f i t ω p - fs p| ≤ M ∧ |g i t ω p - fs p| ≤ M)
    (hr : ∀ ω, (∀ p, Tendsto (fun t => g true t ω p - g false t ω p) atTop (𝓝 0)) → ∀ i p, Tendsto (fun t => ∑ j, prob p j * Y t ω p j - T (g i t ω) p) atTop (𝓝 0)) :
    ∀ᵐ ω ∂μ, ∀ i p, Tendsto (fun t => f i t ω p) atTop (𝓝 (fs p)) ∧ Tendsto (fun t => g i t ω p) atTop (𝓝 (fs p)) := by
  have := Fintype.ofFinite X
  filter_upwards [ae_all_iff.2 fun i => ae_all_iff.2 fun p => h.noise hB i p, ae_all_iff.2 h.visits, ae_all_iff.2 fun p => h.together hB p] with ω hS hv hd i
  have hg : ∀ p, Tendsto (fun t => g true t ω p - g false t ω p) atTop (𝓝 0) := by
    intro p
    refine averaging_zero (a := tau) (h := fun t => f true (t + 1) ω p - f false (t + 1) ω p) h.tau_nonneg h.tau_le h.syncs (fun t => ?_) ((tendsto_add_atTop_iff_nat 1).2 (hd p))
    rw [h.sync, h.sync]
    ring
  have hb0 : ∀ t p, 0 ≤ rate lr v coin i t p ω := fun t p => div_nonneg (mul_nonneg (h.lr_pos _).le (h.v_nonneg _ _ _)) (by norm_num)
  have hN : Noisy T (fun t p => f i t ω p) (fun t p => g i t ω p) (fun t p => rate lr v coin i t p ω)
      (fun t p => moveNoise prob f lr v Y coin out i t p ω + rate lr v coin i t p ω * (∑ j, prob p j * Y t ω p j - T (g i t ω) p)) tau := by
    refine ⟨hb0, fun t p => ?_, fun t p => ?_, h.tau_nonneg, h.tau_le, fun t p => h.sync i t ω p⟩
    · have h2 := h.rate_le (chosen coin i t ω) t p ω
      have h3 := hb0 t p
      unfold rate at h3 ⊢
      linarith
    · rw [h.step]
      ring
  intro p
  exact hN.converges_drift (d := fun t p => moveNoise prob f lr v Y coin out i t p ω) (r := fun t p => ∑ j, prob p j * Y t ω p j - T (g i t ω) p) hT h0 h1 (fun p => h.rates_not_summable (hv p) i) h.syncs (hS i) (hr ω hg i) (fun t p => hM i t ω p) p

end Coax.Loop
