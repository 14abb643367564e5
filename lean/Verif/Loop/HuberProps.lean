import Verif.Loop.HuberLemmas
import Verif.Loop.OnlineTargetProps

/-! Property C129: what is learned with the Huber loss, which is the default loss of the updaters. -/

namespace Coax.Loop

open Coax.RewardTracing Coax.TD Coax.Core Coax.Values Coax.Pol Filter Topology MeasureTheory

variable {σ : Type _} {n m : Nat}

/-! ### Specification -/

/-- Each entry of the table has the least expected Huber loss for the targets that the table itself gives. -/
def Mdp.Robust (e : Mdp σ n m) (gamma delta : ℝ) (boot : σ → (Fin n → ℝ) → ℝ → Prop) (q : σ → Fin n → ℝ) : Prop :=
  ∃ v : σ → ℝ, (∀ s, boot s (q s) (v s)) ∧ ∀ s a y, ∑ j, e.prob s a j * huberSpec delta (q s a - (e.reward s a j + if e.ends s a j then 0 else gamma * v (e.next s a j))) ≤
    ∑ j, e.prob s a j * huberSpec delta (y - (e.reward s a j + if e.ends s a j then 0 else gamma * v (e.next s a j)))

/-- Some possible target of each entry is closer to it than `delta`. -/
def Mdp.NearTarget (e : Mdp σ n m) (gamma delta : ℝ) (boot : σ → (Fin n → ℝ) → ℝ → Prop) (q : σ → Fin n → ℝ) : Prop :=
  ∀ v : σ → ℝ, (∀ s, boot s (q s) (v s)) → ∀ s a, ∃ j, 0 < e.prob s a j ∧ |e.reward s a j + (if e.ends s a j then 0 else gamma * v (e.next s a j)) - q s a| < delta

/-- All possible targets of each entry are within `delta` of it. -/
def Mdp.NearTargets (e : Mdp σ n m) (gamma delta : ℝ) (boot : σ → (Fin n → ℝ) → ℝ → Prop) (q : σ → Fin n → ℝ) : Prop :=
  ∀ v : σ → ℝ, (∀ s, boot s (q s) (v s)) → ∀ s a j, 0 < e.prob s a j → |e.reward s a j + (if e.ends s a j then 0 else gamma * v (e.next s a j)) - q s a| ≤ delta

/-- Larger values of the actions give larger values of states. -/
def Ordered (boot : σ → (Fin n → ℝ) → ℝ → Prop) : Prop := ∀ s r1 r2 x1 x2 c, boot s r1 x1 → boot s r2 x2 → (∀ a, r1 a ≤ r2 a + c) → x1 ≤ x2 + c

/-! ### Values of states -/

theorem ordered_greedy : Ordered (σ := σ) (n := n) Greedy := by
  rintro s r1 r2 x1 x2 c ⟨⟨a, rfl⟩, -⟩ ⟨-, h2⟩ h
  have : r2 a ≤ x2 := h2 ⟨a, rfl⟩
  linarith [h a]

theorem ordered_mean {pi : σ → Fin n → ℝ} (hpi : ∀ s, (∀ a, 0 ≤ pi s a) ∧ ∑ a, pi s a = 1) : Ordered (Mean pi) := by
  intro s r1 r2 x1 x2 c h1 h2 h
  rw [h1, h2]
  calc _ ≤ ∑ a, pi s a * (r2 a + c) := Finset.sum_le_sum fun a _ => mul_le_mul_of_nonneg_left (h a) ((hpi s).1 a)
    _ = _ := by simp only [mul_add, Finset.sum_add_distrib, ← Finset.sum_mul, (hpi s).2, one_mul]

theorem ordered_soft {temp : ℝ} (ht : 0 < temp) : Ordered (σ := σ) (n := n) (Soft temp) := by
  intro s r1 r2 x1 x2 c h1 h2 h
  have : Real.exp (x1 / temp) ≤ Real.exp ((x2 + c) / temp) := by
    rw [add_div, Real.exp_add, h1, h2, Finset.sum_mul]
    refine Finset.sum_le_sum fun a _ => ?_
    rw [← Real.exp_add, ← add_div]
    exact Real.exp_le_exp.2 (div_le_div_of_nonneg_right (h a) ht.le)
  exact (div_le_div_iff_of_pos_right ht).1 (Real.exp_le_exp.1 this)

theorem probs_law (hn : 0 < n) (logits : σ → Fin n → ℝ) (s : σ) : (∀ a, 0 ≤ probs logits s a) ∧ ∑ a, probs logits s a = 1 := by
  have hpos : 0 < ∑ b, Real.exp (logits s b) := Finset.sum_pos (fun _ _ => Real.exp_pos _) ⟨⟨0, hn⟩, Finset.mem_univ _⟩
  refine ⟨fun a => div_nonneg (Real.exp_pos _).le hpos.le, ?_⟩
  unfold probs
  rw [← Finset.sum_div, div_self hpos.ne']

/-! ### The equation -/

theorem goal_mono {boot : σ → (Fin n → ℝ) → ℝ → Prop} (ho : Ordered boot) {val : σ → (Fin n → ℝ) → ℝ} (hval : ∀ s row, boot s row (val s row)) {e : Mdp σ n m} {gamma : ℝ} (h0 : 0 ≤ gamma)
    (q q' : σ × Fin n → ℝ) (c : ℝ) (hc : 0 ≤ c) (h : ∀ p, q p ≤ q' p + c) (p : σ × Fin n) (j : Fin m) : e.goal gamma val q p j ≤ e.goal gamma val q' p j + gamma * c := by
  unfold Mdp.goal
  split
  · linarith [mul_nonneg h0 hc]
  · have := mul_le_mul_of_nonneg_left (ho (e.next p.1 p.2 j) _ _ _ _ c (hval _ fun b => q (e.next p.1 p.2 j, b)) (hval _ fun b => q' (e.next p.1 p.2 j, b)) fun a => h _) h0
    linarith

theorem Ordered.unique {boot : σ → (Fin n → ℝ) → ℝ → Prop} (ho : Ordered boot) {s : σ} {row : Fin n → ℝ} {x y : ℝ} (hx : boot s row x) (hy : boot s row y) : x = y := by
  have h1 := ho s row row x y 0 hx hy (by simp)
  have h2 := ho s row row y x 0 hy hx (by simp)
  linarith

theorem robust_iff {boot : σ → (Fin n → ℝ) → ℝ → Prop} (ho : Ordered boot) {val : σ → (Fin n → ℝ) → ℝ} (hval : ∀ s row, boot s row (val s row)) {e : Mdp σ n m} (he : e.Proper) {gamma delta : ℝ} (hd : 0 < delta) (q : σ → Fin n → ℝ) :
    e.Robust gamma delta boot q ↔ ∀ p : σ × Fin n, tilt delta (e.prob p.1 p.2) (e.goal gamma val (fun p => q p.1 p.2) p) (q p.1 p.2) = 0 := by
  constructor
  · rintro ⟨v, h1, h2⟩ p
    obtain rfl : v = fun s => val s (q s) := funext fun s => ho.unique (h1 s) (hval _ _)
    exact (tilt_least hd (he.nonneg _ _) _ _).1 fun y => h2 p.1 p.2 y
  · intro h
    exact ⟨fun s => val s (q s), fun s => hval _ _, fun s a y => (tilt_least hd (he.nonneg _ _) _ _).2 (h (s, a)) y⟩

/-- A table is the only solution if its errors have no other balance. -/
theorem tilt_unique [Finite σ] {boot : σ → (Fin n → ℝ) → ℝ → Prop} (ho : Ordered boot) {val : σ → (Fin n → ℝ) → ℝ} (hval : ∀ s row, boot s row (val s row)) {e : Mdp σ n m} (he : e.Proper) {gamma delta : ℝ} (hd : 0 < delta) (h0 : 0 ≤ gamma) (h1 : gamma < 1)
    {q : σ × Fin n → ℝ} (hup : ∀ p y, q p < y → tilt delta (e.prob p.1 p.2) (e.goal gamma val q p) y < 0) (hlow : ∀ p y, y < q p → 0 < tilt delta (e.prob p.1 p.2) (e.goal gamma val q p) y)
    {q' : σ × Fin n → ℝ} (hq' : ∀ p, tilt delta (e.prob p.1 p.2) (e.goal gamma val q' p) (q' p) = 0) : q' = q := by
  have := Fintype.ofFinite σ
  by_contra hne
  obtain ⟨p0, hp0⟩ := Function.ne_iff.1 hne
  obtain ⟨p, -, hp⟩ := Finset.exists_max_image Finset.univ (fun p => |q' p - q p|) ⟨p0, Finset.mem_univ _⟩
  set D := |q' p - q p| with hD
  have hD0 : 0 < D := lt_of_lt_of_le (abs_pos.2 (sub_ne_zero.2 hp0)) (hp p0 (Finset.mem_univ _))
  have hgD : gamma * D < D := by nlinarith
  have hle : ∀ p, q' p ≤ q p + D := fun p => by linarith [(abs_le.1 (hp p (Finset.mem_univ _))).2]
  have hge : ∀ p, q p ≤ q' p + D := fun p => by linarith [(abs_le.1 (hp p (Finset.mem_univ _))).1]
  rcases le_total 0 (q' p - q p) with h | h
  · have e1 : q' p = q p + D := by rw [hD, abs_of_nonneg h]; ring
    have a1 : tilt delta (e.prob p.1 p.2) (e.goal gamma val q' p) (q' p) ≤ tilt delta (e.prob p.1 p.2) (e.goal gamma val q p) (q' p - gamma * D) :=
      tilt_shift hd (he.nonneg _ _) fun j => by linarith [goal_mono ho hval (e := e) h0 q' q D hD0.le hle p j]
    have a2 := hup p (q' p - gamma * D) (by linarith)
    linarith [hq' p]
  · have e1 : q' p = q p - D := by rw [hD, abs_of_nonpos h]; ring
    have a1 : tilt delta (e.prob p.1 p.2) (e.goal gamma val q p) (q' p + gamma * D) ≤ tilt delta (e.prob p.1 p.2) (e.goal gamma val q' p) (q' p) :=
      tilt_shift hd (he.nonneg _ _) fun j => by linarith [goal_mono ho hval (e := e) h0 q q' D hD0.le hge p j]
    have a2 := hlow p (q' p + gamma * D) (by linarith)
    linarith [hq' p]

theorem limit_lt {delta u v : ℝ} (hd : 0 < delta) (h : u < v) (hv : |v| < delta) : limit delta u < limit delta v := by
  obtain ⟨h1, h2⟩ := abs_lt.1 hv
  unfold limit
  split_ifs <;> linarith

theorem limit_gt {delta u v : ℝ} (hd : 0 < delta) (h : v < u) (hv : |v| < delta) : limit delta v < limit delta u := by
  obtain ⟨h1, h2⟩ := abs_lt.1 hv
  unfold limit
  split_ifs <;> linarith

/-- **C129**: if some possible target of each entry is closer to it than `delta`, then the solution is the only one. -/
theorem C129_unique [Finite σ] {boot : σ → (Fin n → ℝ) → ℝ → Prop} (ho : Ordered boot) (hb : ∀ s row, ∃ x, boot s row x) {e : Mdp σ n m} (he : e.Proper) {gamma delta : ℝ} (hd : 0 < delta) (h0 : 0 ≤ gamma) (h1 : gamma < 1)
    {q : σ → Fin n → ℝ} (hq : e.Robust gamma delta boot q) (hnear : e.NearTarget gamma delta boot q) {q' : σ → Fin n → ℝ} (hq' : e.Robust gamma delta boot q') : q' = q := by
  choose val hval using hb
  have hz := (robust_iff ho hval he hd q).1 hq
  have hnear := hnear (fun s => val s (q s)) fun s => hval _ _
  have := tilt_unique ho hval he hd h0 h1 (q := fun p => q p.1 p.2) (q' := fun p => q' p.1 p.2) (fun p y hy => ?_) (fun p y hy => ?_) ((robust_iff ho hval he hd q').1 hq')
  · funext s a
    exact congrFun this (s, a)
  · rw [← hz p]
    obtain ⟨j, h2, h3⟩ := hnear p.1 p.2
    exact Finset.sum_lt_sum (fun i _ => mul_le_mul_of_nonneg_left (limit_mono hd (by linarith)) (he.nonneg _ _ _)) ⟨j, Finset.mem_univ _, mul_lt_mul_of_pos_left (limit_lt hd (by linarith) h3) h2⟩
  · rw [← hz p]
    obtain ⟨j, h2, h3⟩ := hnear p.1 p.2
    exact Finset.sum_lt_sum (fun i _ => mul_le_mul_of_nonneg_left (limit_mono hd (by linarith)) (he.nonneg _ _ _)) ⟨j, Finset.mem_univ _, mul_lt_mul_of_pos_left (limit_gt hd (by linarith) h3) h2⟩

/-- **C129**: if all possible targets are within `delta`, then the solution of the Bellman equation is what is learned also with the Huber loss. -/
theorem C129_exact_partial [Finite σ] {boot : σ → (Fin n → ℝ) → ℝ → Prop} (ho : Ordered boot) (hb : ∀ s row, ∃ x, boot s row x) {e : Mdp σ n m} (he : e.Proper) {gamma delta : ℝ} (hd : 0 < delta) (h0 : 0 ≤ gamma) (h1 : gamma < 1)
    {q : σ → Fin n → ℝ} (hq : e.Solves gamma boot q) (hnear : e.NearTargets gamma delta boot q) : e.Robust gamma delta boot q ∧ ∀ q', e.Robust gamma delta boot q' → q' = q := by
  choose val hval using hb
  obtain ⟨v, hv, hs⟩ := hq
  obtain rfl : v = fun s => val s (q s) := funext fun s => ho.unique (hv s) (hval _ _)
  have hnear := hnear _ hv
  have herr : ∀ p : σ × Fin n, ∑ j, e.prob p.1 p.2 j * (e.goal gamma val (fun p => q p.1 p.2) p j - q p.1 p.2) = 0 := by
    intro p
    simp only [mul_sub, Finset.sum_sub_distrib, ← Finset.sum_mul, he.total, one_mul]
    rw [hs p.1 p.2, sub_eq_zero]
    rfl
  have hlim : ∀ (p : σ × Fin n) j, e.prob p.1 p.2 j * limit delta (e.goal gamma val (fun p => q p.1 p.2) p j - q p.1 p.2) = e.prob p.1 p.2 j * (e.goal gamma val (fun p => q p.1 p.2) p j - q p.1 p.2) := by
    intro p j
    rcases (he.nonneg p.1 p.2 j).eq_or_lt with h | h
    · rw [← h]; simp
    · have : -delta ≤ e.goal gamma val (fun p => q p.1 p.2) p j - q p.1 p.2 ∧ e.goal gamma val (fun p => q p.1 p.2) p j - q p.1 p.2 ≤ delta := abs_le.1 (hnear p.1 p.2 j h)
      have h2 : limit delta (e.goal gamma val (fun p => q p.1 p.2) p j - q p.1 p.2) = e.goal gamma val (fun p => q p.1 p.2) p j - q p.1 p.2 := by
        unfold limit
        rw [if_neg (not_lt.2 this.2), if_neg (not_lt.2 this.1)]
      rw [h2]
  have hz : ∀ p : σ × Fin n, tilt delta (e.prob p.1 p.2) (e.goal gamma val (fun p => q p.1 p.2) p) (q p.1 p.2) = 0 := by
    intro p
    unfold tilt
    rw [← herr p]
    exact Finset.sum_congr rfl fun j _ => hlim p j
  refine ⟨(robust_iff ho hval he hd q).2 hz, fun q' hq' => ?_⟩
  have := tilt_unique ho hval he hd h0 h1 (q := fun p => q p.1 p.2) (q' := fun p => q' p.1 p.2) (fun p y hy => ?_) (fun p y hy => ?_) ((robust_iff ho hval he hd q').1 hq')
  · funext s a
    exact congrFun this (s, a)
  · rw [← hz p]
    obtain ⟨j, h2, h3⟩ : ∃ j, 0 < e.prob p.1 p.2 j ∧ 0 ≤ e.goal gamma val (fun p => q p.1 p.2) p j - q p.1 p.2 := by
      by_contra hc
      push Not at hc
      obtain ⟨i, hi⟩ : ∃ i, 0 < e.prob p.1 p.2 i := by
        by_contra hc2
        push Not at hc2
        have : ∑ j, e.prob p.1 p.2 j ≤ 0 := Finset.sum_nonpos fun j _ => hc2 j
        rw [he.total] at this
        linarith
      have : ∑ j, e.prob p.1 p.2 j * (e.goal gamma val (fun p => q p.1 p.2) p j - q p.1 p.2) < ∑ _j : Fin m, (0 : ℝ) := by
        refine Finset.sum_lt_sum (fun j _ => ?_) ⟨i, Finset.mem_univ _, mul_neg_of_pos_of_neg hi (hc i hi)⟩
        rcases (he.nonneg p.1 p.2 j).eq_or_lt with h | h
        · rw [← h]; simp
        · exact (mul_neg_of_pos_of_neg h (hc j h)).le
      rw [herr p] at this
      simp at this
    refine Finset.sum_lt_sum (fun i _ => mul_le_mul_of_nonneg_left (limit_mono hd (by linarith)) (he.nonneg _ _ _)) ⟨j, Finset.mem_univ _, mul_lt_mul_of_pos_left ?_ h2⟩
    have h4 := (abs_le.1 (hnear p.1 p.2 j h2)).2
    have h4 : e.goal gamma val (fun p => q p.1 p.2) p j - q p.1 p.2 ≤ delta := h4
    unfold limit
    split_ifs <;> linarith
  · rw [← hz p]
    obtain ⟨j, h2, h3⟩ : ∃ j, 0 < e.prob p.1 p.2 j ∧ e.goal gamma val (fun p => q p.1 p.2) p j - q p.1 p.2 ≤ 0 := by
      by_contra hc
      push Not at hc
      obtain ⟨i, hi⟩ : ∃ i, 0 < e.prob p.1 p.2 i := by
        by_contra hc2
        push Not at hc2
        have : ∑ j, e.prob p.1 p.2 j ≤ 0 := Finset.sum_nonpos fun j _ => hc2 j
        rw [he.total] at this
        linarith
      have : ∑ _j : Fin m, (0 : ℝ) < ∑ j, e.prob p.1 p.2 j * (e.goal gamma val (fun p => q p.1 p.2) p j - q p.1 p.2) := by
        refine Finset.sum_lt_sum (fun j _ => ?_) ⟨i, Finset.mem_univ _, mul_pos hi (hc i hi)⟩
        rcases (he.nonneg p.1 p.2 j).eq_or_lt with h | h
        · rw [← h]; simp
        · exact (mul_pos h (hc j h)).le
      rw [herr p] at this
      simp at this
    refine Finset.sum_lt_sum (fun i _ => mul_le_mul_of_nonneg_left (limit_mono hd (by linarith)) (he.nonneg _ _ _)) ⟨j, Finset.mem_univ _, mul_lt_mul_of_pos_left ?_ h2⟩
    have h4 := (abs_le.1 (hnear p.1 p.2 j h2)).1
    have h4 : -delta ≤ e.goal gamma val (fun p => q p.1 p.2) p j - q p.1 p.2 := h4
    unfold limit
    split_ifs <;> linarith

/-! ### Learning -/

variable [DecidableEq σ]

theorem huber_learns [Fintype σ] {updateRule} {boot : σ → (Fin n → ℝ) → ℝ → Prop} (hr : ∀ type1, Rule updateRule type1 boot) (ho : Ordered boot) (hn : 0 < n) {e : Mdp σ n m} (he : e.Proper) {gamma delta : ℝ} (hd : 0 < delta) (h0 : 0 ≤ gamma) (h1 : gamma < 1) :
    ∃ lo hi, e.Robust gamma delta boot lo ∧ e.Robust gamma delta boot hi ∧ (∀ q, e.Robust gamma delta boot q → ∀ s a, lo s a ≤ q s a ∧ q s a ≤ hi s a) ∧
      ∀ {Ω : Type} {m0 : MeasurableSpace Ω} {μ : Measure Ω} [IsProbabilityMeasure μ] {ℱ : Filtration ℕ m0} {lr tau : ℕ → ℝ} {rows : ℕ → Ω → Out σ (Fin n) ℝ} {out : ℕ → Ω → Fin m}, Samples e gamma μ ℱ rows out → Rates μ rows lr tau →
        ∀ type1 θ0 θT0, ∃ θ θT : ℕ → Ω → σ → Fin n → ℝ,
          (∀ k ω, learnS lr (huber1 delta) updateRule type1 0 (θ0, θT0) ((List.range k).map fun t => ([rows t ω], tau t)) = .ok (θ k ω, θT k ω)) ∧
          ∀ᵐ ω ∂μ, ∀ eps, 0 < eps → ∀ᶠ k in atTop, ∀ s a, (lo s a - eps ≤ θ k ω s a ∧ θ k ω s a ≤ hi s a + eps) ∧ lo s a - eps ≤ θT k ω s a ∧ θT k ω s a ≤ hi s a + eps := by
  choose val hval using (hr false).value
  obtain ⟨lo, hi, hlo, hhi, hbetween⟩ := tilt_solutions (prob := fun p : σ × Fin n => e.prob p.1 p.2) (Y := e.goal gamma val) hd (fun p => he.nonneg _ _) (fun p => he.total _ _) h0 h1 fun q q' c hc h p j => goal_mono ho hval h0 q q' c hc h p j
  refine ⟨fun s a => lo (s, a), fun s a => hi (s, a), (robust_iff ho hval he hd _).2 fun p => (hlo p).1, (robust_iff ho hval he hd _).2 fun p => (hhi p).1,
    fun q hq s a => hbetween (fun p => q p.1 p.2) ((robust_iff ho hval he hd q).1 hq) (s, a), fun {Ω m0 μ _ ℱ lr tau rows out} hs hl type1 θ0 θT0 => ?_⟩
  refine learnS_huber (prob := fun p : σ × Fin n => e.prob p.1 p.2) (Y := e.goal gamma val) hn hd h0 h1 (fun p => he.nonneg _ _) (fun p => he.total _ _) (fun q q' c hc h p j => goal_mono ho hval h0 q q' c hc h p j) (lo := lo) (hi := hi) (fun p => (hlo p).2)
    (fun p => (hhi p).2) (ix := out) hs.at_known hs.w_known hs.out_known (fun t j => hs.law t j) (fun θ θT t ω => ?_) hl θ0 θT0
  exact rule_row (hr type1) hval (hs.rn t ω) (hs.ended t ω) (hs.goes t ω) (hs.s_next t ω) (hs.a_next t ω) θ θT

/-- **C129** for `QLearning`: with the Huber loss, there are a least and a greatest table whose entries have the least expected Huber loss for their own targets, and the params of a table come to lie between these, almost surely. -/
theorem C129_q_learning [Fintype σ] (hn : 0 < n) {e : Mdp σ n m} (he : e.Proper) {gamma delta : ℝ} (hd : 0 < delta) (h0 : 0 ≤ gamma) (h1 : gamma < 1) :
    ∃ lo hi, e.Robust gamma delta Greedy lo ∧ e.Robust gamma delta Greedy hi ∧ (∀ q, e.Robust gamma delta Greedy q → ∀ s a, lo s a ≤ q s a ∧ q s a ≤ hi s a) ∧
      ∀ {Ω : Type} {m0 : MeasurableSpace Ω} {μ : Measure Ω} [IsProbabilityMeasure μ] {ℱ : Filtration ℕ m0} {lr tau : ℕ → ℝ} {rows : ℕ → Ω → Out σ (Fin n) ℝ} {out : ℕ → Ω → Fin m}, Samples e gamma μ ℱ rows out → Rates μ rows lr tau →
        ∀ type1 θ0 θT0, ∃ θ θT : ℕ → Ω → σ → Fin n → ℝ,
          (∀ k ω, learnS lr (huber1 delta) (qLearning n) type1 0 (θ0, θT0) ((List.range k).map fun t => ([rows t ω], tau t)) = .ok (θ k ω, θT k ω)) ∧
          ∀ᵐ ω ∂μ, ∀ eps, 0 < eps → ∀ᶠ k in atTop, ∀ s a, (lo s a - eps ≤ θ k ω s a ∧ θ k ω s a ≤ hi s a + eps) ∧ lo s a - eps ≤ θT k ω s a ∧ θT k ω s a ≤ hi s a + eps :=
  huber_learns (fun type1 => rule_qLearning hn type1) ordered_greedy hn he hd h0 h1

/-- **C129** for `ExpectedSarsa`: the same with the mean under the policy. -/
theorem C129_expected_sarsa [Fintype σ] (hn : 0 < n) {e : Mdp σ n m} (he : e.Proper) {gamma delta : ℝ} (hd : 0 < delta) (h0 : 0 ≤ gamma) (h1 : gamma < 1) (logits : σ → Fin n → ℝ) :
    let boot := Mean (fun s a => Real.exp (logits s a) / ∑ b, Real.exp (logits s b))
    ∃ lo hi, e.Robust gamma delta boot lo ∧ e.Robust gamma delta boot hi ∧ (∀ q, e.Robust gamma delta boot q → ∀ s a, lo s a ≤ q s a ∧ q s a ≤ hi s a) ∧
      ∀ {Ω : Type} {m0 : MeasurableSpace Ω} {μ : Measure Ω} [IsProbabilityMeasure μ] {ℱ : Filtration ℕ m0} {lr tau : ℕ → ℝ} {rows : ℕ → Ω → Out σ (Fin n) ℝ} {out : ℕ → Ω → Fin m}, Samples e gamma μ ℱ rows out → Rates μ rows lr tau →
        ∀ type1 θ0 θT0, ∃ θ θT : ℕ → Ω → σ → Fin n → ℝ,
          (∀ k ω, learnS lr (huber1 delta) (fun q qTarg => expectedSarsa n (fun S => S.map fun s => (List.finRange n).map (logits s)) q qTarg) type1 0 (θ0, θT0) ((List.range k).map fun t => ([rows t ω], tau t)) = .ok (θ k ω, θT k ω)) ∧
          ∀ᵐ ω ∂μ, ∀ eps, 0 < eps → ∀ᶠ k in atTop, ∀ s a, (lo s a - eps ≤ θ k ω s a ∧ θ k ω s a ≤ hi s a + eps) ∧ lo s a - eps ≤ θT k ω s a ∧ θT k ω s a ≤ hi s a + eps :=
  huber_learns (fun type1 => rule_expectedSarsa hn type1 logits) (ordered_mean (probs_law hn logits)) hn he hd h0 h1

/-- **C129** for `SoftQLearning`: the same with the soft maximum. -/
theorem C129_soft_q_learning [Fintype σ] (hn : 0 < n) {e : Mdp σ n m} (he : e.Proper) {gamma delta : ℝ} (hd : 0 < delta) (h0 : 0 ≤ gamma) (h1 : gamma < 1) {temp : ℝ} (ht : 0 < temp) :
    ∃ lo hi, e.Robust gamma delta (Soft temp) lo ∧ e.Robust gamma delta (Soft temp) hi ∧ (∀ q, e.Robust gamma delta (Soft temp) q → ∀ s a, lo s a ≤ q s a ∧ q s a ≤ hi s a) ∧
      ∀ {Ω : Type} {m0 : MeasurableSpace Ω} {μ : Measure Ω} [IsProbabilityMeasure μ] {ℱ : Filtration ℕ m0} {lr tau : ℕ → ℝ} {rows : ℕ → Ω → Out σ (Fin n) ℝ} {out : ℕ → Ω → Fin m}, Samples e gamma μ ℱ rows out → Rates μ rows lr tau →
        ∀ type1 θ0 θT0, ∃ θ θT : ℕ → Ω → σ → Fin n → ℝ,
          (∀ k ω, learnS lr (huber1 delta) (fun q qTarg => softQLearning n temp q qTarg) type1 0 (θ0, θT0) ((List.range k).map fun t => ([rows t ω], tau t)) = .ok (θ k ω, θT k ω)) ∧
          ∀ᵐ ω ∂μ, ∀ eps, 0 < eps → ∀ᶠ k in atTop, ∀ s a, (lo s a - eps ≤ θ k ω s a ∧ θ k ω s a ≤ hi s a + eps) ∧ lo s a - eps ≤ θT k ω s a ∧ θT k ω s a ≤ hi s a + eps :=
  huber_learns (fun type1 => rule_softQLearning hn type1 ht) (ordered_soft ht) hn he hd h0 h1

/-- **C129**: a table that is the only solution is learned almost surely by `QLearning`. -/
theorem C129_converges [Fintype σ] (hn : 0 < n) {e : Mdp σ n m} (he : e.Proper) {gamma delta : ℝ} (hd : 0 < delta) (h0 : 0 ≤ gamma) (h1 : gamma < 1) {best : σ → Fin n → ℝ} (hbest : ∀ q, e.Robust gamma delta Greedy q → q = best)
    {Ω : Type} {m0 : MeasurableSpace Ω} {μ : Measure Ω} [IsProbabilityMeasure μ] {ℱ : Filtration ℕ m0} {lr tau : ℕ → ℝ} {rows : ℕ → Ω → Out σ (Fin n) ℝ} {out : ℕ → Ω → Fin m} (hs : Samples e gamma μ ℱ rows out) (hl : Rates μ rows lr tau)
    (type1 : Bool) (θ0 θT0 : σ → Fin n → ℝ) : ∃ θ θT : ℕ → Ω → σ → Fin n → ℝ,
      (∀ k ω, learnS lr (huber1 delta) (qLearning n) type1 0 (θ0, θT0) ((List.range k).map fun t => ([rows t ω], tau t)) = .ok (θ k ω, θT k ω)) ∧
      ∀ᵐ ω ∂μ, ∀ s a, Tendsto (fun k => θ k ω s a) atTop (𝓝 (best s a)) ∧ Tendsto (fun k => θT k ω s a) atTop (𝓝 (best s a)) := by
  obtain ⟨lo, hi, h2, h3, -, H⟩ := C129_q_learning hn he hd h0 h1
  obtain rfl := hbest lo h2
  obtain rfl := hbest hi h3
  obtain ⟨θ, θT, h4, h5⟩ := H hs hl type1 θ0 θT0
  refine ⟨θ, θT, h4, h5.mono fun ω h6 s a => ⟨?_, ?_⟩⟩
  · rw [Metric.tendsto_nhds]
    intro eps he
    filter_upwards [h6 (eps / 2) (by linarith)] with k h7
    have := h7 s a
    rw [Real.dist_eq, abs_lt]
    constructor <;> linarith [this.1.1, this.1.2]
  · rw [Metric.tendsto_nhds]
    intro eps he
    filter_upwards [h6 (eps / 2) (by linarith)] with k h7
    have := h7 s a
    rw [Real.dist_eq, abs_lt]
    constructor <;> linarith [this.2.1, this.2.2]

/-- **C129** for the training loop: an agent that explores and uses the Huber loss learns the only solution. -/
theorem C129_online_q_learning {Ω : Type} {m0 : MeasurableSpace Ω} [Fintype σ] (hn : 0 < n) {e : Mdp σ n m} (he : e.Proper) {gamma delta : ℝ} (hd : 0 < delta) (h0 : 0 ≤ gamma) (h1 : gamma < 1) {μ : Measure Ω} [IsProbabilityMeasure μ] {ℋ : Filtration ℕ m0}
    {lr : ℕ → ℝ} {xs : ℕ → Ω → Step σ (Fin n) ℝ} {out : ℕ → Ω → Fin m} (hx : Explorer e μ ℋ xs out lr) {tau : ℝ} (ht0 : 0 < tau) (ht1 : tau ≤ 1) {best : σ → Fin n → ℝ} (hbest : ∀ q, e.Robust gamma delta Greedy q → q = best)
    (type1 : Bool) (θ0 θT0 : σ → Fin n → ℝ) :
    ∃ θ θT : ℕ → Ω → σ → Fin n → ℝ,
      (∀ k ω, ∃ t c, onlineT lr tau (huber1 delta) (qLearning n) type1 (NStep.init 1 gamma false, (θ0, θT0), 0) ((List.range k).map fun t => (xs t ω, e.ends (xs t ω).s (xs t ω).a (out t ω))) = .ok (t, (θ k ω, θT k ω), c)) ∧
      ∀ᵐ ω ∂μ, ∀ s a, Tendsto (fun k => θ k ω s a) atTop (𝓝 (best s a)) ∧ Tendsto (fun k => θT k ω s a) atTop (𝓝 (best s a)) :=
  onlineT_of_learnS (dn := fun t ω => e.ends (xs t ω).s (xs t ω).a (out t ω)) h0 h1.le hx.steps.logp hx.steps.w
    (C129_converges hn he hd h0 h1 hbest (hx.steps.samples gamma) (hx.rates gamma ht0 ht1) type1 θ0 θT0)

/-- **C129** for the training loop: the optimal values are learned if all targets are within `delta`. -/
theorem C129_online_exact_partial {Ω : Type} {m0 : MeasurableSpace Ω} [Fintype σ] (hn : 0 < n) {e : Mdp σ n m} (he : e.Proper) {gamma delta : ℝ} (hd : 0 < delta) (h0 : 0 ≤ gamma) (h1 : gamma < 1) {μ : Measure Ω} [IsProbabilityMeasure μ] {ℋ : Filtration ℕ m0}
    {lr : ℕ → ℝ} {xs : ℕ → Ω → Step σ (Fin n) ℝ} {out : ℕ → Ω → Fin m} (hx : Explorer e μ ℋ xs out lr) {tau : ℝ} (ht0 : 0 < tau) (ht1 : tau ≤ 1) {best : σ → Fin n → ℝ} (hbest : e.Solves gamma Greedy best)
    (hnear : e.NearTargets gamma delta Greedy best) (type1 : Bool) (θ0 θT0 : σ → Fin n → ℝ) :
    ∃ θ θT : ℕ → Ω → σ → Fin n → ℝ,
      (∀ k ω, ∃ t c, onlineT lr tau (huber1 delta) (qLearning n) type1 (NStep.init 1 gamma false, (θ0, θT0), 0) ((List.range k).map fun t => (xs t ω, e.ends (xs t ω).s (xs t ω).a (out t ω))) = .ok (t, (θ k ω, θT k ω), c)) ∧
      ∀ᵐ ω ∂μ, ∀ s a, Tendsto (fun k => θ k ω s a) atTop (𝓝 (best s a)) ∧ Tendsto (fun k => θT k ω s a) atTop (𝓝 (best s a)) :=
  C129_online_q_learning hn he hd h0 h1 hx ht0 ht1 (C129_exact_partial ordered_greedy (rule_qLearning hn false).value he hd h0 h1 hbest hnear).2 type1 θ0 θT0

/-! ### A case -/

/-- The rewards 0 and 2 of `twoCoins` are within 1 of the mean. -/
example (θ0 θT0 : Bool → Fin 2 → ℝ) : ∃ θ θT : ℕ → (ℕ → Bool) → Bool → Fin 2 → ℝ,
    (∀ k ω, ∃ t c, onlineT (fun t => 1 / ((t : ℝ) + 1)) (1 / 10) (huber1 1) (qLearning 2) true (NStep.init 1 (1 / 2) false, (θ0, θT0), 0)
      ((List.range k).map fun t => (coinSteps t ω, twoCoins.ends (coinSteps t ω).s (coinSteps t ω).a (if ω (2 * t + 2) then 1 else 0))) = .ok (t, (θ k ω, θT k ω), c)) ∧
    ∀ᵐ ω ∂coins, Tendsto (fun k => θ k ω false 1) atTop (𝓝 (1 / 2)) ∧ Tendsto (fun k => θT k ω true 1) atTop (𝓝 1) := by
  have hp : twoCoins.Proper := ⟨fun _ _ _ => by norm_num [twoCoins], fun _ _ => by norm_num [twoCoins]⟩
  have hnear : twoCoins.NearTargets (1 / 2) 1 Greedy twoBest := by
    intro v hv s a j _
    obtain rfl : v = fun s => if s then 1 else 1 / 2 := by
      funext s
      refine ordered_greedy.unique (s := s) (hv s) ?_
      cases s
      · exact ⟨⟨1, by simp [twoBest]⟩, by rintro _ ⟨a, rfl⟩; fin_cases a <;> norm_num [twoBest]⟩
      · exact ⟨⟨1, by simp [twoBest]⟩, by rintro _ ⟨a, rfl⟩; fin_cases a <;> norm_num [twoBest]⟩
    cases s <;> fin_cases a <;> fin_cases j <;> norm_num [twoBest, twoCoins]
  obtain ⟨θ, θT, h, h'⟩ := C129_online_exact_partial (delta := 1) (tau := 1 / 10) (by norm_num) hp (by norm_num) (by norm_num) (by norm_num) coin_explorer (by norm_num) (by norm_num) coins_solves hnear true θ0 θT0
  exact ⟨θ, θT, h, h'.mono fun ω h' => ⟨by simpa [twoBest] using (h' false 1).1, by simpa [twoBest] using (h' true 1).2⟩⟩

/-! ### A biased case -/

/-- One state and one action, which ends the episode with the reward 0 (probability 3/4) or 10 (probability 1/4). -/
noncomputable def jackpot : Mdp Unit 1 2 := ⟨fun _ _ j => if j = 1 then 1 / 4 else 3 / 4, fun _ _ j => if j = 1 then 10 else 0, fun _ _ _ => (), fun _ _ _ => true⟩

/-- Two coins for each step. -/
noncomputable def pairs : Filtration ℕ (inferInstance : MeasurableSpace (ℕ → Bool)) where
  seq i := flips (2 * i)
  mono' _ _ h := flips.mono (by omega)
  le' i := flips.le _

/-- The jackpot is won if both coins show heads. -/
def winner (t : ℕ) (ω : ℕ → Bool) : Fin 2 := if ω (4 * t + 3) && ω (4 * t + 4) then 1 else 0

/-- An agent that plays again and again. -/
noncomputable def plays (t : ℕ) (ω : ℕ → Bool) : Step Unit (Fin 1) ℝ := ⟨(), 0, jackpot.reward () 0 (winner t ω), 0, 1⟩

theorem jackpot_proper : jackpot.Proper := ⟨fun _ _ j => by unfold jackpot; dsimp only; split <;> norm_num, fun _ _ => by norm_num [jackpot, Fin.sum_univ_two]⟩

theorem winner_law (t : ℕ) (j : Fin 2) : coins[Set.indicator {ω | winner t ω = j} (fun _ => (1 : ℝ)) | flips (4 * t + 2)] =ᵐ[coins] fun _ => if j = 1 then 1 / 4 else 3 / 4 := by
  have h1 : coins[Set.indicator {ω | winner t ω = 1} (fun _ => (1 : ℝ)) | flips (4 * t + 2)] =ᵐ[coins] fun _ => 1 / 4 := by
    have e1 : Set.indicator {ω | winner t ω = 1} (fun _ => (1 : ℝ)) = Set.indicator {ω | ω (4 * t + 3) = true} (Set.indicator {ω | ω (4 * t + 4) = true} fun _ => 1) := by
      funext ω
      cases h3 : ω (4 * t + 3) <;> cases h4 : ω (4 * t + 4) <;> simp [winner, h3, h4]
    rw [e1]
    have hi : Integrable (Set.indicator {ω : ℕ → Bool | ω (4 * t + 4) = true} fun _ => (1 : ℝ)) coins := (integrable_const (1 : ℝ)).indicator (heads_measurable _)
    have h2 := condExp_indicator (m := flips (4 * t + 3)) hi (flips_known (i := 4 * t + 3) le_rfl true)
    have h3 := (condExp_condExp_of_le (μ := coins) (f := Set.indicator {ω : ℕ → Bool | ω (4 * t + 3) = true} (Set.indicator {ω | ω (4 * t + 4) = true} fun _ => (1 : ℝ))) (flips.mono (show 4 * t + 2 ≤ 4 * t + 3 by omega)) (flips.le _)).symm
    have h4 : coins[Set.indicator {ω : ℕ → Bool | ω (4 * t + 3) = true} (Set.indicator {ω | ω (4 * t + 4) = true} fun _ => (1 : ℝ)) | flips (4 * t + 3)] =ᵐ[coins] (1 / 2 : ℝ) • Set.indicator {ω : ℕ → Bool | ω (4 * t + 3) = true} fun _ => (1 : ℝ) := by
      filter_upwards [h2, flips_fair (show 4 * t + 3 < 4 * t + 4 by omega) true] with ω h5 h6
      rw [h5, Pi.smul_apply, Set.indicator_apply, Set.indicator_apply, h6]
      split <;> simp
    have h5 := condExp_smul (μ := coins) (1 / 2 : ℝ) (Set.indicator {ω : ℕ → Bool | ω (4 * t + 3) = true} fun _ => (1 : ℝ)) (flips (4 * t + 2))
    filter_upwards [h3, condExp_congr_ae (m := flips (4 * t + 2)) h4, h5, flips_fair (show 4 * t + 2 < 4 * t + 3 by omega) true] with ω h6 h7 h8 h9
    rw [h6, h7, h8, Pi.smul_apply, h9]
    norm_num
  fin_cases j
  · have e1 : Set.indicator {ω | winner t ω = 0} (fun _ => (1 : ℝ)) = (fun _ => (1 : ℝ)) - Set.indicator {ω | winner t ω = 1} (fun _ => (1 : ℝ)) := by
      funext ω
      cases h3 : ω (4 * t + 3) <;> cases h4 : ω (4 * t + 4) <;> simp [winner, h3, h4]
    have hm : MeasurableSet {ω : ℕ → Bool | winner t ω = 1} := by
      have : {ω : ℕ → Bool | winner t ω = 1} = heads (4 * t + 3) ∩ heads (4 * t + 4) := by
        ext ω
        cases h3 : ω (4 * t + 3) <;> cases h4 : ω (4 * t + 4) <;> simp [winner, heads, h3, h4]
      rw [this]
      exact (heads_measurable _).inter (heads_measurable _)
    show coins[Set.indicator {ω | winner t ω = 0} (fun _ => (1 : ℝ)) | flips (4 * t + 2)] =ᵐ[coins] _
    rw [e1]
    filter_upwards [h1, condExp_sub (μ := coins) (integrable_const (1 : ℝ)) ((integrable_const (1 : ℝ)).indicator hm) (flips (4 * t + 2))] with ω h4 h5
    rw [h5, Pi.sub_apply, h4, condExp_const (flips.le _)]
    norm_num
  · exact h1

theorem jackpot_explorer : Explorer jackpot coins pairs plays winner (fun t => 1 / ((t : ℝ) + 1)) where
  steps :=
    { s_known := fun t s => MeasurableSet.const (() = s)
      a_known := fun t a => MeasurableSet.const (0 = a)
      w_known := fun t => measurable_const
      out_known := fun t j => by
        have h3 : MeasurableSet[flips (2 * (2 * t + 2))] ({ω : ℕ → Bool | ω (4 * t + 3) = true} ∩ {ω | ω (4 * t + 4) = true}) := (flips_known (by omega) true).inter (flips_known (by omega) true)
        fin_cases j
        · have : {ω : ℕ → Bool | winner t ω = 0} = ({ω : ℕ → Bool | ω (4 * t + 3) = true} ∩ {ω | ω (4 * t + 4) = true})ᶜ := by
            ext ω
            cases h3 : ω (4 * t + 3) <;> cases h4 : ω (4 * t + 4) <;> simp [winner, h3, h4]
          show MeasurableSet[flips (2 * (2 * t + 2))] {ω : ℕ → Bool | winner t ω = 0}
          rw [this]
          exact h3.compl
        · have : {ω : ℕ → Bool | winner t ω = 1} = {ω : ℕ → Bool | ω (4 * t + 3) = true} ∩ {ω | ω (4 * t + 4) = true} := by
            ext ω
            cases h3 : ω (4 * t + 3) <;> cases h4 : ω (4 * t + 4) <;> simp [winner, h3, h4]
          show MeasurableSet[flips (2 * (2 * t + 2))] {ω : ℕ → Bool | winner t ω = 1}
          rw [this]
          exact h3
      law := fun t j => by
        have := winner_law t j
        rw [show 4 * t + 2 = 2 * (2 * t + 1) by ring] at this
        exact this
      reward := fun t ω => rfl
      next := fun t ω _ => rfl
      logp := fun t ω => le_rfl
      w := fun t ω => one_pos }
  explores := ⟨1, by norm_num, fun t a => by
    have : {ω : ℕ → Bool | (plays t ω).a = a} = Set.univ := by
      ext ω
      simp [Subsingleton.elim a 0, plays]
    rw [this, Set.indicator_univ, condExp_const (pairs.le _)]
    exact Eventually.of_forall fun ω => le_rfl⟩
  connected s s' := .single ⟨0, 0, by norm_num [jackpot], rfl⟩
  reset t ω := rfl
  schedule :=
    { nonneg := fun t => by positivity
      le := fun t ω => by
        have h2 : (1 : ℝ) / ((t : ℝ) + 1) ≤ 1 := by
          rw [div_le_one (by positivity)]
          linarith [(Nat.cast_nonneg t : (0 : ℝ) ≤ t)]
        have h3 : min (max (plays t ω).w 0.1) 10 = (1 : ℝ) := by
          show min (max (1 : ℝ) 0.1) 10 = 1
          norm_num
        rw [h3, mul_one]
        exact h2
      squares := by
        have := (summable_nat_add_iff 1).2 (Real.summable_one_div_nat_pow.2 (by norm_num : 1 < 2))
        refine this.congr fun t => ?_
        push_cast
        rw [div_pow, one_pow] }
  infinite h := coin_explorer.infinite h
  slow := coin_explorer.slow

/-- **C129** does not give the expected return: the only value that satisfies the Bellman equation of `jackpot` is 5/2, but with the Huber loss (`delta = 1`, the default) the learned value is 1/3 in the limit, almost surely, and with the squared loss it is 5/2. -/
theorem C129_counterexample (type1 : Bool) (θ0 θT0 : Unit → Fin 1 → ℝ) : (∀ q, jackpot.Solves (9 / 10) Greedy q ↔ q () 0 = 5 / 2) ∧
    (∃ θ θT : ℕ → (ℕ → Bool) → Unit → Fin 1 → ℝ,
      (∀ k ω, ∃ t c, onlineT (fun t => 1 / ((t : ℝ) + 1)) 1 (huber1 1) (qLearning 1) type1 (NStep.init 1 (9 / 10) false, (θ0, θT0), 0) ((List.range k).map fun t => (plays t ω, true)) = .ok (t, (θ k ω, θT k ω), c)) ∧
      ∀ᵐ ω ∂coins, Tendsto (fun k => θ k ω () 0) atTop (𝓝 (1 / 3))) ∧
    ∃ θ : ℕ → (ℕ → Bool) → Unit → Fin 1 → ℝ,
      (∀ k ω, ∃ t c, onlineS (fun t => 1 / ((t : ℝ) + 1)) mse1 (qLearning 1) type1 (NStep.init 1 (9 / 10) false, θ0, 0) ((List.range k).map fun t => (plays t ω, true)) = .ok (t, θ k ω, c)) ∧
      ∀ᵐ ω ∂coins, Tendsto (fun k => θ k ω () 0) atTop (𝓝 (5 / 2)) := by
  have hb : ∀ q : Unit → Fin 1 → ℝ, ∀ s, Greedy s (q s) (q () 0) := fun q s => ⟨⟨0, rfl⟩, by rintro _ ⟨a, rfl⟩; rw [Subsingleton.elim a 0]⟩
  have hsol : ∀ q, jackpot.Solves (9 / 10) Greedy q ↔ q () 0 = 5 / 2 := by
    intro q
    constructor
    · rintro ⟨v, -, h⟩
      rw [h () 0]
      norm_num [jackpot, Fin.sum_univ_two]
    · intro h
      refine ⟨fun _ => q () 0, fun s => hb q s, fun s a => ?_⟩
      rw [Subsingleton.elim a 0, show s = () from rfl, h]
      norm_num [jackpot, Fin.sum_univ_two]
  have hone : ∀ q, jackpot.Robust (9 / 10) 1 Greedy q → q = fun _ _ => 1 / 3 := by
    intro q hq
    refine C129_unique ordered_greedy (rule_qLearning (by norm_num) false).value jackpot_proper (by norm_num) (by norm_num) (by norm_num) (q := fun _ _ => (1 / 3 : ℝ)) ?_ ?_ hq
    · obtain ⟨val, hval⟩ : ∃ val : Unit → (Fin 1 → ℝ) → ℝ, ∀ s row, Greedy s row (val s row) := ⟨fun _ row => row 0, fun s row => ⟨⟨0, rfl⟩, by rintro _ ⟨a, rfl⟩; rw [Subsingleton.elim a 0]⟩⟩
      refine (robust_iff ordered_greedy hval jackpot_proper (by norm_num) _).2 fun p => ?_
      norm_num [tilt, limit, Mdp.goal, jackpot, Fin.sum_univ_two]
    · intro v _ s a
      exact ⟨0, by norm_num [jackpot], by norm_num [jackpot, abs_lt]⟩
  refine ⟨hsol, ?_, ?_⟩
  · obtain ⟨θ, θT, h, h'⟩ := C129_online_q_learning (delta := 1) (tau := 1) (gamma := 9 / 10) (by norm_num) jackpot_proper (by norm_num) (by norm_num) (by norm_num) jackpot_explorer (by norm_num) (by norm_num) hone type1 θ0 θT0
    exact ⟨θ, θT, h, h'.mono fun ω h' => (h' () 0).1⟩
  · obtain ⟨θ, h, h'⟩ := C119_online_q_learning (gamma := 9 / 10) (by norm_num) jackpot_proper (by norm_num) (by norm_num) jackpot_explorer ((hsol fun _ _ => 5 / 2).2 rfl) type1 θ0
    exact ⟨θ, h, h'.mono fun ω h' => h' () 0⟩

end Coax.Loop
