import Verif.Loop.ConvergeProps
import Verif.Loop.Schedule
import Verif.Loop.ApproxLemmas

/-! Property C119: tabular value learning converges almost surely in stochastic environments, if learning rates decrease. -/

namespace Coax.Loop

open Coax.RewardTracing Coax.TD Coax.Core Coax.Values Coax.Pol Filter Topology MeasureTheory

/-- A stochastic environment with finitely many outcomes of each step. -/
structure Mdp (σ : Type _) (n m : Nat) where
  prob : σ → Fin n → Fin m → ℝ
  reward : σ → Fin n → Fin m → ℝ
  next : σ → Fin n → Fin m → σ
  ends : σ → Fin n → Fin m → Bool

variable {σ : Type _} {n m : Nat}

structure Mdp.Proper (e : Mdp σ n m) : Prop where
  nonneg : ∀ s a j, 0 ≤ e.prob s a j
  total : ∀ s a, ∑ j, e.prob s a j = 1

/-- The Bellman equation, where `boot s row x` says that `x` is the value of state `s` if `row` are the values of its actions. -/
def Mdp.Solves (e : Mdp σ n m) (gamma : ℝ) (boot : σ → (Fin n → ℝ) → ℝ → Prop) (q : σ → Fin n → ℝ) : Prop :=
  ∃ v : σ → ℝ, (∀ s, boot s (q s) (v s)) ∧ ∀ s a, q s a = ∑ j, e.prob s a j * (e.reward s a j + if e.ends s a j then 0 else gamma * v (e.next s a j))

/-! ### The Bellman operator -/

/-- The target of one transition. -/
def Mdp.goal (e : Mdp σ n m) (gamma : ℝ) (val : σ → (Fin n → ℝ) → ℝ) (q : σ × Fin n → ℝ) (p : σ × Fin n) (j : Fin m) : ℝ :=
  e.reward p.1 p.2 j + if e.ends p.1 p.2 j then 0 else gamma * val (e.next p.1 p.2 j) (fun b => q (e.next p.1 p.2 j, b))

/-- The Bellman operator. -/
def Mdp.op (e : Mdp σ n m) (gamma : ℝ) (val : σ → (Fin n → ℝ) → ℝ) (q : σ × Fin n → ℝ) (p : σ × Fin n) : ℝ := ∑ j, e.prob p.1 p.2 j * e.goal gamma val q p j

theorem goal_close {updateRule} {type1 : Bool} {boot : σ → (Fin n → ℝ) → ℝ → Prop} (hr : Rule updateRule type1 boot) {val : σ → (Fin n → ℝ) → ℝ} (hval : ∀ s row, boot s row (val s row)) {e : Mdp σ n m} {gamma : ℝ} (h0 : 0 ≤ gamma)
    (q1 q2 : σ × Fin n → ℝ) (M : ℝ) (hM : ∀ p, |q1 p - q2 p| ≤ M) (hM0 : 0 ≤ M) (p : σ × Fin n) (j : Fin m) : |e.goal gamma val q1 p j - e.goal gamma val q2 p j| ≤ gamma * M := by
  unfold Mdp.goal
  split
  · simpa using mul_nonneg h0 hM0
  · have := hr.close (e.next p.1 p.2 j) _ _ _ _ M (hval _ fun b => q1 (e.next p.1 p.2 j, b)) (hval _ fun b => q2 (e.next p.1 p.2 j, b)) fun a => hM _
    have e1 : ∀ r x y : ℝ, r + gamma * x - (r + gamma * y) = gamma * (x - y) := fun r x y => by ring
    rw [e1, abs_mul, abs_of_nonneg h0]
    exact mul_le_mul_of_nonneg_left this h0

/-- A mean of numbers near `z` is near `z`. -/
theorem mean_near {e : Mdp σ n m} (he : e.Proper) (s : σ) (a : Fin n) {x : Fin m → ℝ} {z M : ℝ} (h : ∀ j, |x j - z| ≤ M) : |∑ j, e.prob s a j * x j - z| ≤ M := by
  have e1 : ∑ j, e.prob s a j * x j - z = ∑ j, e.prob s a j * (x j - z) := by
    simp only [mul_sub, Finset.sum_sub_distrib, ← Finset.sum_mul, he.total, one_mul]
  rw [e1]
  calc _ ≤ ∑ j, |e.prob s a j * (x j - z)| := Finset.abs_sum_le_sum_abs _ _
    _ ≤ ∑ j, e.prob s a j * M := Finset.sum_le_sum fun j _ => by
        rw [abs_mul, abs_of_nonneg (he.nonneg s a j)]
        exact mul_le_mul_of_nonneg_left (h j) (he.nonneg s a j)
    _ = M := by rw [← Finset.sum_mul, he.total, one_mul]

theorem mdp_op_close {updateRule} {type1 : Bool} {boot : σ → (Fin n → ℝ) → ℝ → Prop} (hr : Rule updateRule type1 boot) {val : σ → (Fin n → ℝ) → ℝ} (hval : ∀ s row, boot s row (val s row)) {e : Mdp σ n m} (he : e.Proper) {gamma : ℝ} (h0 : 0 ≤ gamma)
    (q1 q2 : σ × Fin n → ℝ) (M : ℝ) (hM : ∀ p, |q1 p - q2 p| ≤ M) (hM0 : 0 ≤ M) (p : σ × Fin n) : |e.op gamma val q1 p - e.op gamma val q2 p| ≤ gamma * M := by
  have e1 : e.op gamma val q1 p - e.op gamma val q2 p = ∑ j, e.prob p.1 p.2 j * (e.goal gamma val q1 p j - e.goal gamma val q2 p j) - 0 := by
    unfold Mdp.op
    simp only [mul_sub, Finset.sum_sub_distrib, sub_zero]
  rw [e1]
  exact mean_near he _ _ fun j => by rw [sub_zero]; exact goal_close hr hval h0 q1 q2 M hM hM0 p j

theorem mdp_solves_iff {updateRule} {type1 : Bool} {boot : σ → (Fin n → ℝ) → ℝ → Prop} (hr : Rule updateRule type1 boot) {val : σ → (Fin n → ℝ) → ℝ} (hval : ∀ s row, boot s row (val s row)) {e : Mdp σ n m} {gamma : ℝ} (q : σ → Fin n → ℝ) :
    e.Solves gamma boot q ↔ e.op gamma val (fun p => q p.1 p.2) = fun p => q p.1 p.2 := by
  constructor
  · rintro ⟨v, h1, h2⟩
    funext p
    have : v = fun s => val s (q s) := by
      funext s
      exact hr.unique (h1 s) (hval _ _)
    subst this
    exact (h2 p.1 p.2).symm
  · intro h
    exact ⟨fun s => val s (q s), fun s => hval _ _, fun s a => (congrFun h (s, a)).symm⟩

theorem mdp_solution [Fintype σ] {updateRule} {type1 : Bool} {boot : σ → (Fin n → ℝ) → ℝ → Prop} (hr : Rule updateRule type1 boot) {e : Mdp σ n m} (he : e.Proper) {gamma : ℝ} (h0 : 0 ≤ gamma) (h1 : gamma < 1) :
    ∃ best, e.Solves gamma boot best ∧ ∀ q, e.Solves gamma boot q → q = best := by
  choose val hval using hr.value
  have hc : ContractingWith ⟨gamma, h0⟩ (e.op gamma val) := by
    refine ⟨by exact_mod_cast h1, LipschitzWith.of_dist_le_mul fun q1 q2 => ?_⟩
    refine (dist_pi_le_iff (mul_nonneg h0 dist_nonneg)).2 fun p => ?_
    rw [Real.dist_eq]
    exact mdp_op_close hr hval he h0 q1 q2 _ (fun p => by rw [← Real.dist_eq]; exact dist_le_pi_dist q1 q2 p) dist_nonneg p
  refine ⟨fun s a => ContractingWith.fixedPoint _ hc (s, a), (mdp_solves_iff hr hval _).2 hc.fixedPoint_isFixedPt, fun q hq => ?_⟩
  have := hc.fixedPoint_unique ((mdp_solves_iff hr hval q).1 hq)
  funext s a
  exact congrFun this (s, a)

/-! ### Random transitions -/

variable {Ω : Type _} {m0 : MeasurableSpace Ω}

/-- A sequence of random transitions: state and action of transition `t` are known at time `t`, and the outcome is drawn with the probabilities of the environment, whatever happened before. -/
structure Samples (e : Mdp σ n m) (gamma : ℝ) (μ : Measure Ω) (ℱ : Filtration ℕ m0) (rows : ℕ → Ω → Out σ (Fin n) ℝ) (out : ℕ → Ω → Fin m) : Prop where
  at_known : ∀ t s a, MeasurableSet[ℱ t] {ω | (rows t ω).S = s ∧ (rows t ω).A = a}
  w_known : ∀ t, Measurable[ℱ t] fun ω => (rows t ω).W
  out_known : ∀ t j, MeasurableSet[ℱ (t + 1)] {ω | out t ω = j}
  law : ∀ t j, μ[Set.indicator {ω | out t ω = j} (fun _ => (1 : ℝ)) | ℱ t] =ᵐ[μ] fun ω => e.prob (rows t ω).S (rows t ω).A j
  rn : ∀ t ω, (rows t ω).Rn = e.reward (rows t ω).S (rows t ω).A (out t ω)
  ended : ∀ t ω, e.ends (rows t ω).S (rows t ω).A (out t ω) = true → (rows t ω).In = 0
  goes : ∀ t ω, e.ends (rows t ω).S (rows t ω).A (out t ω) = false → (rows t ω).In = gamma ∧ (rows t ω).S_next = some (e.next (rows t ω).S (rows t ω).A (out t ω))
  s_next : ∀ t ω, (rows t ω).S_next.isSome
  a_next : ∀ t ω, (rows t ω).A_next.isSome

/-- The conditions of Robbins and Monro on the learning rates: their squares have a finite sum, but those of the updates of any state and action do not. -/
structure Rates [DecidableEq σ] (μ : Measure Ω) (rows : ℕ → Ω → Out σ (Fin n) ℝ) (lr tau : ℕ → ℝ) : Prop where
  nonneg : ∀ t, 0 ≤ lr t
  le : ∀ t ω, lr t * min (max (rows t ω).W 0.1) 10 ≤ 1
  squares : Summable fun t => lr t ^ 2
  visits : ∀ s a, ∀ᵐ ω ∂μ, ¬ Summable fun t => if (rows t ω).S = s ∧ (rows t ω).A = a then lr t else 0
  tau_nonneg : ∀ t, 0 ≤ tau t
  tau_le : ∀ t, tau t ≤ 1
  syncs : ¬ Summable tau

theorem rule_row {updateRule} {type1 : Bool} {boot : σ → (Fin n → ℝ) → ℝ → Prop} (hr : Rule updateRule type1 boot) {val : σ → (Fin n → ℝ) → ℝ} (hval : ∀ s row, boot s row (val s row)) {e : Mdp σ n m} {gamma : ℝ}
    {o : Out σ (Fin n) ℝ} {j : Fin m} (rn : o.Rn = e.reward o.S o.A j) (ended : e.ends o.S o.A j = true → o.In = 0) (goes : e.ends o.S o.A j = false → o.In = gamma ∧ o.S_next = some (e.next o.S o.A j))
    (hs : o.S_next.isSome) (ha : o.A_next.isSome) (θQ θT : σ → Fin n → ℝ) :
    ∃ b, toTBatch id (fun a : Fin n => oneHot n a) [o] = .ok b ∧
      updateRule (tabular type1 θQ) (tabular type1 θT) b = .ok ([o].map fun o => e.goal gamma val (fun p => θT p.1 p.2) (o.S, o.A) j) := by
  have := rule_targets hr hval (e := ⟨fun s a => e.next s a j, fun s a => e.reward s a j, fun s a => e.ends s a j⟩) (gamma := gamma) (rows := [o])
    (fun o' ho' => by obtain rfl : o' = o := by simpa using ho'
                      exact ⟨rn, ended, goes, hs, ha⟩) θQ θT
  exact this

variable [DecidableEq σ]

theorem learnS_append {lr : ℕ → ℝ} {L : LossFn} {updateRule} {type1 : Bool} {k : ℕ} {θ θ' : (σ → Fin n → ℝ) × (σ → Fin n → ℝ)} {bs : List (List (Out σ (Fin n) ℝ) × ℝ)} (h : learnS lr L updateRule type1 k θ bs = .ok θ')
    (bs' : List (List (Out σ (Fin n) ℝ) × ℝ)) : learnS lr L updateRule type1 k θ (bs ++ bs') = learnS lr L updateRule type1 (k + bs.length) θ' bs' := by
  induction bs generalizing θ k with
  | nil => cases h; rfl
  | cons x bs ih =>
    obtain ⟨θ, θT⟩ := θ
    obtain ⟨rows, tau⟩ := x
    rw [List.cons_append, learnS]
    rw [learnS] at h
    split at h
    · cases h
    · rw [ih h, List.length_cons, Nat.add_assoc, Nat.add_comm 1]

theorem share_one (o : Out σ (Fin n) ℝ) (s : σ) (a : Fin n) : share [o] s a = if o.S = s ∧ o.A = a then min (max o.W 0.1) 10 else 0 := by
  unfold share weight
  simp [eq_comm]

theorem learnS_converges [Fintype σ] {μ : Measure Ω} [IsProbabilityMeasure μ] {ℱ : Filtration ℕ m0} {updateRule} {type1 : Bool} {boot : σ → (Fin n → ℝ) → ℝ → Prop} (hr : Rule updateRule type1 boot) (hn : 0 < n) {e : Mdp σ n m} (he : e.Proper)
    {gamma : ℝ} (h0 : 0 ≤ gamma) (h1 : gamma < 1) {lr tau : ℕ → ℝ} {rows : ℕ → Ω → Out σ (Fin n) ℝ} {out : ℕ → Ω → Fin m} (hs : Samples e gamma μ ℱ rows out) (hl : Rates μ rows lr tau) {best : σ → Fin n → ℝ} (hbest : e.Solves gamma boot best)
    (θ0 θT0 : σ → Fin n → ℝ) :
    ∃ θ θT : ℕ → Ω → σ → Fin n → ℝ, (∀ k ω, learnS lr mse1 updateRule type1 0 (θ0, θT0) ((List.range k).map fun t => ([rows t ω], tau t)) = .ok (θ k ω, θT k ω)) ∧
      ∀ᵐ ω ∂μ, ∀ s a, Tendsto (fun k => θ k ω s a) atTop (𝓝 (best s a)) ∧ Tendsto (fun k => θT k ω s a) atTop (𝓝 (best s a)) := by
  choose val hval using hr.value
  let G : (σ × Fin n → ℝ) → σ × Fin n → Fin m → ℝ := e.goal gamma val
  let b : ℕ → σ × Fin n → Ω → ℝ := fun t p ω => lr t * if (rows t ω).S = p.1 ∧ (rows t ω).A = p.2 then min (max (rows t ω).W 0.1) 10 else 0
  -- one update
  have step : ∀ θT θ t ω, sgdUpdate (lr t) mse1 updateRule type1 θT θ [rows t ω] = .ok fun s a => θ s a + b t (s, a) ω * (G (fun p => θT p.1 p.2) (s, a) (out t ω) - θ s a) := by
    intro θT θ t ω
    obtain ⟨B, hB, ht⟩ := rule_row hr hval (hs.rn t ω) (hs.ended t ω) (hs.goes t ω) (hs.s_next t ω) (hs.a_next t ω) θ θT
    rw [sgdUpdate_eq mse1_meanOf gentle_mse hn (List.cons_ne_nil _ _) hB (T := fun s a => e.goal gamma val (fun p => θT p.1 p.2) (s, a) (out t ω)) ht (lr t)]
    congr 1
    funext s a
    rw [share_one]
    simp only [b, G, mul_one]
  let next : ℕ → Ω → (σ → Fin n → ℝ) × (σ → Fin n → ℝ) → (σ → Fin n → ℝ) × (σ → Fin n → ℝ) := fun t ω x =>
    let θ' : σ → Fin n → ℝ := fun s a => x.1 s a + b t (s, a) ω * (G (fun p => x.2 p.1 p.2) (s, a) (out t ω) - x.1 s a)
    (θ', softTable (tau t) x.2 θ')
  let run : ℕ → Ω → (σ → Fin n → ℝ) × (σ → Fin n → ℝ) := fun k ω => Nat.rec (θ0, θT0) (fun t x => next t ω x) k
  have hrun : ∀ k ω, learnS lr mse1 updateRule type1 0 (θ0, θT0) ((List.range k).map fun t => ([rows t ω], tau t)) = .ok (run k ω) := by
    intro k ω
    induction k with
    | zero => rfl
    | succ k ih =>
      rw [List.range_succ, List.map_append, learnS_append ih]
      show learnS lr mse1 updateRule type1 _ ((run k ω).1, (run k ω).2) [([rows k ω], tau k)] = _
      rw [learnS]
      simp only [List.length_map, List.length_range, Nat.zero_add]
      rw [step]
      rfl
  refine ⟨fun k ω => (run k ω).1, fun k ω => (run k ω).2, hrun, ?_⟩
  let f : ℕ → Ω → σ × Fin n → ℝ := fun t ω p => (run t ω).1 p.1 p.2
  let g : ℕ → Ω → σ × Fin n → ℝ := fun t ω p => (run t ω).2 p.1 p.2
  let star : σ × Fin n → ℝ := fun p => best p.1 p.2
  have hfstep : ∀ t ω p, f (t + 1) ω p = f t ω p + b t p ω * (G (g t ω) p (out t ω) - f t ω p) := fun t ω p => rfl
  have hgstep : ∀ t ω p, g (t + 1) ω p = (1 - tau t) * g t ω p + tau t * f (t + 1) ω p := fun t ω p => rfl
  have hb0 : ∀ t p ω, 0 ≤ b t p ω := by
    intro t p ω
    refine mul_nonneg (hl.nonneg t) ?_
    split
    · exact le_min ((by norm_num : (0 : ℝ) ≤ 0.1).trans (le_max_right _ _)) (by norm_num)
    · exact le_rfl
  have hb1 : ∀ t p ω, b t p ω ≤ 1 := by
    intro t p ω
    simp only [b]
    split
    · exact hl.le t ω
    · simp
  have hb10 : ∀ t p ω, b t p ω ≤ 10 * lr t := by
    intro t p ω
    simp only [b]
    rw [mul_comm 10]
    refine mul_le_mul_of_nonneg_left ?_ (hl.nonneg t)
    split
    · exact min_le_right _ _
    · norm_num
  -- bounds
  obtain ⟨K, hK⟩ := (Set.finite_range fun x : (σ × Fin n) × Fin m => |G star x.1 x.2 - star x.1|).bddAbove
  have hK : ∀ p j, |G star p j - star p| ≤ K := fun p j => hK ⟨(p, j), rfl⟩
  obtain ⟨C, hC⟩ := (Set.finite_range fun p : σ × Fin n => max |θ0 p.1 p.2 - star p| |θT0 p.1 p.2 - star p|).bddAbove
  have hC : ∀ p, max |θ0 p.1 p.2 - star p| |θT0 p.1 p.2 - star p| ≤ C := fun p => hC ⟨p, rfl⟩
  let M : ℝ := max (max C 0) (K / (1 - gamma))
  have hM0 : 0 ≤ M := (le_max_right C 0).trans (le_max_left _ _)
  have hMC : C ≤ M := (le_max_left C 0).trans (le_max_left _ _)
  have hMK : K + gamma * M ≤ M := by
    have h2 : K / (1 - gamma) ≤ M := le_max_right _ _
    rw [div_le_iff₀ (by linarith)] at h2
    linarith
  have hG : ∀ q : σ × Fin n → ℝ, (∀ p, |q p - star p| ≤ M) → ∀ p j, |G q p j - star p| ≤ M := by
    intro q hq p j
    have h2 := goal_close hr hval (e := e) h0 q star M hq hM0 p j
    have h3 := hK p j
    have h4 : G q p j - star p = (G q p j - G star p j) + (G star p j - star p) := by ring
    rw [h4]
    exact (abs_add_le _ _).trans (by linarith)
  have hbound : ∀ t ω, (∀ p, |f t ω p - star p| ≤ M) ∧ ∀ p, |g t ω p - star p| ≤ M := by
    intro t ω
    induction t with
    | zero => exact ⟨fun p => ((le_max_left _ _).trans (hC p)).trans hMC, fun p => ((le_max_right _ _).trans (hC p)).trans hMC⟩
    | succ t ih =>
      have hf : ∀ p, |f (t + 1) ω p - star p| ≤ M := by
        intro p
        have e1 : f (t + 1) ω p = (1 - b t p ω) * f t ω p + b t p ω * G (g t ω) p (out t ω) := by rw [hfstep]; ring
        rw [e1]
        refine (abs_mix (hb0 t p ω) (hb1 t p ω) (ih.1 p) (hG _ ih.2 p (out t ω))).trans (le_of_eq (by ring))
      refine ⟨hf, fun p => ?_⟩
      rw [hgstep]
      exact (abs_mix (hl.tau_nonneg t) (hl.tau_le t) (ih.2 p) (hf p)).trans (le_of_eq (by ring))
  -- measurability
  have hvalm : ∀ s, Measurable (val s) := by
    intro s
    have : LipschitzWith 1 (val s) := LipschitzWith.of_dist_le_mul fun r1 r2 => by
      rw [Real.dist_eq, NNReal.coe_one, one_mul]
      exact hr.close s r1 r2 _ _ _ (hval _ _) (hval _ _) fun a => by rw [← Real.dist_eq]; exact dist_le_pi_dist r1 r2 a
    exact this.continuous.measurable
  have hbm : ∀ t p, Measurable[ℱ t] (b t p) := by
    intro t p
    refine Measurable.const_mul (Measurable.ite (hs.at_known t p.1 p.2) ?_ measurable_const) _
    exact ((hs.w_known t).max measurable_const).min measurable_const
  have hGm : ∀ t, (∀ p, Measurable[ℱ t] fun ω => g t ω p) → ∀ p j, Measurable[ℱ t] fun ω => G (g t ω) p j := by
    intro t hg p j
    simp only [G, Mdp.goal]
    split
    · exact measurable_const
    · have h2 : Measurable[ℱ t] fun ω b => g t ω (e.next p.1 p.2 j, b) := @measurable_pi_lambda _ _ _ (ℱ t) _ _ fun a => hg _
      exact (((hvalm _).comp h2).const_mul _).const_add _
  have hGout : ∀ t, (∀ p, Measurable[ℱ t] fun ω => g t ω p) → ∀ p, Measurable[ℱ (t + 1)] fun ω => G (g t ω) p (out t ω) := by
    intro t hg p
    have e1 : (fun ω => G (g t ω) p (out t ω)) = fun ω => ∑ j, if out t ω = j then G (g t ω) p j else 0 := by
      funext ω
      simp
    rw [e1]
    refine Finset.measurable_fun_sum _ fun j _ => Measurable.ite (hs.out_known t j) ?_ measurable_const
    exact (hGm t hg p j).mono (ℱ.mono (by omega)) le_rfl
  have hmeas : ∀ t, (∀ p, Measurable[ℱ t] fun ω => f t ω p) ∧ ∀ p, Measurable[ℱ t] fun ω => g t ω p := by
    intro t
    induction t with
    | zero => exact ⟨fun p => measurable_const, fun p => measurable_const⟩
    | succ t ih =>
      have up : ∀ {F : Ω → ℝ}, Measurable[ℱ t] F → Measurable[ℱ (t + 1)] F := fun h => h.mono (ℱ.mono (by omega)) le_rfl
      have hf : ∀ p, Measurable[ℱ (t + 1)] fun ω => f (t + 1) ω p := fun p => by
        simp only [hfstep]
        exact (up (ih.1 p)).add ((up (hbm t p)).mul ((hGout t ih.2 p).sub (up (ih.1 p))))
      refine ⟨hf, fun p => ?_⟩
      simp only [hgstep]
      exact ((up (ih.2 p)).const_mul _).add ((hf p).const_mul _)
  -- the noise
  let d : ℕ → σ × Fin n → Ω → ℝ := fun t p ω => b t p ω * (G (g t ω) p (out t ω) - e.op gamma val (g t ω) p)
  have hopm : ∀ t p, Measurable[ℱ t] fun ω => e.op gamma val (g t ω) p := fun t p => Finset.measurable_fun_sum _ fun j _ => (hGm t (hmeas t).2 p j).const_mul _
  have hdm : ∀ t p, StronglyMeasurable[ℱ (t + 1)] (d t p) := by
    intro t p
    have up : ∀ {F : Ω → ℝ}, Measurable[ℱ t] F → Measurable[ℱ (t + 1)] F := fun h => h.mono (ℱ.mono (by omega)) le_rfl
    exact ((up (hbm t p)).mul ((hGout t (hmeas t).2 p).sub (up (hopm t p)))).stronglyMeasurable
  have hdb : ∀ t p ω, |d t p ω| ≤ 20 * M * lr t := by
    intro t p ω
    have h2 := hG _ (hbound t ω).2 p (out t ω)
    have h3 : |e.op gamma val (g t ω) p - star p| ≤ M := mean_near he _ _ fun j => hG _ (hbound t ω).2 p j
    have h4 : |G (g t ω) p (out t ω) - e.op gamma val (g t ω) p| ≤ 2 * M := by
      have e1 : G (g t ω) p (out t ω) - e.op gamma val (g t ω) p = (G (g t ω) p (out t ω) - star p) - (e.op gamma val (g t ω) p - star p) := by ring
      rw [e1]
      exact (abs_sub _ _).trans (by linarith)
    simp only [d]
    rw [abs_mul, abs_of_nonneg (hb0 t p ω)]
    calc b t p ω * _ ≤ (10 * lr t) * (2 * M) := mul_le_mul (hb10 t p ω) h4 (abs_nonneg _) (mul_nonneg (by norm_num) (hl.nonneg t))
      _ = _ := by ring
  have hdz : ∀ t p, μ[d t p | ℱ t] =ᵐ[μ] 0 := by
    intro t p
    let c : Fin m → Ω → ℝ := fun j ω => b t p ω * G (g t ω) p j
    let ind : Fin m → Ω → ℝ := fun j => Set.indicator {ω | out t ω = j} (fun _ => (1 : ℝ))
    have hcm : ∀ j, StronglyMeasurable[ℱ t] (c j) := fun j => ((hbm t p).mul (hGm t (hmeas t).2 p j)).stronglyMeasurable
    have hcb : ∀ j ω, ‖c j ω‖ ≤ 1 * (M + |star p|) := by
      intro j ω
      have h2 := hG _ (hbound t ω).2 p j
      have h3 : |G (g t ω) p j| ≤ M + |star p| := by
        have e1 : G (g t ω) p j = (G (g t ω) p j - star p) + star p := by ring
        rw [e1]
        exact (abs_add_le _ _).trans (by linarith)
      rw [Real.norm_eq_abs]
      simp only [c]
      rw [abs_mul, abs_of_nonneg (hb0 t p ω)]
      exact mul_le_mul (hb1 t p ω) h3 (abs_nonneg _) zero_le_one
    have hindi : ∀ j, Integrable (ind j) μ := fun j => (integrable_const 1).indicator (ℱ.le _ _ (hs.out_known t j))
    have e1 : d t p = ∑ j, c j * (ind j - fun _ => e.prob p.1 p.2 j) := by
      funext ω
      simp only [d, c, ind, Finset.sum_apply, Pi.mul_apply, Pi.sub_apply, Mdp.op, Set.indicator_apply, Set.mem_ofPred_eq]
      simp only [mul_sub, Finset.sum_sub_distrib, mul_ite, mul_one, mul_zero, Finset.sum_ite_eq, Finset.mem_univ, if_true]
      congr 1
      rw [Finset.mul_sum]
      refine Finset.sum_congr rfl fun j _ => ?_
      simp only [G]
      ring
    rw [e1]
    have h2 : ∀ j, Integrable (c j * (ind j - fun _ => e.prob p.1 p.2 j)) μ := fun j =>
      ((hindi j).sub (integrable_const _)).bdd_mul ((hcm j).mono (ℱ.le t)).aestronglyMeasurable (Eventually.of_forall (hcb j))
    refine (condExp_finsetSum (fun j _ => h2 j) (ℱ t)).trans ?_
    have h3 : ∀ j, μ[c j * (ind j - fun _ => e.prob p.1 p.2 j) | ℱ t] =ᵐ[μ] 0 := by
      intro j
      have h4 := condExp_stronglyMeasurable_mul_of_bound (ℱ.le t) (hcm j) ((hindi j).sub (integrable_const (e.prob p.1 p.2 j))) _ (Eventually.of_forall (hcb j))
      have h5 := condExp_sub (hindi j) (integrable_const (e.prob p.1 p.2 j)) (ℱ t)
      have h6 : μ[(fun _ => e.prob p.1 p.2 j : Ω → ℝ) | ℱ t] = fun _ => e.prob p.1 p.2 j := condExp_const (ℱ.le t) _
      filter_upwards [h4, h5, hs.law t j] with ω h7 h8 h9
      rw [h7, Pi.mul_apply, h8, Pi.sub_apply, h6, h9]
      by_cases hp : (rows t ω).S = p.1 ∧ (rows t ω).A = p.2
      · rw [hp.1, hp.2]; simp
      · have : c j ω = 0 := by simp [c, b, hp]
        rw [this]; simp
    have h4 := eventually_all.2 h3
    filter_upwards [h4] with ω h5
    rw [Finset.sum_apply]
    exact Finset.sum_eq_zero fun j _ => h5 j
  have hsum : Summable fun t => (20 * M * lr t) ^ 2 := by
    have : (fun t => (20 * M * lr t) ^ 2) = fun t => (20 * M) ^ 2 * lr t ^ 2 := by funext t; ring
    rw [this]
    exact hl.squares.mul_left _
  have hnoise : ∀ᵐ ω ∂μ, ∀ p, ∃ S, Tendsto (fun t => ∑ k ∈ Finset.range t, d k p ω) atTop (𝓝 S) := ae_all_iff.2 fun p => noise_sum (ℱ := ℱ) (fun t => hdm t p) (fun t ω => hdb t p ω) hsum (fun t => hdz t p)
  have hvis : ∀ᵐ ω ∂μ, ∀ p : σ × Fin n, ¬ Summable fun t => if (rows t ω).S = p.1 ∧ (rows t ω).A = p.2 then lr t else 0 := ae_all_iff.2 fun p => hl.visits p.1 p.2
  filter_upwards [hnoise, hvis] with ω hS hv s a
  have hN : Noisy (e.op gamma val) (fun t p => f t ω p) (fun t p => g t ω p) (fun t p => b t p ω) (fun t p => d t p ω) tau := by
    refine ⟨fun t p => hb0 t p ω, fun t p => hb1 t p ω, fun t p => ?_, hl.tau_nonneg, hl.tau_le, fun t p => rfl⟩
    rw [hfstep]
    simp only [d]
    ring
  have hT : Attracts (e.op gamma val) star gamma := by
    intro q M' hM' p
    have h2 := congrFun ((mdp_solves_iff hr hval best).1 hbest) p
    show |_ - best p.1 p.2| ≤ _
    rw [show best p.1 p.2 = _ from h2.symm]
    exact mdp_op_close hr hval he h0 q _ M' hM' ((abs_nonneg _).trans (hM' p)) p
  have hnb : ∀ p, ¬ Summable fun t => b t p ω := by
    intro p hsm
    refine hv p (Summable.of_nonneg_of_le (fun t => ?_) (fun t => ?_) (hsm.mul_left 10))
    · split
      · exact hl.nonneg t
      · exact le_rfl
    · simp only [b]
      split
      · have h2 : (0.1 : ℝ) ≤ min (max (rows t ω).W 0.1) 10 := le_min (le_max_right _ _) (by norm_num)
        have := mul_le_mul_of_nonneg_left h2 (hl.nonneg t)
        linarith
      · simp
  exact hN.converges hT h0 h1 hnb hl.syncs hS (fun t p => ⟨(hbound t ω).1 p, (hbound t ω).2 p⟩) (s, a)

/-! ### The updaters -/

/-- **C119** for `QLearning`: in a finite stochastic environment there is one solution of the Bellman equation, and the params of a table, and those of the target network, converge to it almost surely if the learning rates satisfy the
conditions of Robbins and Monro, from everywhere and whatever decides about states and actions.  No update raises. -/
theorem C119_q_learning [Fintype σ] (hn : 0 < n) {e : Mdp σ n m} (he : e.Proper) {gamma : ℝ} (h0 : 0 ≤ gamma) (h1 : gamma < 1) :
    ∃ best, e.Solves gamma Greedy best ∧ (∀ q, e.Solves gamma Greedy q → q = best) ∧
      ∀ {Ω : Type} {m0 : MeasurableSpace Ω} {μ : Measure Ω} [IsProbabilityMeasure μ] {ℱ : Filtration ℕ m0} {lr tau : ℕ → ℝ} {rows : ℕ → Ω → Out σ (Fin n) ℝ} {out : ℕ → Ω → Fin m}, Samples e gamma μ ℱ rows out → Rates μ rows lr tau →
        ∀ type1 θ0 θT0, ∃ θ θT : ℕ → Ω → σ → Fin n → ℝ,
          (∀ k ω, learnS lr mse1 (qLearning n) type1 0 (θ0, θT0) ((List.range k).map fun t => ([rows t ω], tau t)) = .ok (θ k ω, θT k ω)) ∧
          ∀ᵐ ω ∂μ, ∀ s a, Tendsto (fun k => θ k ω s a) atTop (𝓝 (best s a)) ∧ Tendsto (fun k => θT k ω s a) atTop (𝓝 (best s a)) := by
  obtain ⟨best, hb, hu⟩ := mdp_solution (rule_qLearning (σ := σ) hn false) he h0 h1
  exact ⟨best, hb, hu, fun hs hl type1 θ0 θT0 => learnS_converges (rule_qLearning hn type1) hn he h0 h1 hs hl hb θ0 θT0⟩

/-- **C119** for `ExpectedSarsa`: in a finite stochastic environment there is one solution of the Bellman equation, and the params of a table, and those of the target network, converge to it almost surely if the learning rates satisfy the
conditions of Robbins and Monro, from everywhere and whatever decides about states and actions.  No update raises. -/
theorem C119_expected_sarsa [Fintype σ] (hn : 0 < n) {e : Mdp σ n m} (he : e.Proper) {gamma : ℝ} (h0 : 0 ≤ gamma) (h1 : gamma < 1) (logits : σ → Fin n → ℝ) :
    ∃ best, e.Solves gamma (Mean (fun s a => Real.exp (logits s a) / ∑ b, Real.exp (logits s b))) best ∧ (∀ q, e.Solves gamma (Mean (fun s a => Real.exp (logits s a) / ∑ b, Real.exp (logits s b))) q → q = best) ∧
      ∀ {Ω : Type} {m0 : MeasurableSpace Ω} {μ : Measure Ω} [IsProbabilityMeasure μ] {ℱ : Filtration ℕ m0} {lr tau : ℕ → ℝ} {rows : ℕ → Ω → Out σ (Fin n) ℝ} {out : ℕ → Ω → Fin m}, Samples e gamma μ ℱ rows out → Rates μ rows lr tau →
        ∀ type1 θ0 θT0, ∃ θ θT : ℕ → Ω → σ → Fin n → ℝ,
          (∀ k ω, learnS lr mse1 (fun q qTarg => expectedSarsa n (fun S => S.map fun s => (List.finRange n).map (logits s)) q qTarg) type1 0 (θ0, θT0) ((List.range k).map fun t => ([rows t ω], tau t)) = .ok (θ k ω, θT k ω)) ∧
          ∀ᵐ ω ∂μ, ∀ s a, Tendsto (fun k => θ k ω s a) atTop (𝓝 (best s a)) ∧ Tendsto (fun k => θT k ω s a) atTop (𝓝 (best s a)) := by
  obtain ⟨best, hb, hu⟩ := mdp_solution (rule_expectedSarsa (σ := σ) hn false logits) he h0 h1
  exact ⟨best, hb, hu, fun hs hl type1 θ0 θT0 => learnS_converges (rule_expectedSarsa hn type1 logits) hn he h0 h1 hs hl hb θ0 θT0⟩

/-- **C119** for `SoftQLearning`: in a finite stochastic environment there is one solution of the Bellman equation, and the params of a table, and those of the target network, converge to it almost surely if the learning rates satisfy the
conditions of Robbins and Monro, from everywhere and whatever decides about states and actions.  No update raises. -/
theorem C119_soft_q_learning [Fintype σ] (hn : 0 < n) {e : Mdp σ n m} (he : e.Proper) {gamma : ℝ} (h0 : 0 ≤ gamma) (h1 : gamma < 1) {temp : ℝ} (ht : 0 < temp) :
    ∃ best, e.Solves gamma (Soft temp) best ∧ (∀ q, e.Solves gamma (Soft temp) q → q = best) ∧
      ∀ {Ω : Type} {m0 : MeasurableSpace Ω} {μ : Measure Ω} [IsProbabilityMeasure μ] {ℱ : Filtration ℕ m0} {lr tau : ℕ → ℝ} {rows : ℕ → Ω → Out σ (Fin n) ℝ} {out : ℕ → Ω → Fin m}, Samples e gamma μ ℱ rows out → Rates μ rows lr tau →
        ∀ type1 θ0 θT0, ∃ θ θT : ℕ → Ω → σ → Fin n → ℝ,
          (∀ k ω, learnS lr mse1 (fun q qTarg => softQLearning n temp q qTarg) type1 0 (θ0, θT0) ((List.range k).map fun t => ([rows t ω], tau t)) = .ok (θ k ω, θT k ω)) ∧
          ∀ᵐ ω ∂μ, ∀ s a, Tendsto (fun k => θ k ω s a) atTop (𝓝 (best s a)) ∧ Tendsto (fun k => θT k ω s a) atTop (𝓝 (best s a)) := by
  obtain ⟨best, hb, hu⟩ := mdp_solution (rule_softQLearning (σ := σ) hn false ht) he h0 h1
  exact ⟨best, hb, hu, fun hs hl type1 θ0 θT0 => learnS_converges (rule_softQLearning hn type1 ht) hn he h0 h1 hs hl hb θ0 θT0⟩

end Coax.Loop
