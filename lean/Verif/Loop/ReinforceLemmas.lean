import Verif.Loop.Reinforce
import Verif.Loop.AscentLemmas
import Verif.Loop.ClosedProps
import Verif.Loop.SarsaLemmas
import Verif.Policy.GradientProps
import Mathlib.Analysis.Normed.Operator.Mul

/-! Lemmas for property C137: the gradient of the expected return, and what the updates of one episode add up to. -/

namespace Coax.Loop

open Coax.RewardTracing Coax.TD Coax.Core Coax.Values Coax.Pol Coax.Dists Filter Topology MeasureTheory

variable {X σ Ω U V : Type _} {n m : Nat}

/-! ### Tables -/

section table

variable [Fintype σ]

/-- One entry of a table. -/
noncomputable def entry (s : σ) (a : Fin n) : (σ → Fin n → ℝ) →L[ℝ] ℝ := (ContinuousLinearMap.proj (R := ℝ) (φ := fun _ : Fin n => ℝ) a).comp (ContinuousLinearMap.proj (R := ℝ) (φ := fun _ : σ => Fin n → ℝ) s)

omit [Fintype σ] in
@[simp] theorem entry_apply (s : σ) (a : Fin n) (θ : σ → Fin n → ℝ) : entry s a θ = θ s a := rfl

/-- The inner product of tables. -/
noncomputable def dot (σ : Type _) [Fintype σ] (n : ℕ) : (σ → Fin n → ℝ) →L[ℝ] (σ → Fin n → ℝ) →L[ℝ] ℝ := ∑ s, ∑ a, (ContinuousLinearMap.mul ℝ ℝ).bilinearComp (entry s a) (entry s a)

theorem dot_apply (x y : σ → Fin n → ℝ) : dot σ n x y = ∑ s, ∑ a, x s a * y s a := by
  simp [dot, sum_apply]

theorem entry_le (x : σ → Fin n → ℝ) (s : σ) (a : Fin n) : |x s a| ≤ ‖x‖ := (norm_le_pi_norm (x s) a).trans (norm_le_pi_norm x s)

theorem table_le {x : σ → Fin n → ℝ} {c : ℝ} (hc : 0 ≤ c) (h : ∀ s a, |x s a| ≤ c) : ‖x‖ ≤ c := (pi_norm_le_iff_of_nonneg hc).2 fun s => (pi_norm_le_iff_of_nonneg hc).2 fun a => h s a

theorem norm_sq_le_dot {x y : σ → Fin n → ℝ} (h : ∀ s a, x s a ^ 2 ≤ x s a * y s a) : ‖x‖ ^ 2 ≤ dot σ n x y := by
  have h0 : ∀ s a, 0 ≤ x s a * y s a := fun s a => (sq_nonneg _).trans (h s a)
  have h1 : 0 ≤ dot σ n x y := by
    rw [dot_apply]
    exact Finset.sum_nonneg fun s _ => Finset.sum_nonneg fun a _ => h0 s a
  have h2 : ‖x‖ ≤ Real.sqrt (dot σ n x y) := by
    refine table_le (Real.sqrt_nonneg _) fun s a => ?_
    refine Real.abs_le_sqrt ((h s a).trans ?_)
    rw [dot_apply]
    exact (Finset.single_le_sum (f := fun a => x s a * y s a) (fun a _ => h0 s a) (Finset.mem_univ a)).trans
      (Finset.single_le_sum (f := fun s => ∑ a, x s a * y s a) (fun s _ => Finset.sum_nonneg fun a _ => h0 s a) (Finset.mem_univ s))
  calc ‖x‖ ^ 2 ≤ Real.sqrt (dot σ n x y) ^ 2 := pow_le_pow_left₀ (norm_nonneg _) h2 2
    _ = _ := Real.sq_sqrt h1

end table

/-! ### The score -/

section score

variable [DecidableEq σ]

/-- The gradient of the log-probability of action `a` in state `s` with respect to the logits. -/
noncomputable def scoreAt (θ : σ → Fin n → ℝ) (s : σ) (a : Fin n) : σ → Fin n → ℝ := fun s' b => if s' = s then (if b = a then 1 else 0) - meanRow (θ s) b else 0

omit [DecidableEq σ] in
theorem prob_le_one (z : Fin n → ℝ) (a : Fin n) : meanRow z a ≤ 1 := by
  have h := C49_probabilities z
  rw [← h.2 (Nat.pos_of_ne_zero (by rintro rfl; exact a.elim0))]
  exact Finset.single_le_sum (fun b _ => (h.1 b).le) (Finset.mem_univ a)

variable [Fintype σ]

theorem scoreAt_le (θ : σ → Fin n → ℝ) (s : σ) (a : Fin n) : ‖scoreAt θ s a‖ ≤ 1 := by
  refine table_le zero_le_one fun s' b => ?_
  have h1 := ((C49_probabilities (θ s)).1 b).le
  have h2 := prob_le_one (θ s) b
  unfold scoreAt
  rw [abs_le]
  split
  · split <;> constructor <;> linarith
  · constructor <;> norm_num

theorem prob_deriv (θ : σ → Fin n → ℝ) (s : σ) (a : Fin n) : HasFDerivAt (fun θ : σ → Fin n → ℝ => meanRow (θ s) a) (dot σ n (meanRow (θ s) a • scoreAt θ s a)) θ := by
  have h := hasFDerivAt_meanRow (z := fun θ : σ → Fin n → ℝ => θ s) (z' := fun k => entry s k) (θ := θ) (fun k => (entry s k).hasFDerivAt) a
  refine h.congr_fderiv ?_
  ext δ
  rw [dot_apply, Finset.sum_eq_single s]
  · simp only [score, smul_apply, sub_apply, sum_apply, entry_apply, smul_eq_mul, Pi.smul_apply, scoreAt, if_true]
    simp only [sub_mul, mul_sub, Finset.sum_sub_distrib, ite_mul, one_mul, zero_mul, mul_ite, mul_zero, mul_assoc]
    rw [Finset.sum_ite_eq' Finset.univ a, if_pos (Finset.mem_univ a), Finset.mul_sum]
  · intro s' _ hs
    simp [scoreAt, hs]
  · simp

theorem prob_close (θ θ' : σ → Fin n → ℝ) (s : σ) (a : Fin n) : |meanRow (θ s) a - meanRow (θ' s) a| ≤ ‖dot σ n‖ * ‖θ - θ'‖ := by
  have := Convex.norm_image_sub_le_of_norm_hasFDerivWithin_le (𝕜 := ℝ) (f := fun θ : σ → Fin n → ℝ => meanRow (θ s) a) (f' := fun θ => dot σ n (meanRow (θ s) a • scoreAt θ s a)) (C := ‖dot σ n‖) (s := Set.univ) (x := θ') (y := θ)
    (fun z _ => (prob_deriv z s a).hasFDerivWithinAt)
    (fun z _ => ((dot σ n).le_opNorm _).trans (mul_le_of_le_one_right (norm_nonneg _) (by
      rw [norm_smul, Real.norm_eq_abs, abs_of_pos ((C49_probabilities (z s)).1 a)]
      exact mul_le_one₀ (prob_le_one _ _) (norm_nonneg _) (scoreAt_le _ _ _)))) convex_univ (Set.mem_univ _) (Set.mem_univ _)
  simpa using this

theorem scoreAt_close (θ θ' : σ → Fin n → ℝ) (s : σ) (a : Fin n) : ‖scoreAt θ s a - scoreAt θ' s a‖ ≤ ‖dot σ n‖ * ‖θ - θ'‖ := by
  refine table_le (by positivity) fun s' b => ?_
  simp only [Pi.sub_apply, scoreAt]
  split
  · have := prob_close θ θ' s b
    rw [abs_sub_comm] at this
    rwa [sub_sub_sub_cancel_left]
  · simp; positivity

theorem prob_smooth (s : σ) (a : Fin n) : Smooth (dot σ n) (fun θ => meanRow (θ s) a) (fun θ => meanRow (θ s) a • scoreAt θ s a) (1 + 2 * ‖dot σ n‖) where
  nonneg := by positivity
  le θ := by
    rw [abs_of_pos ((C49_probabilities (θ s)).1 a)]
    have := prob_le_one (θ s) a
    have := norm_nonneg (dot σ n)
    linarith
  grad_le θ := by
    rw [norm_smul, Real.norm_eq_abs, abs_of_pos ((C49_probabilities (θ s)).1 a)]
    have := mul_le_one₀ (prob_le_one (θ s) a) (norm_nonneg _) (scoreAt_le θ s a)
    have := norm_nonneg (dot σ n)
    linarith
  lip θ θ' := by
    have e : meanRow (θ s) a • scoreAt θ s a - meanRow (θ' s) a • scoreAt θ' s a = meanRow (θ s) a • (scoreAt θ s a - scoreAt θ' s a) + (meanRow (θ s) a - meanRow (θ' s) a) • scoreAt θ' s a := by
      rw [smul_sub, sub_smul]; abel
    rw [e]
    refine (norm_add_le _ _).trans ?_
    rw [norm_smul, norm_smul, Real.norm_eq_abs, Real.norm_eq_abs, abs_of_pos ((C49_probabilities (θ s)).1 a)]
    have h1 := mul_le_mul (prob_le_one (θ s) a) (scoreAt_close θ θ' s a) (norm_nonneg _) zero_le_one
    have h2 := mul_le_mul (prob_close θ θ' s a) (scoreAt_le θ' s a) (norm_nonneg _) (by positivity)
    have := norm_nonneg (θ - θ')
    linarith
  deriv θ := prob_deriv θ s a

end score

/-! ### Values and gradients -/

section values

variable [DecidableEq σ] (e : Mdp X n m) (obs : X → σ) (gamma : ℝ)

/-- The expected sum of the next `k` rewards. -/
noncomputable def val : ℕ → (σ → Fin n → ℝ) → X → ℝ
  | 0, _, _ => 0
  | k + 1, θ, x => ∑ a, meanRow (θ (obs x)) a * ∑ j, e.prob x a j * (e.reward x a j + if e.ends x a j then 0 else gamma * val k θ (e.next x a j))

/-- The value of an action. -/
noncomputable def act (k : ℕ) (θ : σ → Fin n → ℝ) (x : X) (a : Fin n) : ℝ := ∑ j, e.prob x a j * (e.reward x a j + if e.ends x a j then 0 else gamma * val e obs gamma k θ (e.next x a j))

/-- The scores times the values of the actions, summed up until the end of the episode, with discount factor `β`. -/
noncomputable def way (β : ℝ) : ℕ → (σ → Fin n → ℝ) → X → σ → Fin n → ℝ
  | 0, _, _ => 0
  | k + 1, θ, x => ∑ a, (meanRow (θ (obs x)) a • (∑ j, e.prob x a j • if e.ends x a j then 0 else β • way β k θ (e.next x a j)) + act e obs gamma k θ x a • (meanRow (θ (obs x)) a • scoreAt θ (obs x) a))

theorem val_smooth [Fintype σ] (k : ℕ) (x : X) : ∃ L, Smooth (dot σ n) (fun θ => val e obs gamma k θ x) (fun θ => way e obs gamma gamma k θ x) L := by
  induction k generalizing x with
  | zero => exact ⟨_, Smooth.const _ 0⟩
  | succ k ih =>
    refine Smooth.sum Finset.univ fun a _ => ?_
    have h1 : ∃ L, Smooth (dot σ n) (fun θ => act e obs gamma k θ x a) (fun θ => ∑ j, e.prob x a j • if e.ends x a j then (0 : σ → Fin n → ℝ) else gamma • way e obs gamma gamma k θ (e.next x a j)) L := by
      refine Smooth.sum Finset.univ fun j _ => ?_
      have h2 : ∃ L, Smooth (dot σ n) (fun θ => e.reward x a j + if e.ends x a j then 0 else gamma * val e obs gamma k θ (e.next x a j)) (fun θ => if e.ends x a j then (0 : σ → Fin n → ℝ) else gamma • way e obs gamma gamma k θ (e.next x a j)) L := by
        cases e.ends x a j
        · obtain ⟨L, hL⟩ := ih (e.next x a j)
          exact ⟨_, by simpa using (Smooth.const (dot σ n) (e.reward x a j)).add ((Smooth.const (dot σ n) gamma).mul hL)⟩
        · exact ⟨_, by simpa using Smooth.const (dot σ n) (e.reward x a j)⟩
      obtain ⟨L, hL⟩ := h2
      exact ⟨_, by simpa using (Smooth.const (dot σ n) (e.prob x a j)).mul hL⟩
    obtain ⟨L, hL⟩ := h1
    exact ⟨_, (prob_smooth (obs x) a).mul hL⟩

variable {e obs gamma} {rank : X → ℕ}

omit [DecidableEq σ] in
theorem val_stable (hr : ∀ x a j, e.ends x a j = false → rank (e.next x a j) < rank x) (θ : σ → Fin n → ℝ) (k : ℕ) : ∀ x, rank x < k → val e obs gamma (k + 1) θ x = val e obs gamma k θ x := by
  induction k with
  | zero => exact fun x h => absurd h (Nat.not_lt_zero _)
  | succ k ih =>
    intro x h
    rw [val, val]
    refine Finset.sum_congr rfl fun a _ => ?_
    congr 1
    refine Finset.sum_congr rfl fun j _ => ?_
    cases hj : e.ends x a j
    · have := hr x a j hj
      simp only [Bool.false_eq_true, if_false]
      rw [ih _ (by omega)]
    · rfl

omit [DecidableEq σ] in
theorem act_stable (hr : ∀ x a j, e.ends x a j = false → rank (e.next x a j) < rank x) (θ : σ → Fin n → ℝ) (k : ℕ) (x : X) (h : rank x < k + 1) (a : Fin n) : act e obs gamma (k + 1) θ x a = act e obs gamma k θ x a := by
  unfold act
  refine Finset.sum_congr rfl fun j _ => ?_
  cases hj : e.ends x a j
  · have := hr x a j hj
    simp only [Bool.false_eq_true, if_false]
    rw [val_stable hr _ _ _ (by omega)]
  · rfl

theorem way_stable (hr : ∀ x a j, e.ends x a j = false → rank (e.next x a j) < rank x) (β : ℝ) (θ : σ → Fin n → ℝ) (k : ℕ) : ∀ x, rank x < k → way e obs gamma β (k + 1) θ x = way e obs gamma β k θ x := by
  induction k with
  | zero => exact fun x h => absurd h (Nat.not_lt_zero _)
  | succ k ih =>
    intro x h
    rw [way, way]
    refine Finset.sum_congr rfl fun a _ => ?_
    rw [act_stable hr θ k x h]
    congr 2
    refine Finset.sum_congr rfl fun j _ => ?_
    cases hj : e.ends x a j
    · have := hr x a j hj
      simp only [Bool.false_eq_true, if_false]
      rw [ih _ (by omega)]
    · rfl

variable {H : ℕ} {R : ℝ}

omit [DecidableEq σ] in
theorem val_eq (hr : ∀ x a j, e.ends x a j = false → rank (e.next x a j) < rank x) (hH : ∀ x, rank x < H) (θ : σ → Fin n → ℝ) (x : X) : val e obs gamma H θ x = ∑ a, meanRow (θ (obs x)) a * act e obs gamma H θ x a := by
  rw [← val_stable hr θ H x (hH x)]
  rfl

theorem way_eq (hr : ∀ x a j, e.ends x a j = false → rank (e.next x a j) < rank x) (hH : ∀ x, rank x < H) (β : ℝ) (θ : σ → Fin n → ℝ) (x : X) :
    way e obs gamma β H θ x = ∑ a, (meanRow (θ (obs x)) a • (∑ j, e.prob x a j • if e.ends x a j then 0 else β • way e obs gamma β H θ (e.next x a j)) + act e obs gamma H θ x a • (meanRow (θ (obs x)) a • scoreAt θ (obs x) a)) := by
  rw [← way_stable hr β θ H x (hH x), way]

omit [DecidableEq σ] in
theorem val_worth (hr : ∀ x a j, e.ends x a j = false → rank (e.next x a j) < rank x) (hH : ∀ x, rank x < H) {draw : List (Fin n) → Option (Fin n)} (hd : Draws draw) {tau : ℝ} (htau : 0 < tau) (θ : σ → Fin n → ℝ) (x : X) :
    e.Worth gamma 0 (calls draw tau fun x => θ (obs x)) x (val e obs gamma H θ x) := by
  rw [calls_eq hd htau]
  have h1 : ∀ k h x, e.ret gamma 0 (stationary fun x => meanRow (θ (obs x))) k h x = val e obs gamma k θ x := by
    intro k
    induction k with
    | zero => exact fun _ _ => rfl
    | succ k ih =>
      intro h x
      rw [Mdp.ret, val, zero_mul, add_zero]
      simp only [ih, stationary]
  have h2 : ∀ d, val e obs gamma (H + d) θ x = val e obs gamma H θ x := by
    intro d
    induction d with
    | zero => rfl
    | succ d ih => rw [← ih, ← add_assoc, val_stable hr θ (H + d) x (by have := hH x; omega)]
  refine tendsto_atTop_of_eventually_const (i₀ := H) fun k hk => ?_
  rw [h1, show k = H + (k - H) by omega, h2]

/-! ### The direction of the updates -/

open Classical in
/-- How often `x'` is visited, with discount factor `β`. -/
noncomputable def visits (e : Mdp X n m) (obs : X → σ) (β : ℝ) (θ : σ → Fin n → ℝ) (x' : X) : ℕ → X → ℝ
  | 0, _ => 0
  | k + 1, x => (if x = x' then 1 else 0) + ∑ a, meanRow (θ (obs x)) a * ∑ j, e.prob x a j * if e.ends x a j then 0 else β * visits e obs β θ x' k (e.next x a j)

omit [DecidableEq σ] in
theorem visits_nonneg (he : e.Proper) {β : ℝ} (hβ : 0 ≤ β) (θ : σ → Fin n → ℝ) (x' : X) (k : ℕ) : ∀ x, 0 ≤ visits e obs β θ x' k x := by
  induction k with
  | zero => exact fun _ => le_rfl
  | succ k ih =>
    intro x
    rw [visits]
    refine add_nonneg (by split <;> norm_num) (Finset.sum_nonneg fun a _ => mul_nonneg ((C49_probabilities _).1 a).le (Finset.sum_nonneg fun j _ => mul_nonneg (he.nonneg _ _ _) ?_))
    split
    · exact le_rfl
    · exact mul_nonneg hβ (ih _)

omit [DecidableEq σ] in
theorem visits_le (he : e.Proper) (h0 : 0 ≤ gamma) (h1 : gamma ≤ 1) (θ : σ → Fin n → ℝ) (x' : X) (k : ℕ) : ∀ x, visits e obs gamma θ x' k x ≤ visits e obs 1 θ x' k x := by
  induction k with
  | zero => exact fun _ => le_rfl
  | succ k ih =>
    intro x
    rw [visits, visits]
    refine add_le_add le_rfl (Finset.sum_le_sum fun a _ => mul_le_mul_of_nonneg_left (Finset.sum_le_sum fun j _ => mul_le_mul_of_nonneg_left ?_ (he.nonneg _ _ _)) ((C49_probabilities _).1 a).le)
    split
    · exact le_rfl
    · exact mul_le_mul h1 (ih _) (visits_nonneg he h0 _ _ _ _) zero_le_one

omit [DecidableEq σ] in
theorem visits_ge (he : e.Proper) (h0 : 0 ≤ gamma) (h1 : gamma ≤ 1) (θ : σ → Fin n → ℝ) (x' : X) (k : ℕ) : ∀ x, gamma ^ k * visits e obs 1 θ x' k x ≤ visits e obs gamma θ x' k x := by
  induction k with
  | zero => intro x; simp [visits]
  | succ k ih =>
    intro x
    rw [visits, visits, mul_add, Finset.mul_sum]
    refine add_le_add ?_ (Finset.sum_le_sum fun a _ => ?_)
    · split
      · rw [mul_one]; exact pow_le_one₀ h0 h1
      · simp
    · rw [mul_left_comm, Finset.mul_sum]
      refine mul_le_mul_of_nonneg_left (Finset.sum_le_sum fun j _ => ?_) ((C49_probabilities _).1 a).le
      rw [mul_left_comm]
      refine mul_le_mul_of_nonneg_left ?_ (he.nonneg _ _ _)
      split
      · simp
      · rw [one_mul, pow_succ, mul_comm (gamma ^ k), mul_assoc]
        exact mul_le_mul_of_nonneg_left (ih _) h0

theorem way_apply (hr : ∀ x a j, e.ends x a j = false → rank (e.next x a j) < rank x) (hH : ∀ x, rank x < H) (β : ℝ) (θ : σ → Fin n → ℝ) (x : X) (s : σ) (b : Fin n) :
    way e obs gamma β H θ x s b = (∑ a, meanRow (θ (obs x)) a * ∑ j, e.prob x a j * if e.ends x a j then 0 else β * way e obs gamma β H θ (e.next x a j) s b) +
      ∑ a, act e obs gamma H θ x a * (meanRow (θ (obs x)) a * scoreAt θ (obs x) a s b) := by
  rw [way_eq hr hH β θ x, ← Finset.sum_add_distrib, Finset.sum_apply, Finset.sum_apply]
  refine Finset.sum_congr rfl fun a _ => ?_
  simp only [Pi.add_apply, Pi.smul_apply, smul_eq_mul, Finset.sum_apply]
  congr 2
  refine Finset.sum_congr rfl fun j _ => ?_
  split <;> simp

theorem way_visits (hr : ∀ x a j, e.ends x a j = false → rank (e.next x a j) < rank x) (hH : ∀ x, rank x < H) (hobs : Function.Injective obs) (β : ℝ) (θ : σ → Fin n → ℝ) (x' : X) (b : Fin n) (k : ℕ) :
    ∀ x, rank x < k → way e obs gamma β H θ x (obs x') b = visits e obs β θ x' k x * ∑ a, act e obs gamma H θ x' a * (meanRow (θ (obs x')) a * scoreAt θ (obs x') a (obs x') b) := by
  induction k with
  | zero => exact fun x h => absurd h (Nat.not_lt_zero _)
  | succ k ih =>
    intro x hx
    rw [way_apply hr hH, visits, add_mul, add_comm]
    congr 1
    · by_cases h : x = x'
      · rw [h, if_pos rfl, one_mul]
      · have : obs x' ≠ obs x := fun h' => h (hobs h'.symm)
        rw [if_neg h, zero_mul]
        refine Finset.sum_eq_zero fun a _ => ?_
        simp [scoreAt, this]
    · rw [Finset.sum_mul]
      refine Finset.sum_congr rfl fun a _ => ?_
      rw [mul_assoc, Finset.sum_mul]
      congr 1
      refine Finset.sum_congr rfl fun j _ => ?_
      cases hj : e.ends x a j
      · have := hr x a j hj
        simp only [Bool.false_eq_true, if_false]
        rw [ih _ (by omega)]
        ring
      · simp

theorem way_unseen (hr : ∀ x a j, e.ends x a j = false → rank (e.next x a j) < rank x) (hH : ∀ x, rank x < H) {s : σ} (hs : ∀ x, obs x ≠ s) (β : ℝ) (θ : σ → Fin n → ℝ) (b : Fin n) (k : ℕ) :
    ∀ x, rank x < k → way e obs gamma β H θ x s b = 0 := by
  induction k with
  | zero => exact fun x h => absurd h (Nat.not_lt_zero _)
  | succ k ih =>
    intro x hx
    rw [way_apply hr hH]
    have h1 : ∀ a, scoreAt θ (obs x) a s b = 0 := fun a => by simp [scoreAt, (hs x).symm]
    have h2 : ∀ a j, (if e.ends x a j then 0 else β * way e obs gamma β H θ (e.next x a j) s b) = 0 := by
      intro a j
      cases hj : e.ends x a j
      · have := hr x a j hj
        simp only [Bool.false_eq_true, if_false]
        rw [ih _ (by omega), mul_zero]
      · rfl
    simp [h1, h2]

theorem way_le [Fintype σ] [Finite X] (he : e.Proper) (hr : ∀ x a j, |e.reward x a j| ≤ R) (β : ℝ) (k : ℕ) : ∃ K, ∀ (θ : σ → Fin n → ℝ) x, ‖way e obs gamma β k θ x‖ ≤ K := by
  induction k with
  | zero => exact ⟨0, fun θ x => by simp [way]⟩
  | succ k ih =>
    obtain ⟨K, hK⟩ := ih
    choose L hL using fun x => val_smooth e obs gamma (n := n) (σ := σ) k x
    obtain ⟨Lm, hLm⟩ := bounded L
    have hav : ∀ {x a} {z : Fin m → ℝ} {c : ℝ}, (∀ j, |z j| ≤ c) → |∑ j, e.prob x a j * z j| ≤ c := by
      intro x a z c h
      calc _ ≤ ∑ j, |e.prob x a j * z j| := Finset.abs_sum_le_sum_abs _ _
        _ ≤ ∑ j, e.prob x a j * c := Finset.sum_le_sum fun j _ => by
            rw [abs_mul, abs_of_nonneg (he.nonneg _ _ _)]
            exact mul_le_mul_of_nonneg_left (h j) (he.nonneg _ _ _)
        _ = c := by rw [← Finset.sum_mul, he.total, one_mul]
    have hact : ∀ θ x a, |act e obs gamma k θ x a| ≤ R + |gamma| * |Lm| := by
      intro θ x a
      refine hav fun j => (abs_add_le _ _).trans (add_le_add (hr x a j) ?_)
      split
      · rw [abs_zero]; positivity
      · rw [abs_mul]
        exact mul_le_mul_of_nonneg_left (((hL _).le θ).trans ((le_abs_self _).trans ((hLm _).trans (le_abs_self _)))) (abs_nonneg _)
    refine ⟨∑ a : Fin n, (|β| * |K| + (R + |gamma| * |Lm|)), fun θ x => ?_⟩
    rw [way]
    refine (norm_sum_le _ _).trans (Finset.sum_le_sum fun a _ => (norm_add_le _ _).trans (add_le_add ?_ ?_))
    · rw [norm_smul, Real.norm_eq_abs, abs_of_pos ((C49_probabilities _).1 a)]
      refine (mul_le_of_le_one_left (norm_nonneg _) (prob_le_one _ _)).trans ?_
      refine (norm_sum_le _ _).trans ?_
      calc _ ≤ ∑ j, e.prob x a j * (|β| * |K|) := Finset.sum_le_sum fun j _ => by
            rw [norm_smul, Real.norm_eq_abs, abs_of_nonneg (he.nonneg _ _ _)]
            refine mul_le_mul_of_nonneg_left ?_ (he.nonneg _ _ _)
            split
            · rw [norm_zero]; positivity
            · rw [norm_smul, Real.norm_eq_abs]
              exact mul_le_mul_of_nonneg_left ((hK _ _).trans (le_abs_self _)) (abs_nonneg _)
        _ = _ := by rw [← Finset.sum_mul, he.total, one_mul]
    · rw [norm_smul, norm_smul, Real.norm_eq_abs, Real.norm_eq_abs, abs_of_pos ((C49_probabilities _).1 a)]
      have := mul_le_one₀ (prob_le_one (θ (obs x)) a) (norm_nonneg _) (scoreAt_le θ (obs x) a)
      exact (mul_le_of_le_one_right (abs_nonneg _) this).trans (hact θ x a)

/-- The direction of the updates is not far from the gradient, if there is no discounting, or if the policy sees the state. -/
theorem way_up [Fintype σ] (he : e.Proper) (hr : ∀ x a j, e.ends x a j = false → rank (e.next x a j) < rank x) (hH : ∀ x, rank x < H) (hg : gamma = 1 ∨ 0 < gamma ∧ gamma ≤ 1 ∧ Function.Injective obs) :
    ∃ K, 0 ≤ K ∧ ∀ θ x, (∀ s a, way e obs gamma gamma H θ x s a ^ 2 ≤ way e obs gamma gamma H θ x s a * way e obs gamma 1 H θ x s a) ∧ ‖way e obs gamma 1 H θ x‖ ≤ K * ‖way e obs gamma gamma H θ x‖ := by
  rcases hg with rfl | ⟨h0, h1, hobs⟩
  · exact ⟨1, zero_le_one, fun θ x => ⟨fun s a => by rw [pow_two], by rw [one_mul]⟩⟩
  · have hp : 0 < gamma ^ H := pow_pos h0 H
    refine ⟨(gamma ^ H)⁻¹, (inv_pos.2 hp).le, fun θ x => ?_⟩
    have key : ∀ s a, way e obs gamma gamma H θ x s a ^ 2 ≤ way e obs gamma gamma H θ x s a * way e obs gamma 1 H θ x s a ∧ |way e obs gamma 1 H θ x s a| ≤ (gamma ^ H)⁻¹ * |way e obs gamma gamma H θ x s a| := by
      intro s b
      by_cases hs : ∃ x', obs x' = s
      · obtain ⟨x', rfl⟩ := hs
        rw [way_visits hr hH hobs gamma θ x' b H x (hH x), way_visits hr hH hobs 1 θ x' b H x (hH x)]
        set A := ∑ a, act e obs gamma H θ x' a * (meanRow (θ (obs x')) a * scoreAt θ (obs x') a (obs x') b)
        have v0 := visits_nonneg (obs := obs) he h0.le θ x' H x
        have v1 := visits_le (obs := obs) he h0.le h1 θ x' H x
        have v2 := visits_ge (obs := obs) he h0.le h1 θ x' H x
        constructor
        · have := mul_le_mul_of_nonneg_right (mul_le_mul_of_nonneg_left v1 v0) (sq_nonneg A)
          nlinarith
        · rw [abs_mul, abs_mul, abs_of_nonneg v0, abs_of_nonneg (v0.trans v1), ← mul_assoc]
          refine mul_le_mul_of_nonneg_right ?_ (abs_nonneg A)
          rw [inv_mul_eq_div, le_div_iff₀ hp, mul_comm]
          exact v2
      · push Not at hs
        rw [way_unseen hr hH hs gamma θ b H x (hH x), way_unseen hr hH hs 1 θ b H x (hH x)]
        simp
    refine ⟨fun s a => (key s a).1, table_le (by positivity) fun s a => (key s a).2.trans ?_⟩
    exact mul_le_mul_of_nonneg_left (entry_le _ s a) (by positivity)

end values

/-! ### The updates -/

section updates

variable [DecidableEq σ]

omit [DecidableEq σ] in
theorem pgLoss_single (o : Out σ (Fin n) ℝ) (A : ℝ) (θ : σ → Fin n → ℝ) (hw : o.W = 1) : ∃ ms, pgLoss [o] [A] θ = .ok (some (-(A * logSoftmax (θ o.S) o.A)), ms) := by
  have h1 : logProbaRow (θ o.S) (fun k => if k = o.A then 1 else 0) = logSoftmax (θ o.S) o.A := logProbaRow_oneHot (θ o.S) o.A
  have h2 : clip 1 0.1 10 = 1 := by unfold clip; norm_num
  simp only [pgLoss, vanillaObjective, lossFunc, clipW, hw, h1, h2, List.map_cons, List.map_nil, List.length_cons, List.length_nil, List.zipWith, mean, broadcast, and_self, if_true, reduceCtorEq, if_false, List.sum_cons, List.sum_nil, Option.map_some, one_mul, add_zero, zero_add, Nat.cast_one, div_one]
  exact ⟨_, rfl⟩

theorem pgUpdate_single (lr : ℝ) (θ : σ → Fin n → ℝ) (o : Out σ (Fin n) ℝ) (A : ℝ) (hw : o.W = 1) : pgUpdate lr θ [o] [A] = .ok (θ + (lr * A) • scoreAt θ o.S o.A) := by
  obtain ⟨ms, h⟩ := pgLoss_single o A θ hw
  unfold pgUpdate
  rw [h]
  simp only
  congr 1
  funext s b
  have h1 : (fun y => pgValue (pgLoss [o] [A] (setEntry θ s b y))) = fun y => -(A * logSoftmax (setEntry θ s b y o.S) o.A) := by
    funext y
    obtain ⟨ms, h⟩ := pgLoss_single o A (setEntry θ s b y) hw
    rw [h]
    rfl
  have hz : ∀ k, HasDerivAt (fun y => setEntry θ s b y o.S k) (if o.S = s ∧ k = b then 1 else 0) (θ s b) := by
    intro k
    unfold setEntry
    split
    · exact hasDerivAt_id _
    · exact hasDerivAt_const _ _
  have h2 := hasFDerivAt_logSoftmax (z := fun y => setEntry θ s b y o.S) (θ := θ s b) (fun k => (hz k).hasFDerivAt) o.A
  have h3 : (setEntry θ s b (θ s b)) o.S = θ o.S := by
    funext k
    unfold setEntry
    split
    · rename_i h; rw [h.1, h.2]
    · rfl
  have h4 : HasDerivAt (fun y => -(A * logSoftmax (setEntry θ s b y o.S) o.A)) _ (θ s b) := ((h2.hasDerivAt).const_mul A).neg
  rw [h1, h4.deriv, h3]
  simp only [score, sub_apply, sum_apply, smul_apply, ContinuousLinearMap.toSpanSingleton_apply, Pi.add_apply, Pi.smul_apply, smul_eq_mul, scoreAt]
  by_cases hs : s = o.S
  · subst hs
    simp only [true_and, if_true, mul_ite, mul_one, mul_zero]
    rw [Finset.sum_ite_eq' Finset.univ b, if_pos (Finset.mem_univ b)]
    have : (if o.A = b then (1 : ℝ) else 0) = if b = o.A then 1 else 0 := by simp only [eq_comm]
    rw [this]
    ring
  · have : ¬ o.S = s := fun h => hs h.symm
    simp [this, hs]

/-- The updates of an episode if the params did not change in between: what the rewards so far contribute, and the factor of the value of what is still to come. -/
noncomputable def eligible (gamma : ℝ) (θ : σ → Fin n → ℝ) (l : List (Step σ (Fin n) ℝ)) : (σ → Fin n → ℝ) × (σ → Fin n → ℝ) :=
  l.foldl (fun p x => (p.1 + x.r • (p.2 + scoreAt θ x.s x.a), gamma • (p.2 + scoreAt θ x.s x.a))) (0, 0)

theorem eligible_append (gamma : ℝ) (θ : σ → Fin n → ℝ) (l : List (Step σ (Fin n) ℝ)) (x : Step σ (Fin n) ℝ) :
    eligible gamma θ (l ++ [x]) = ((eligible gamma θ l).1 + x.r • ((eligible gamma θ l).2 + scoreAt θ x.s x.a), gamma • ((eligible gamma θ l).2 + scoreAt θ x.s x.a)) := by
  unfold eligible
  rw [List.foldl_append]
  rfl

variable [Fintype σ]

theorem eligible_le {gamma : ℝ} (h0 : 0 ≤ gamma) (h1 : gamma ≤ 1) (θ : σ → Fin n → ℝ) {R : ℝ} (hR : 0 ≤ R) (l : List (Step σ (Fin n) ℝ)) (hl : ∀ x ∈ l, |x.r| ≤ R) :
    ‖(eligible gamma θ l).1‖ ≤ l.length * (R * l.length) ∧ ‖(eligible gamma θ l).2‖ ≤ l.length := by
  induction l using List.reverseRecOn with
  | nil => simp [eligible]
  | append_singleton l x ih =>
    obtain ⟨i1, i2⟩ := ih fun y hy => hl y (by simp [hy])
    have hx := hl x (by simp)
    have i3 : ‖(eligible gamma θ l).2 + scoreAt θ x.s x.a‖ ≤ l.length + 1 := (norm_add_le _ _).trans (add_le_add i2 (scoreAt_le _ _ _))
    rw [eligible_append]
    simp only [List.length_append, List.length_singleton, Nat.cast_add, Nat.cast_one]
    constructor
    · refine (norm_add_le _ _).trans ?_
      rw [norm_smul, Real.norm_eq_abs]
      have i4 := mul_le_mul hx i3 (norm_nonneg _) hR
      have i5 : (l.length : ℝ) * (R * l.length) ≤ l.length * (R * (l.length + 1)) := mul_le_mul_of_nonneg_left (mul_le_mul_of_nonneg_left (by linarith) hR) (by positivity)
      nlinarith
    · rw [norm_smul, Real.norm_eq_abs, abs_of_nonneg h0]
      exact (mul_le_of_le_one_left (norm_nonneg _) h1).trans i3

/-- What the updates at the end of an episode add up to. -/
theorem pgPops_ok {gamma : ℝ} (h0 : 0 ≤ gamma) (h1 : gamma ≤ 1) {lr : ℕ → ℝ} (hl0 : ∀ k, 0 ≤ lr k) (hl : Antitone lr) {R : ℝ} (hR : 0 ≤ R) {H : ℕ} (l : List (Step σ (Fin n) ℝ)) :
    (∀ x ∈ l, |x.r| ≤ R ∧ x.logp = 0 ∧ x.w = 1) → ∀ (g : ℝ) (θ1 : σ → Fin n → ℝ) (k fuel : ℕ), l.length < fuel →
    ∃ g' θ2, pgPops lr fuel ⟨gamma, l, true, g⟩ θ1 k = .ok (⟨gamma, [], true, g'⟩, θ2, k + l.length) ∧
      ∀ (θ : σ → Fin n → ℝ) (u d : ℕ), k = u + d → d + l.length ≤ H → |g| ≤ d * R → ‖θ1 - θ‖ ≤ d * (lr u * (H * R)) →
        ‖θ2 - θ1 - lr u • ((eligible gamma θ l).1 + g • (eligible gamma θ l).2)‖ ≤ l.length * ((lr u - lr (k + l.length)) * (H * R) + lr u * (H * R) * (‖dot σ n‖ * (H * (lr u * (H * R))))) := by
  induction l using List.reverseRecOn with
  | nil =>
    intro _ g θ1 k fuel hf
    obtain ⟨f, rfl⟩ := Nat.exists_eq_succ_of_ne_zero (by omega : fuel ≠ 0)
    refine ⟨g, θ1, ?_, ?_⟩
    · rw [pgPops]
      simp [MonteCarlo.bool, MonteCarlo.len]
    · intro θ u d _ _ _ _
      simp [eligible]
  | append_singleton l x ih =>
    intro hx g θ1 k fuel hf
    obtain ⟨f, rfl⟩ := Nat.exists_eq_succ_of_ne_zero (by omega : fuel ≠ 0)
    obtain ⟨hr, hp, hw⟩ := hx x (by simp)
    set G := x.r + gamma * g with hG
    set θ' := θ1 + (lr k * G) • scoreAt θ1 x.s x.a with hθ'
    rw [List.length_append, List.length_singleton] at hf
    obtain ⟨g', θ2, i1, i2⟩ := ih (fun y hy => hx y (by simp [hy])) G θ' (k + 1) f (by omega)
    refine ⟨g', θ2, ?_, ?_⟩
    · have hb : (⟨gamma, l ++ [x], true, g⟩ : MonteCarlo σ (Fin n) ℝ).bool = true := by simp [MonteCarlo.bool, MonteCarlo.len]
      have hpop : (⟨gamma, l ++ [x], true, g⟩ : MonteCarlo σ (Fin n) ℝ).pop =
          (⟨gamma, l, true, G⟩, .ok { S := x.s, A := x.a, logP := x.logp, Rn := G, In := gamma * (1 - if true then 1 else 0), S_next := some x.s, A_next := some x.a, logP_next := some x.logp, W := x.w, idx := 0, extraInfo := none }) := by
        unfold MonteCarlo.pop
        rw [hb]
        simp [fromSingle, hp, hw, h0, h1, hG]
      rw [pgPops, hb, hpop]
      simp only [Bool.true_eq_false, if_false]
      rw [pgUpdate_single _ _ _ _ hw]
      simp only
      rw [List.length_append, List.length_singleton, show k + (l.length + 1) = k + 1 + l.length by omega]
      exact i1
    · intro θ u d hk hd hg hθ
      rw [List.length_append, List.length_singleton] at hd ⊢
      have hGle : |G| ≤ (d + 1) * R := by
        rw [hG]
        refine (abs_add_le _ _).trans ?_
        rw [abs_mul, abs_of_nonneg h0]
        have := mul_le_of_le_one_left (abs_nonneg g) h1
        linarith
      have hdH : (d : ℝ) + 1 ≤ H := by exact_mod_cast (by omega : d + 1 ≤ H)
      have hGH : |G| ≤ H * R := hGle.trans (mul_le_mul_of_nonneg_right hdH hR)
      have hku : lr k ≤ lr u := hl (by omega)
      have hT : 0 ≤ (H : ℝ) * R := by positivity
      have hθ2 : ‖θ' - θ‖ ≤ ((d + 1 : ℕ) : ℝ) * (lr u * (H * R)) := by
        have e1 : θ' - θ = (θ1 - θ) + (lr k * G) • scoreAt θ1 x.s x.a := by rw [hθ']; abel
        rw [e1]
        refine (norm_add_le _ _).trans ?_
        rw [norm_smul, Real.norm_eq_abs, abs_mul, abs_of_nonneg (hl0 k)]
        have := mul_le_of_le_one_right (mul_nonneg (hl0 k) (abs_nonneg G)) (scoreAt_le θ1 x.s x.a)
        have := mul_le_mul hku hGH (abs_nonneg G) (hl0 u)
        push_cast
        linarith
      have i3 := i2 θ u (d + 1) (by omega) (by omega) (by push_cast; exact hGle) hθ2
      rw [show k + 1 + l.length = k + (l.length + 1) by omega] at i3
      have e1 : θ2 - θ1 - lr u • ((eligible gamma θ (l ++ [x])).1 + g • (eligible gamma θ (l ++ [x])).2) =
          (θ2 - θ' - lr u • ((eligible gamma θ l).1 + G • (eligible gamma θ l).2)) + (((lr k - lr u) * G) • scoreAt θ1 x.s x.a + (lr u * G) • (scoreAt θ1 x.s x.a - scoreAt θ x.s x.a)) := by
        rw [eligible_append, hθ', hG]
        simp only
        module
      rw [e1]
      refine (norm_add_le _ _).trans ?_
      have e2 : ‖((lr k - lr u) * G) • scoreAt θ1 x.s x.a + (lr u * G) • (scoreAt θ1 x.s x.a - scoreAt θ x.s x.a)‖ ≤ (lr u - lr (k + (l.length + 1))) * (H * R) + lr u * (H * R) * (‖dot σ n‖ * (H * (lr u * (H * R)))) := by
        refine (norm_add_le _ _).trans (add_le_add ?_ ?_)
        · rw [norm_smul, Real.norm_eq_abs, abs_mul, abs_sub_comm, abs_of_nonneg (by linarith)]
          have hkl : lr (k + (l.length + 1)) ≤ lr k := hl (by omega)
          have g1 := mul_le_of_le_one_right (mul_nonneg (sub_nonneg.2 hku) (abs_nonneg G)) (scoreAt_le θ1 x.s x.a)
          have g2 := mul_le_mul (by linarith : lr u - lr k ≤ lr u - lr (k + (l.length + 1))) hGH (abs_nonneg G) (by linarith)
          linarith
        · rw [norm_smul, Real.norm_eq_abs, abs_mul, abs_of_nonneg (hl0 u)]
          have g1 := mul_le_mul_of_nonneg_left hGH (hl0 u)
          have g2 : ‖θ1 - θ‖ ≤ H * (lr u * (H * R)) := hθ.trans (mul_le_mul_of_nonneg_right (by linarith) (mul_nonneg (hl0 u) hT))
          have g3 := (scoreAt_close θ1 θ x.s x.a).trans (mul_le_mul_of_nonneg_left g2 (by positivity))
          exact mul_le_mul g1 g3 (norm_nonneg _) (mul_nonneg (hl0 u) hT)
      push_cast
      linarith

end updates

end Coax.Loop
