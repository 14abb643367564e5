import Mathlib.Analysis.SpecificLimits.Basic
import Mathlib.Topology.Instances.Real.Lemmas
import Mathlib.Tactic.Linarith
import Mathlib.Tactic.Ring
import Mathlib.Tactic.Choose
import Mathlib.Tactic.Push

/-! Asynchronous fixed-point iteration of a contraction with a lagging copy converges. -/

namespace Coax.Loop

open Filter Topology

variable {X : Type _}

/-- An iteration that moves entries of `f` towards the operator `T` applied to the lagging copy `g`. -/
structure Async (T : (X → ℝ) → X → ℝ) (f g b : ℕ → X → ℝ) (tau : ℕ → ℝ) : Prop where
  b_nonneg : ∀ t p, 0 ≤ b t p
  b_le : ∀ t p, b t p ≤ 1
  move : ∀ t p, f (t + 1) p = f t p + b t p * (T (g t) p - f t p)
  tau_nonneg : ∀ t, 0 ≤ tau t
  tau_le : ∀ t, tau t ≤ 1
  sync : ∀ t p, g (t + 1) p = (1 - tau t) * g t p + tau t * f (t + 1) p

/-- `T` contracts distances to `fs`. -/
def Attracts (T : (X → ℝ) → X → ℝ) (fs : X → ℝ) (gamma : ℝ) : Prop := ∀ (g : X → ℝ) (M : ℝ), (∀ p, |g p - fs p| ≤ M) → ∀ p, |T g p - fs p| ≤ gamma * M

theorem abs_mix {x y z c A B : ℝ} (hc : 0 ≤ c) (hc1 : c ≤ 1) (hx : |x - z| ≤ A) (hy : |y - z| ≤ B) : |((1 - c) * x + c * y) - z| ≤ (1 - c) * A + c * B := by
  obtain ⟨x1, x2⟩ := abs_le.1 hx
  obtain ⟨y1, y2⟩ := abs_le.1 hy
  have h1 : 0 ≤ 1 - c := by linarith
  refine abs_le.2 ⟨?_, ?_⟩
  · nlinarith [mul_le_mul_of_nonneg_left x1 h1, mul_le_mul_of_nonneg_left y1 hc]
  · nlinarith [mul_le_mul_of_nonneg_left x2 h1, mul_le_mul_of_nonneg_left y2 hc]

variable {T : (X → ℝ) → X → ℝ} {fs : X → ℝ} {gamma : ℝ} {f g b : ℕ → X → ℝ} {tau : ℕ → ℝ}

theorem Async.move' (h : Async T f g b tau) (t : ℕ) (p : X) : f (t + 1) p = (1 - b t p) * f t p + b t p * T (g t) p := by
  rw [h.move]; ring

/-- Once within distance `M`, always. -/
theorem Async.stays (h : Async T f g b tau) (hT : Attracts T fs gamma) (h1 : gamma ≤ 1) {M : ℝ} (hM : 0 ≤ M) {t0 : ℕ} (hf : ∀ p, |f t0 p - fs p| ≤ M) (hg : ∀ p, |g t0 p - fs p| ≤ M) :
    ∀ t, t0 ≤ t → (∀ p, |f t p - fs p| ≤ M) ∧ ∀ p, |g t p - fs p| ≤ M := by
  intro t ht
  induction t, ht using Nat.le_induction with
  | base => exact ⟨hf, hg⟩
  | succ t ht ih =>
    have hf' : ∀ p, |f (t + 1) p - fs p| ≤ M := by
      intro p
      rw [h.move']
      refine (abs_mix (h.b_nonneg t p) (h.b_le t p) (ih.1 p) (hT _ _ ih.2 p)).trans ?_
      nlinarith [mul_nonneg (h.b_nonneg t p) hM]
    refine ⟨hf', fun p => ?_⟩
    rw [h.sync]
    refine (abs_mix (h.tau_nonneg t) (h.tau_le t) (ih.2 p) (hf' p)).trans (le_of_eq (by ring))

/-- Distances are multiplied by `rho` at some time. -/
theorem Async.shrinks [Finite X] (h : Async T f g b tau) (hT : Attracts T fs gamma) (h0 : 0 ≤ gamma) (h1 : gamma < 1) {beta tau0 : ℝ} (hb0 : 0 < beta) (hb1 : beta ≤ 1) (hτ0 : 0 < tau0) (hτ1 : tau0 ≤ 1)
    {t0 : ℕ} (hvisit : ∀ p t, ∃ t', t ≤ t' ∧ (t0 ≤ t' → beta ≤ b t' p)) (hsync : ∀ t, ∃ t', t ≤ t' ∧ tau0 ≤ tau t')
    {M : ℝ} (hM : 0 ≤ M) {t1 : ℕ} (ht1 : t0 ≤ t1) (hf : ∀ p, |f t1 p - fs p| ≤ M) (hg : ∀ p, |g t1 p - fs p| ≤ M) :
    ∃ t2, t1 ≤ t2 ∧ (∀ p, |f t2 p - fs p| ≤ (1 - tau0 * (beta * (1 - gamma))) * M) ∧ ∀ p, |g t2 p - fs p| ≤ (1 - tau0 * (beta * (1 - gamma))) * M := by
  have hst := h.stays hT h1.le hM hf hg
  set d := beta * (1 - gamma) with hd
  have hd0 : 0 ≤ d := mul_nonneg hb0.le (by linarith)
  have hd1 : d ≤ 1 - gamma := by nlinarith
  -- each entry gets below `(1 - d) * M` and stays there
  have key : ∀ p, ∃ t2, t1 ≤ t2 ∧ ∀ t, t2 ≤ t → |f t p - fs p| ≤ (1 - d) * M := by
    intro p
    obtain ⟨t', ht', hv⟩ := hvisit p t1
    have hv := hv (by omega)
    refine ⟨t' + 1, by omega, fun t ht => ?_⟩
    induction t, ht using Nat.le_induction with
    | base =>
      rw [h.move']
      refine (abs_mix (h.b_nonneg t' p) (h.b_le t' p) ((hst t' ht').1 p) (hT _ _ (hst t' ht').2 p)).trans ?_
      have : beta * (1 - gamma) * M ≤ b t' p * (1 - gamma) * M := by
        apply mul_le_mul_of_nonneg_right _ hM
        exact mul_le_mul_of_nonneg_right hv (by linarith)
      rw [hd]; linarith
    | succ t ht ih =>
      rw [h.move']
      refine (abs_mix (h.b_nonneg t p) (h.b_le t p) ih (hT _ _ (hst t (by omega)).2 p)).trans ?_
      have : b t p * (gamma * M) ≤ b t p * ((1 - d) * M) := by
        apply mul_le_mul_of_nonneg_left _ (h.b_nonneg t p)
        exact mul_le_mul_of_nonneg_right (by linarith) hM
      linarith
  choose T1 hT1 hT1' using key
  obtain ⟨N, hN⟩ : ∃ N, t1 ≤ N ∧ ∀ p, T1 p ≤ N := by
    obtain ⟨N, hN⟩ := (Set.finite_range T1).bddAbove
    exact ⟨max t1 N, le_max_left _ _, fun p => (hN ⟨p, rfl⟩).trans (le_max_right _ _)⟩
  have hfN : ∀ t, N ≤ t → ∀ p, |f t p - fs p| ≤ (1 - d) * M := fun t ht p => hT1' p t ((hN.2 p).trans ht)
  obtain ⟨t', ht', hv⟩ := hsync N
  refine ⟨t' + 1, by omega, fun p => (hfN _ (by omega) p).trans ?_, fun p => ?_⟩
  · apply mul_le_mul_of_nonneg_right _ hM
    nlinarith
  · rw [h.sync]
    refine (abs_mix (h.tau_nonneg t') (h.tau_le t') ((hst t' (by omega)).2 p) (hfN _ (by omega) p)).trans ?_
    have : tau0 * d * M ≤ tau t' * d * M := by
      apply mul_le_mul_of_nonneg_right _ hM
      exact mul_le_mul_of_nonneg_right hv hd0
    linarith

/-- The iteration converges to the fixed point if every entry moves by at least a given fraction infinitely often and the copy is renewed by at least a given fraction infinitely often. -/
theorem Async.converges [Finite X] (h : Async T f g b tau) (hT : Attracts T fs gamma) (h0 : 0 ≤ gamma) (h1 : gamma < 1) {beta : ℝ → ℝ} (hb0 : ∀ M, 0 < beta M) {tau0 : ℝ} (hτ0 : 0 < tau0)
    (hvisit : ∀ p t, ∃ t', t ≤ t' ∧ ∀ M, |T (g t') p - f t' p| ≤ M → beta M ≤ b t' p) (hsync : ∀ t, ∃ t', t ≤ t' ∧ tau0 ≤ tau t') :
    (∀ p, Tendsto (fun t => f t p) atTop (𝓝 (fs p))) ∧ ∀ p, Tendsto (fun t => g t p) atTop (𝓝 (fs p)) := by
  obtain ⟨M, hM, hf0, hg0⟩ : ∃ M, 0 ≤ M ∧ (∀ p, |f 0 p - fs p| ≤ M) ∧ ∀ p, |g 0 p - fs p| ≤ M := by
    obtain ⟨A, hA⟩ := (Set.finite_range fun p => |f 0 p - fs p|).bddAbove
    obtain ⟨B, hB⟩ := (Set.finite_range fun p => |g 0 p - fs p|).bddAbove
    exact ⟨max 0 (max A B), le_max_left _ _, fun p => (hA ⟨p, rfl⟩).trans ((le_max_left _ _).trans (le_max_right _ _)), fun p => (hB ⟨p, rfl⟩).trans ((le_max_right _ _).trans (le_max_right _ _))⟩
  have hst := h.stays hT h1.le hM hf0 hg0
  have hclose : ∀ t p, |T (g t) p - f t p| ≤ gamma * M + M := by
    intro t p
    have e1 := hT _ _ (hst t (Nat.zero_le _)).2 p
    have e2 := (hst t (Nat.zero_le _)).1 p
    have : T (g t) p - f t p = (T (g t) p - fs p) - (f t p - fs p) := by ring
    rw [this]
    exact (abs_sub _ _).trans (add_le_add e1 e2)
  set be := min (beta (gamma * M + M)) 1 with hbe
  have hbe0 : 0 < be := lt_min (hb0 _) one_pos
  set ta := min tau0 1 with hta
  have hta0 : 0 < ta := lt_min hτ0 one_pos
  set rho := 1 - ta * (be * (1 - gamma)) with hrho
  have hr1 : rho < 1 := by have := mul_pos hta0 (mul_pos hbe0 (by linarith : 0 < 1 - gamma)); linarith
  have hr0 : 0 ≤ rho := by
    have a1 : be ≤ 1 := min_le_right _ _
    have a2 : ta ≤ 1 := min_le_right _ _
    have a3 : be * (1 - gamma) ≤ 1 := by nlinarith
    have a4 : 0 ≤ be * (1 - gamma) := mul_nonneg hbe0.le (by linarith)
    nlinarith
  have hv : ∀ p t, ∃ t', t ≤ t' ∧ (0 ≤ t' → be ≤ b t' p) := fun p t => by
    obtain ⟨t', e, e'⟩ := hvisit p t
    exact ⟨t', e, fun _ => (min_le_left _ _).trans (e' _ (hclose t' p))⟩
  have hs : ∀ t, ∃ t', t ≤ t' ∧ ta ≤ tau t' := fun t => by
    obtain ⟨t', e, e'⟩ := hsync t
    exact ⟨t', e, (min_le_left _ _).trans e'⟩
  have main : ∀ k, ∃ N, (∀ t, N ≤ t → (∀ p, |f t p - fs p| ≤ rho ^ k * M) ∧ ∀ p, |g t p - fs p| ≤ rho ^ k * M) := by
    intro k
    induction k with
    | zero => exact ⟨0, by simpa using hst⟩
    | succ k ih =>
      obtain ⟨N, hN⟩ := ih
      have hMk : 0 ≤ rho ^ k * M := mul_nonneg (pow_nonneg hr0 _) hM
      obtain ⟨N', e, e1, e2⟩ := h.shrinks hT h0 h1 hbe0 (min_le_right _ _) hta0 (min_le_right _ _) (t0 := 0) hv hs hMk (Nat.zero_le N) (hN N le_rfl).1 (hN N le_rfl).2
      have e3 : rho ^ (k + 1) * M = (1 - ta * (be * (1 - gamma))) * (rho ^ k * M) := by rw [pow_succ, hrho]; ring
      refine ⟨N', ?_⟩
      rw [e3]
      exact h.stays hT h1.le (by rw [← e3]; exact mul_nonneg (pow_nonneg hr0 _) hM) e1 e2
  have lim : ∀ (u : ℕ → X → ℝ), (∀ k, ∃ N, ∀ t, N ≤ t → ∀ p, |u t p - fs p| ≤ rho ^ k * M) → ∀ p, Tendsto (fun t => u t p) atTop (𝓝 (fs p)) := by
    intro u hu p
    rw [Metric.tendsto_atTop]
    intro ε hε
    have hz : Tendsto (fun k : ℕ => rho ^ k * M) atTop (𝓝 0) := by
      simpa using (tendsto_pow_atTop_nhds_zero_of_lt_one hr0 hr1).mul_const M
    obtain ⟨k, hk⟩ := ((tendsto_order.1 hz).2 ε hε).exists
    obtain ⟨N, hN⟩ := hu k
    exact ⟨N, fun t ht => by rw [Real.dist_eq]; exact (hN t ht p).trans_lt hk⟩
  exact ⟨lim f fun k => (main k).imp fun N hN t ht => (hN t ht).1, lim g fun k => (main k).imp fun N hN t ht => (hN t ht).2⟩

end Coax.Loop
