import Verif.Loop.LinearLemmas

/-! Facts about least squares with bootstrapping from values that lag behind, for property C149. -/

namespace Coax.Loop

open Filter Topology

variable {ι : Type _} [Fintype ι] {d : Nat}

/-- The sum of the residuals, without its constant part, where the values of next states are those of other params. -/
def lagResid (x y : ι → Fin d → ℝ) (w v : Fin d → ℝ) : Fin d → ℝ := fun k => ∑ i, (x i ⬝ᵥ w - y i ⬝ᵥ v) * x i k

theorem comb_dot (x : ι → Fin d → ℝ) (c : ι → ℝ) (v : Fin d → ℝ) : (fun k => ∑ i, c i * x i k) ⬝ᵥ v = ∑ i, c i * (x i ⬝ᵥ v) := by
  simp only [dotProduct, Finset.sum_mul, Finset.mul_sum]
  rw [Finset.sum_comm]
  exact Finset.sum_congr rfl fun i _ => Finset.sum_congr rfl fun k _ => by ring

theorem comb_sq (x : ι → Fin d → ℝ) {F : ℝ} (hF : ∀ i, x i ⬝ᵥ x i ≤ F) (c : ι → ℝ) : (fun k => ∑ i, c i * x i k) ⬝ᵥ (fun k => ∑ i, c i * x i k) ≤ Fintype.card ι * F * ∑ i, c i ^ 2 := by
  have h1 : (fun k => ∑ i, c i * x i k) ⬝ᵥ (fun k => ∑ i, c i * x i k) ≤ ∑ k, (∑ i, c i ^ 2) * ∑ i, x i k ^ 2 := by
    refine Finset.sum_le_sum fun k _ => ?_
    rw [← sq]
    exact Finset.sum_mul_sq_le_sq_mul_sq _ _ _
  refine h1.trans ?_
  rw [← Finset.mul_sum, Finset.sum_comm, mul_comm]
  refine mul_le_mul_of_nonneg_right ?_ (Finset.sum_nonneg fun i _ => sq_nonneg _)
  have h2 : ∑ i, ∑ k, x i k ^ 2 ≤ ∑ _i : ι, F := Finset.sum_le_sum fun i _ => by
    have := hF i
    simp only [dotProduct, ← sq] at this
    exact this
  simpa using h2

theorem feat_sq (x : ι → Fin d → ℝ) {F : ℝ} (hF : ∀ i, x i ⬝ᵥ x i ≤ F) (u : Fin d → ℝ) : ∑ i, (x i ⬝ᵥ u) ^ 2 ≤ Fintype.card ι * F * (u ⬝ᵥ u) := by
  have h0 : 0 ≤ u ⬝ᵥ u := Finset.sum_nonneg fun k _ => mul_self_nonneg _
  have h1 : ∑ i, (x i ⬝ᵥ u) ^ 2 ≤ ∑ _i : ι, F * (u ⬝ᵥ u) := Finset.sum_le_sum fun i _ => by
    refine le_trans ?_ (mul_le_mul_of_nonneg_right (hF i) h0)
    simp only [dotProduct, ← sq]
    exact Finset.sum_mul_sq_le_sq_mul_sq _ _ _
  simpa [mul_assoc] using h1

theorem cross_le {a b : ι → ℝ} {g A B : ℝ} (hg : 0 ≤ g) (hA : ∑ i, a i ^ 2 = A) (hB : ∑ i, b i ^ 2 ≤ g ^ 2 * B) (hB0 : 0 ≤ B) : |∑ i, a i * b i| ≤ g * ((A + B) / 2) := by
  have hA0 : 0 ≤ A := hA ▸ Finset.sum_nonneg fun i _ => sq_nonneg _
  refine abs_le_of_sq_le_sq ?_ (by positivity)
  refine (Finset.sum_mul_sq_le_sq_mul_sq Finset.univ a b).trans ?_
  rw [hA]
  refine (mul_le_mul_of_nonneg_left hB hA0).trans ?_
  nlinarith [mul_nonneg (sq_nonneg g) (sq_nonneg (A - B))]

theorem lag_arith {eta S g A B E A' W GG C V V' : ℝ} (heta : 0 ≤ eta) (hS0 : 0 ≤ S) (hg : 0 ≤ g) (hA0 : 0 ≤ A) (hB0 : 0 ≤ B) (hE0 : 0 ≤ E) (hs : 7 * (eta * S) < 1 - g) (h3 : C ≤ g * ((A + B) / 2)) (h4 : E ≤ 2 * (A + B))
    (h8 : A' ≤ A + eta * S * (A + E) + eta ^ 2 * (S ^ 2 * E)) (h10 : V' ≤ V - eta * B + eta * A') (hGG : GG ≤ S * E) : W - 2 * eta * (A - C) + eta ^ 2 * GG + V' ≤ W + V - eta * (1 - g - 7 * (eta * S)) * (A + B) := by
  obtain ⟨p, hp⟩ : ∃ p, p = eta * S := ⟨_, rfl⟩
  have hp0 : 0 ≤ p := by rw [hp]; positivity
  have hp1 : p ≤ 1 := by linarith
  have h11 : p * E + (p * (A + E) + p ^ 2 * E) ≤ 7 * p * (A + B) := by
    have e1 : p * E ≤ p * (2 * (A + B)) := mul_le_mul_of_nonneg_left h4 hp0
    have e2 : p * A ≤ p * (A + B) := mul_le_mul_of_nonneg_left (by linarith) hp0
    have e3 : p ^ 2 * E ≤ p * E := mul_le_mul_of_nonneg_right (by nlinarith) hE0
    linarith
  have h12 := mul_le_mul_of_nonneg_left h11 heta
  have h13 := mul_le_mul_of_nonneg_left h8 heta
  have h14 := mul_le_mul_of_nonneg_left hGG (sq_nonneg eta)
  have h15 := mul_le_mul_of_nonneg_left h3 (by positivity : 0 ≤ 2 * eta)
  have e4 : eta ^ 2 * (S * E) = eta * (p * E) := by rw [hp]; ring
  have e5 : eta * (A + eta * S * (A + E) + eta ^ 2 * (S ^ 2 * E)) = eta * A + eta * (p * (A + E) + p ^ 2 * E) := by rw [hp]; ring
  rw [e4] at h14
  rw [e5] at h13
  rw [← hp]
  linarith

theorem lag_step {x y : ι → Fin d → ℝ} {F g eta tau : ℝ} (hg : 0 ≤ g) (hg1 : g < 1) (heta : 0 ≤ eta) (hF : ∀ i, x i ⬝ᵥ x i ≤ F) (hF0 : 0 ≤ F) (hP : ∀ v, ∑ i, (y i ⬝ᵥ v) ^ 2 ≤ g ^ 2 * ∑ i, (x i ⬝ᵥ v) ^ 2) (ht : 0 < tau) (ht1 : tau ≤ 1)
    (hs : 7 * (eta * (Fintype.card ι * F)) < 1 - g) (w v : Fin d → ℝ) {w' v' : Fin d → ℝ} (hw : w' = w - eta • lagResid x y w v) (hv : v' = (1 - tau) • v + tau • w') :
    w' ⬝ᵥ w' + eta / tau * ∑ i, (x i ⬝ᵥ v') ^ 2 ≤ w ⬝ᵥ w + eta / tau * ∑ i, (x i ⬝ᵥ v) ^ 2 - eta * (1 - g - 7 * (eta * (Fintype.card ι * F))) * (∑ i, (x i ⬝ᵥ w) ^ 2 + ∑ i, (x i ⬝ᵥ v) ^ 2) := by
  set S : ℝ := Fintype.card ι * F with hS
  have hS0 : 0 ≤ S := by positivity
  set A := ∑ i, (x i ⬝ᵥ w) ^ 2 with hA
  set B := ∑ i, (x i ⬝ᵥ v) ^ 2 with hB
  set E := ∑ i, (x i ⬝ᵥ w - y i ⬝ᵥ v) ^ 2 with hE
  set G := lagResid x y w v with hG
  have hA0 : 0 ≤ A := Finset.sum_nonneg fun i _ => sq_nonneg _
  have hB0 : 0 ≤ B := Finset.sum_nonneg fun i _ => sq_nonneg _
  have hE0 : 0 ≤ E := Finset.sum_nonneg fun i _ => sq_nonneg _
  have hGG : G ⬝ᵥ G ≤ S * E := comb_sq x hF _
  have hGd : ∀ u, G ⬝ᵥ u = ∑ i, (x i ⬝ᵥ w - y i ⬝ᵥ v) * (x i ⬝ᵥ u) := fun u => comb_dot x _ u
  -- the distance
  have h1 : w' ⬝ᵥ w' = w ⬝ᵥ w - 2 * eta * (G ⬝ᵥ w) + eta ^ 2 * (G ⬝ᵥ G) := by
    rw [hw]
    simp only [dotProduct, Pi.sub_apply, Pi.smul_apply, smul_eq_mul, Finset.mul_sum]
    rw [← Finset.sum_sub_distrib, ← Finset.sum_add_distrib]
    exact Finset.sum_congr rfl fun k _ => by ring
  have h2 : G ⬝ᵥ w = A - ∑ i, (x i ⬝ᵥ w) * (y i ⬝ᵥ v) := by
    rw [hGd, hA, ← Finset.sum_sub_distrib]
    exact Finset.sum_congr rfl fun i _ => by ring
  have h3 := (abs_le.1 (cross_le hg (a := fun i => x i ⬝ᵥ w) (b := fun i => y i ⬝ᵥ v) rfl (hP v) hB0)).2
  -- the differences
  have h4 : E ≤ 2 * (A + B) := by
    have e1 : E ≤ ∑ i, (2 * (x i ⬝ᵥ w) ^ 2 + 2 * (y i ⬝ᵥ v) ^ 2) := Finset.sum_le_sum fun i _ => by nlinarith [sq_nonneg (x i ⬝ᵥ w + y i ⬝ᵥ v)]
    rw [Finset.sum_add_distrib, ← Finset.mul_sum, ← Finset.mul_sum] at e1
    have e2 : g ^ 2 * B ≤ 1 * B := mul_le_mul_of_nonneg_right (by nlinarith) hB0
    have e3 := hP v
    linarith
  -- the values after the update
  have h5 : ∑ i, (x i ⬝ᵥ G) ^ 2 ≤ S ^ 2 * E := by
    have e := (feat_sq x hF G).trans (mul_le_mul_of_nonneg_left hGG hS0)
    rwa [← mul_assoc, ← sq] at e
  have h6 := (abs_le.1 (cross_le hS0 (a := fun i => x i ⬝ᵥ w) (b := fun i => x i ⬝ᵥ G) rfl h5 hE0)).1
  have h7 : ∑ i, (x i ⬝ᵥ w') ^ 2 = A - 2 * eta * (∑ i, (x i ⬝ᵥ w) * (x i ⬝ᵥ G)) + eta ^ 2 * ∑ i, (x i ⬝ᵥ G) ^ 2 := by
    rw [hw, hA, Finset.mul_sum, Finset.mul_sum, ← Finset.sum_sub_distrib, ← Finset.sum_add_distrib]
    refine Finset.sum_congr rfl fun i _ => ?_
    rw [dotProduct_sub, dotProduct_smul, smul_eq_mul]
    ring
  set A' := ∑ i, (x i ⬝ᵥ w') ^ 2 with hA'
  have h8 : A' ≤ A + eta * S * (A + E) + eta ^ 2 * (S ^ 2 * E) := by
    have e1 := mul_le_mul_of_nonneg_left h5 (sq_nonneg eta)
    have e2 := mul_le_mul_of_nonneg_left h6 (by positivity : 0 ≤ 2 * eta)
    rw [h7]
    linarith
  -- the copy
  have h9 : ∑ i, (x i ⬝ᵥ v') ^ 2 ≤ (1 - tau) * B + tau * A' := by
    rw [hB, hA', Finset.mul_sum, Finset.mul_sum, ← Finset.sum_add_distrib]
    refine Finset.sum_le_sum fun i _ => ?_
    rw [hv, dotProduct_add, dotProduct_smul, dotProduct_smul, smul_eq_mul, smul_eq_mul]
    nlinarith [mul_nonneg (mul_nonneg ht.le (sub_nonneg.2 ht1)) (sq_nonneg (x i ⬝ᵥ v - x i ⬝ᵥ w'))]
  have h10 : eta / tau * ∑ i, (x i ⬝ᵥ v') ^ 2 ≤ eta / tau * B - eta * B + eta * A' := by
    refine (mul_le_mul_of_nonneg_left h9 (by positivity)).trans (le_of_eq ?_)
    field_simp
  rw [h1, h2]
  exact lag_arith heta hS0 hg hA0 hB0 hE0 hs h3 h4 h8 h10 hGG

theorem sq_tendsto {f : ℕ → ℝ} (h : Tendsto (fun t => f t ^ 2) atTop (𝓝 0)) : Tendsto f atTop (𝓝 0) := by
  have h3 : Tendsto (fun t => |f t|) atTop (𝓝 0) := by
    have h4 := (Real.continuous_sqrt.tendsto 0).comp h
    rw [Real.sqrt_zero] at h4
    exact h4.congr fun t => Real.sqrt_sq_eq_abs _
  exact (tendsto_zero_iff_abs_tendsto_zero _).2 h3

theorem lag_tendsto {x y : ι → Fin d → ℝ} {F g eta tau : ℝ} (hg : 0 ≤ g) (hg1 : g < 1) (heta : 0 < eta) (hF : ∀ i, x i ⬝ᵥ x i ≤ F) (hF0 : 0 ≤ F) (hP : ∀ v, ∑ i, (y i ⬝ᵥ v) ^ 2 ≤ g ^ 2 * ∑ i, (x i ⬝ᵥ v) ^ 2) (ht : 0 < tau) (ht1 : tau ≤ 1)
    (hs : 7 * (eta * (Fintype.card ι * F)) < 1 - g) {w v : ℕ → Fin d → ℝ} (hw : ∀ t, w (t + 1) = w t - eta • lagResid x y (w t) (v t)) (hv : ∀ t, v (t + 1) = (1 - tau) • v t + tau • w (t + 1)) (i : ι) :
    Tendsto (fun t => x i ⬝ᵥ w t) atTop (𝓝 0) ∧ Tendsto (fun t => x i ⬝ᵥ v t) atTop (𝓝 0) := by
  set c : ℝ := eta * (1 - g - 7 * (eta * (Fintype.card ι * F))) with hc
  have hc0 : 0 < c := mul_pos heta (by linarith)
  set V : ℕ → ℝ := fun t => w t ⬝ᵥ w t + eta / tau * ∑ i, (x i ⬝ᵥ v t) ^ 2 with hV
  set R : ℕ → ℝ := fun t => ∑ i, (x i ⬝ᵥ w t) ^ 2 + ∑ i, (x i ⬝ᵥ v t) ^ 2 with hR
  have hstep : ∀ t, V (t + 1) ≤ V t - c * R t := fun t => lag_step hg hg1 heta.le hF hF0 hP ht ht1 hs (w t) (v t) (hw t) (hv t)
  have hV0 : ∀ t, 0 ≤ V t := fun t => add_nonneg (Finset.sum_nonneg fun k _ => mul_self_nonneg _) (mul_nonneg (by positivity) (Finset.sum_nonneg fun i _ => sq_nonneg _))
  have hsum : ∀ T, c * ∑ t ∈ Finset.range T, R t ≤ V 0 - V T := fun T => by
    induction T with
    | zero => simp
    | succ T ih =>
      rw [Finset.sum_range_succ, mul_add]
      linarith [hstep T]
  have hS : Summable R := by
    refine summable_of_sum_range_le (c := V 0 / c) (fun t => add_nonneg (Finset.sum_nonneg fun i _ => sq_nonneg _) (Finset.sum_nonneg fun i _ => sq_nonneg _)) fun T => ?_
    rw [le_div_iff₀ hc0, mul_comm]
    linarith [hsum T, hV0 T]
  have hle : ∀ t, (x i ⬝ᵥ w t) ^ 2 ≤ R t ∧ (x i ⬝ᵥ v t) ^ 2 ≤ R t := fun t => by
    have e1 := Finset.single_le_sum (f := fun i => (x i ⬝ᵥ w t) ^ 2) (fun j _ => sq_nonneg _) (Finset.mem_univ i)
    have e2 := Finset.single_le_sum (f := fun i => (x i ⬝ᵥ v t) ^ 2) (fun j _ => sq_nonneg _) (Finset.mem_univ i)
    have e3 : 0 ≤ ∑ i, (x i ⬝ᵥ w t) ^ 2 := Finset.sum_nonneg fun i _ => sq_nonneg _
    have e4 : 0 ≤ ∑ i, (x i ⬝ᵥ v t) ^ 2 := Finset.sum_nonneg fun i _ => sq_nonneg _
    simp only [hR]
    constructor <;> linarith
  exact ⟨sq_tendsto (squeeze_zero (fun t => sq_nonneg _) (fun t => (hle t).1) hS.tendsto_atTop_zero), sq_tendsto (squeeze_zero (fun t => sq_nonneg _) (fun t => (hle t).2) hS.tendsto_atTop_zero)⟩

end Coax.Loop
