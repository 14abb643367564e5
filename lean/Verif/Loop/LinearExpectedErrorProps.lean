import Verif.Loop.LinearExpectedDataProps
import Verif.Loop.LinearEmpiricalProps

/-! Property C152: how good the limit is. -/

namespace Coax.Loop

open Coax.RewardTracing Coax.TD Coax.Core Coax.Values Coax.Pol Filter Topology

variable {σ : Type _} {n d : Nat}

/-- The values that the batch speaks for: on average, the transitions from each state and action confirm its value. -/
def EmpiricalE (pi : σ → Fin n → ℝ) (rows : List (Out σ (Fin n) ℝ)) (u : σ → Fin n → ℝ) : Prop := ∀ g : σ → Fin n → ℝ, (rows.map fun o => tdErrE pi u o * g o.S o.A).sum = 0

/-- If differences `e - a` are orthogonal to features, where `a` is smaller than `e`, then `e` is not much larger than the smallest difference from the features. -/
theorem error_orth {ι : Type _} [Fintype ι] [DecidableEq ι] {x : ι → Fin d → ℝ} {e a : ι → ℝ} {g : ℝ} (ho : ∀ v, ∑ i, (e i - a i) * (x i ⬝ᵥ v) = 0) (ha : ∑ i, a i ^ 2 ≤ g ^ 2 * ∑ i, e i ^ 2) (v : Fin d → ℝ) :
    (1 - g ^ 2) * ∑ i, e i ^ 2 ≤ ∑ i, (e i + x i ⬝ᵥ v) ^ 2 := by
  have hP0 : ∀ w, ∑ i, ((0 : ι → Fin d → ℝ) i ⬝ᵥ w) ^ 2 ≤ (0 : ℝ) ^ 2 * ∑ i, (x i ⬝ᵥ w) ^ 2 := fun w => by simp
  obtain ⟨z, -, hz⟩ := resid_exists le_rfl one_pos hP0 e
  have horth : ∀ w, ∑ i, (x i ⬝ᵥ z) * (x i ⬝ᵥ w) = ∑ i, e i * (x i ⬝ᵥ w) := fun w => by
    have h1 := resid_dot x 0 z w
    rw [hz] at h1
    simp only [Pi.zero_apply, zero_dotProduct, sub_zero] at h1
    rw [← h1]
    simp only [dotProduct, Finset.mul_sum]
    rw [Finset.sum_comm]
    exact Finset.sum_congr rfl fun i _ => Finset.sum_congr rfl fun k _ => by ring
  set H : ℝ := ∑ i, (x i ⬝ᵥ z) ^ 2 with hH
  set E : ℝ := ∑ i, e i ^ 2 with hE
  set B : ℝ := ∑ i, a i ^ 2 with hB
  have hH0 : 0 ≤ H := Finset.sum_nonneg fun i _ => sq_nonneg _
  have hHe : H = ∑ i, e i * (x i ⬝ᵥ z) := by
    rw [← horth z, hH]
    exact Finset.sum_congr rfl fun i _ => sq _
  have hHa : H = ∑ i, a i * (x i ⬝ᵥ z) := by
    have := ho z
    simp only [sub_mul, Finset.sum_sub_distrib] at this
    linarith
  have hle : H ≤ B := by
    have h1 : H ^ 2 ≤ B * H := by
      have := Finset.sum_mul_sq_le_sq_mul_sq Finset.univ a fun i => x i ⬝ᵥ z
      rw [← hHa] at this
      exact this
    rcases hH0.eq_or_lt with h0 | h0
    · rw [← h0]
      exact Finset.sum_nonneg fun i _ => sq_nonneg _
    · nlinarith
  have hsq : ∑ i, (e i + x i ⬝ᵥ v) ^ 2 = E - H + ∑ i, (x i ⬝ᵥ (v + z)) ^ 2 := by
    have h1 := horth v
    have h2 : ∑ i, (x i ⬝ᵥ (v + z)) ^ 2 = ∑ i, (x i ⬝ᵥ v) ^ 2 + 2 * ∑ i, (x i ⬝ᵥ z) * (x i ⬝ᵥ v) + H := by
      rw [Finset.mul_sum, ← Finset.sum_add_distrib, hH, ← Finset.sum_add_distrib]
      refine Finset.sum_congr rfl fun i _ => ?_
      rw [dotProduct_add]
      ring
    have h3 : ∑ i, (e i + x i ⬝ᵥ v) ^ 2 = E + 2 * ∑ i, e i * (x i ⬝ᵥ v) + ∑ i, (x i ⬝ᵥ v) ^ 2 := by
      rw [Finset.mul_sum, hE, ← Finset.sum_add_distrib, ← Finset.sum_add_distrib]
      exact Finset.sum_congr rfl fun i _ => by ring
    rw [h2, h3, h1]
    ring
  have h4 : 0 ≤ ∑ i, (x i ⬝ᵥ (v + z)) ^ 2 := Finset.sum_nonneg fun i _ => sq_nonneg _
  rw [hsq]
  nlinarith

/-- Claim C152, the error: the limit is nearly as close to what the transitions say as any params can be. -/
theorem C152_error {gamma : ℝ} {pi : σ → Fin n → ℝ} (hpi : ∀ s, (∀ a, 0 ≤ pi s a) ∧ ∑ a, pi s a = 1) {rows : List (Out σ (Fin n) ℝ)} (hp : OnPolicyE gamma pi rows) {base : σ → Fin n → ℝ} {phi : σ → Fin n → Fin d → ℝ} {best : Fin d → ℝ}
    (hb : ProjectedE pi base phi rows best) {u : σ → Fin n → ℝ} (hu : EmpiricalE pi rows u) (θ : Fin d → ℝ) :
    (1 - gamma ^ 2) * (rows.map fun o => (linQ base phi best o.S o.A - u o.S o.A) ^ 2).sum ≤ (rows.map fun o => (linQ base phi θ o.S o.A - u o.S o.A) ^ 2).sum := by
  set e : σ → Fin n → ℝ := fun s a => linQ base phi best s a - u s a with he
  have hsome : ∀ o ∈ rows, o.S_next.isSome := fun o ho => (hp.next o ho).1
  have hdiff : ∀ i : Fin rows.length, e rows[i].S rows[i].A - rows[i].In * rows[i].S_next.elim 0 (fun s => ∑ a, pi s a * e s a) = tdErrE pi u rows[i] - tdErrE pi (linQ base phi best) rows[i] := fun i => by
    obtain ⟨s, h⟩ := Option.isSome_iff_exists.1 (hsome rows[i] (List.getElem_mem _))
    unfold tdErrE
    rw [h]
    simp only [Option.elim_some, he, mul_sub, Finset.sum_sub_distrib]
    ring
  have ho : ∀ v, ∑ i : Fin rows.length, (e rows[i].S rows[i].A - rows[i].In * rows[i].S_next.elim 0 (fun s => ∑ a, pi s a * e s a)) * (featsQ phi rows i ⬝ᵥ v) = 0 := fun v => by
    have h1 := hu fun s a => phi s a ⬝ᵥ v
    rw [sum_rows] at h1
    have h2 : ∑ i : Fin rows.length, tdErrE pi (linQ base phi best) rows[i] * (featsQ phi rows i ⬝ᵥ v) = 0 := by
      have h3 : ∑ i : Fin rows.length, tdErrE pi (linQ base phi best) rows[i] * (featsQ phi rows i ⬝ᵥ v) = ∑ k, (∑ i : Fin rows.length, tdErrE pi (linQ base phi best) rows[i] * phi rows[i].S rows[i].A k) * v k := by
        simp only [dotProduct, featsQ, Finset.mul_sum, Finset.sum_mul]
        rw [Finset.sum_comm]
        exact Finset.sum_congr rfl fun k _ => Finset.sum_congr rfl fun i _ => by ring
      rw [h3]
      refine Finset.sum_eq_zero fun k _ => ?_
      have := hb k
      rw [sum_rows] at this
      rw [this, zero_mul]
    simp only [hdiff, sub_mul, Finset.sum_sub_distrib]
    rw [h2, sub_zero]
    exact h1
  have ha : ∑ i : Fin rows.length, (rows[i].In * rows[i].S_next.elim 0 (fun s => ∑ a, pi s a * e s a)) ^ 2 ≤ gamma ^ 2 * ∑ i : Fin rows.length, e rows[i].S rows[i].A ^ 2 := by
    have h1 := hp.visits (fun s a => e s a ^ 2) fun _ _ => sq_nonneg _
    rw [sum_rows, sum_rows] at h1
    refine le_trans ?_ (mul_le_mul_of_nonneg_left h1 (sq_nonneg gamma))
    rw [Finset.mul_sum]
    refine Finset.sum_le_sum fun i _ => ?_
    have hi := List.getElem_mem i.2
    have g0 := hp.in_nonneg _ hi
    have g1 := hp.in_le _ hi
    rw [mul_pow]
    simp only [Fin.getElem_fin] at g0 g1 ⊢
    by_cases hz : rows[(i : ℕ)].In = 0
    · simp [hz]
    rw [if_neg hz]
    cases rows[(i : ℕ)].S_next with
    | none => simp
    | some s =>
      simp only [Option.elim_some]
      exact mul_le_mul (pow_le_pow_left₀ g0 g1 2) (mean_sq (hpi s).1 (hpi s).2 _) (sq_nonneg _) (sq_nonneg _)
  have h := error_orth ho ha (θ - best)
  rw [sum_rows, sum_rows]
  refine h.trans (le_of_eq (Finset.sum_congr rfl fun i _ => ?_))
  rw [show featsQ phi rows i = phi rows[i].S rows[i].A from rfl, ← linQ_sub base, he]
  ring

/-- Claim C152, what the error is relative to exists. -/
theorem C152_empirical {gamma : ℝ} (h0 : 0 ≤ gamma) (h1 : gamma < 1) {pi : σ → Fin n → ℝ} (hpi : ∀ s, (∀ a, 0 ≤ pi s a) ∧ ∑ a, pi s a = 1) {rows : List (Out σ (Fin n) ℝ)} (hp : OnPolicyE gamma pi rows) : ∃ u, EmpiricalE pi rows u := by
  classical
  set l := (rows.map fun o => (o.S, o.A)).dedup with hl
  have hnd : l.Nodup := List.nodup_dedup _
  set phi : σ → Fin n → Fin l.length → ℝ := fun s a => isAt l (s, a) with hphi
  obtain ⟨best, hb⟩ : ∃ best, ProjectedE pi (fun _ _ => 0) phi rows best := by
    obtain ⟨w, -, hw⟩ := resid_exists h0 h1 (hp.feats hpi phi) fun i => tdErrE pi (linQ (fun _ _ => 0) phi 0) rows[i]
    refine ⟨w, fun k => ?_⟩
    rw [sum_tdErrE (fun o ho => (hp.next o ho).1) (fun _ _ => 0) phi w 0 k, sub_zero, hw, sum_rows]
    exact sub_self _
  refine ⟨linQ (fun _ _ => 0) phi best, fun g => ?_⟩
  have hg : ∀ o ∈ rows, g o.S o.A = ∑ k : Fin l.length, g l[k].1 l[k].2 * phi o.S o.A k := fun o ho => by
    have hm : (o.S, o.A) ∈ l := List.mem_dedup.2 (List.mem_map_of_mem (f := fun o : Out σ (Fin n) ℝ => (o.S, o.A)) ho)
    obtain ⟨j, hj, e⟩ := List.getElem_of_mem hm
    have := lin_isAt hnd (fun k => g l[k].1 l[k].2) ⟨j, hj⟩
    simp only [lin, zero_add, Fin.getElem_fin, e] at this
    rw [← this]
    exact Finset.sum_congr rfl fun k _ => mul_comm _ _
  have h2 : (rows.map fun o => tdErrE pi (linQ (fun _ _ => 0) phi best) o * g o.S o.A) = rows.map fun o => ∑ k : Fin l.length, g l[k].1 l[k].2 * (tdErrE pi (linQ (fun _ _ => 0) phi best) o * phi o.S o.A k) :=
    List.map_congr_left fun o ho => by
      rw [hg o ho, Finset.mul_sum]
      exact Finset.sum_congr rfl fun k _ => by ring
  have h3 : ∀ (rs : List (Out σ (Fin n) ℝ)) (f : Fin l.length → Out σ (Fin n) ℝ → ℝ), (rs.map fun o => ∑ k, g l[k].1 l[k].2 * f k o).sum = ∑ k, g l[k].1 l[k].2 * (rs.map (f k)).sum := fun rs f => by
    induction rs with
    | nil => simp
    | cons o rs ih => simp only [List.map_cons, List.sum_cons, ih, mul_add, Finset.sum_add_distrib]
  rw [h2, h3 rows fun k o => tdErrE pi (linQ (fun _ _ => 0) phi best) o * phi o.S o.A k]
  exact Finset.sum_eq_zero fun k _ => by rw [hb k, mul_zero]

/-- Four transitions of a policy that is followed meet the hypotheses. -/
example : ∃ u best, EmpiricalE (probs leaning) [again 0, again 0, again 0, again 1] u ∧ ProjectedE (probs leaning) (fun _ _ => 0) tempting [again 0, again 0, again 0, again 1] best := by
  have hp : OnPolicyE (1 / 2) (probs leaning) [again 0, again 0, again 0, again 1] :=
    ⟨by simp [again], by simp [again], by simp [again], by simp [again], fun g _ => by
      have := leaning_probs true
      simp [again, Fin.sum_univ_two, this.1, this.2]
      linarith⟩
  obtain ⟨u, hu⟩ := C152_empirical (by norm_num) (by norm_num) (probs_law two_pos leaning) hp
  obtain ⟨θ, -, best, hb, -⟩ := C152_converges (by norm_num) (by norm_num) leaning (by simp) hp false (fun _ _ => 0) tempting (F := 4) (by norm_num [again, tempting]) (lr := 1 / 100) (by norm_num) (by norm_num) fun _ => 7
  exact ⟨u, best, hu, hb⟩

end Coax.Loop
