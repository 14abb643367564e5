import Verif.Loop.LinearExpectedProps
import Verif.Loop.LinearTargetProps

/-! Property C152: `ExpectedSarsa` with a linear q-function and a target network. -/

namespace Coax.Loop

open Coax.RewardTracing Coax.TD Coax.Core Coax.Values Coax.Pol Filter Topology

variable {σ : Type _} {n d : Nat}

theorem affineUpdateE_lag {gamma : ℝ} (lr : ℝ) (type1 : Bool) (logits : σ → Fin n → ℝ) (base : σ → Fin n → ℝ) (phi : σ → Fin n → Fin d → ℝ) {rows : List (Out σ (Fin n) ℝ)} (hne : rows ≠ []) (hp : OnPolicyE gamma (probs logits) rows) {best : Fin d → ℝ}
    (hb : ProjectedE (probs logits) base phi rows best) (θT θ : Fin d → ℝ) :
    affineUpdateQ lr mse1 (expectedOf logits) type1 base phi θT θ rows = .ok (θ - (lr / rows.length) • lagResid (featsQ phi rows) (aheadE (probs logits) phi rows) (θ - best) (θT - best)) := by
  rw [C152_update lr type1 logits base phi θT θ hne hp.next]
  congr 1
  funext k
  have h1 := hb k
  rw [sum_rows] at h1
  have h2 : (rows.map fun o => min (max o.W 0.1) 10 * ((o.Rn + o.In * (o.S_next.elim 0 fun s => ∑ a, probs logits s a * linQ base phi θT s a) - linQ base phi θ o.S o.A) * phi o.S o.A k)).sum =
      -lagResid (featsQ phi rows) (aheadE (probs logits) phi rows) (θ - best) (θT - best) k := by
    rw [sum_rows]
    have e : ∀ i : Fin rows.length, min (max rows[i].W 0.1) 10 * ((rows[i].Rn + rows[i].In * (rows[i].S_next.elim 0 fun s => ∑ a, probs logits s a * linQ base phi θT s a) - linQ base phi θ rows[i].S rows[i].A) * phi rows[i].S rows[i].A k) =
        tdErrE (probs logits) (linQ base phi best) rows[i] * phi rows[i].S rows[i].A k -
          (featsQ phi rows i ⬝ᵥ (θ - best) - aheadE (probs logits) phi rows i ⬝ᵥ (θT - best)) * featsQ phi rows i k := fun i => by
      obtain ⟨s, h⟩ := Option.isSome_iff_exists.1 (hp.next rows[i] (List.getElem_mem _)).1
      rw [hp.w rows[i] (List.getElem_mem _), aheadE_dot, h]
      unfold tdErrE
      rw [h]
      simp only [Option.elim_some, featsQ]
      simp only [← linQ_sub base, mul_sub, Finset.sum_sub_distrib]
      norm_num
      ring
    rw [Finset.sum_congr rfl fun i _ => e i, Finset.sum_sub_distrib, h1, zero_sub]
    rfl
  rw [h2, Pi.sub_apply, Pi.smul_apply, smul_eq_mul]
  ring

/-- Claim C152, target networks: the same limit is reached if the next values are those of a target network that follows with soft updates, with every `tau` and from all params of both networks.  Nothing raises. -/
theorem C152_target {gamma : ℝ} (h0 : 0 ≤ gamma) (h1 : gamma < 1) (logits : σ → Fin n → ℝ) {rows : List (Out σ (Fin n) ℝ)} (hne : rows ≠ []) (hp : OnPolicyE gamma (probs logits) rows) (type1 : Bool) (base : σ → Fin n → ℝ) (phi : σ → Fin n → Fin d → ℝ) {F : ℝ}
    (hF : ∀ o ∈ rows, ∑ k, phi o.S o.A k ^ 2 ≤ F) {lr : ℝ} (hlr : 0 < lr) (hs : 7 * (lr * F) < 1 - gamma) {tau : ℝ} (ht : 0 < tau) (ht1 : tau ≤ 1) (θ0 θT0 : Fin d → ℝ) :
    ∃ θ θT : ℕ → Fin d → ℝ, (∀ t, affineLearnTQ (fun _ => lr) tau mse1 (expectedOf logits) type1 base phi 0 (θ0, θT0) (List.replicate t rows) = .ok (θ t, θT t)) ∧
      ∃ best, ProjectedE (probs logits) base phi rows best ∧ ∀ s a, phi s a ∈ coveredQ phi rows →
        Tendsto (fun t => linQ base phi (θ t) s a) atTop (𝓝 (linQ base phi best s a)) ∧ Tendsto (fun t => linQ base phi (θT t) s a) atTop (𝓝 (linQ base phi best s a)) := by
  have hn := pos_of_rows hne
  have hP := hp.feats (probs_law hn logits) phi
  have hF0 : 0 ≤ F := by
    obtain ⟨o, ho⟩ := List.exists_mem_of_ne_nil _ hne
    exact (Finset.sum_nonneg fun k _ => sq_nonneg _).trans (hF o ho)
  obtain ⟨best, hb⟩ : ∃ best, ProjectedE (probs logits) base phi rows best := by
    obtain ⟨w, -, hw⟩ := resid_exists h0 h1 hP fun i => tdErrE (probs logits) (linQ base phi 0) rows[i]
    refine ⟨w, fun k => ?_⟩
    rw [sum_tdErrE (fun o ho => (hp.next o ho).1) base phi w 0 k, sub_zero, hw, sum_rows]
    exact sub_self _
  set step : (Fin d → ℝ) × (Fin d → ℝ) → (Fin d → ℝ) × (Fin d → ℝ) := fun z =>
    (z.1 - (lr / rows.length) • lagResid (featsQ phi rows) (aheadE (probs logits) phi rows) (z.1 - best) (z.2 - best),
      softV tau z.2 (z.1 - (lr / rows.length) • lagResid (featsQ phi rows) (aheadE (probs logits) phi rows) (z.1 - best) (z.2 - best))) with hstep
  have hN : (0 : ℝ) < rows.length := by
    have := List.length_pos_iff.2 hne
    exact_mod_cast this
  have hlearn : ∀ t k z, affineLearnTQ (fun _ => lr) tau mse1 (expectedOf logits) type1 base phi k z (List.replicate t rows) = .ok (step^[t] z) := fun t => by
    induction t with
    | zero => rintro k ⟨θ, θT⟩; rfl
    | succ t ih =>
      rintro k ⟨θ, θT⟩
      rw [List.replicate_succ, affineLearnTQ, affineUpdateE_lag lr type1 logits base phi hne hp hb θT θ]
      exact ih _ _
  refine ⟨fun t => (step^[t] (θ0, θT0)).1, fun t => (step^[t] (θ0, θT0)).2, fun t => hlearn t 0 _, best, hb, fun s a hs' => ?_⟩
  have hF' : ∀ i, featsQ phi rows i ⬝ᵥ featsQ phi rows i ≤ F := fun i => by
    have := hF rows[i] (List.getElem_mem _)
    simpa [dotProduct, featsQ, ← sq] using this
  have hsmall : 7 * (lr / rows.length * (Fintype.card (Fin rows.length) * F)) < 1 - gamma := by
    rw [Fintype.card_fin]
    have : lr / rows.length * (rows.length * F) = lr * F := by field_simp
    rw [this]
    exact hs
  have hrec : ∀ t, (step^[t + 1] (θ0, θT0)).1 - best =
      ((step^[t] (θ0, θT0)).1 - best) - (lr / rows.length) • lagResid (featsQ phi rows) (aheadE (probs logits) phi rows) ((step^[t] (θ0, θT0)).1 - best) ((step^[t] (θ0, θT0)).2 - best) := fun t => by
    rw [Function.iterate_succ_apply', hstep]
    exact sub_right_comm _ _ _
  have hrec' : ∀ t, (step^[t + 1] (θ0, θT0)).2 - best = (1 - tau) • ((step^[t] (θ0, θT0)).2 - best) + tau • ((step^[t + 1] (θ0, θT0)).1 - best) := fun t => by
    rw [Function.iterate_succ_apply', hstep]
    funext k
    simp only [softV, Pi.sub_apply, Pi.add_apply, Pi.smul_apply, smul_eq_mul]
    ring
  have hlim := lag_tendsto (w := fun t => (step^[t] (θ0, θT0)).1 - best) (v := fun t => (step^[t] (θ0, θT0)).2 - best) h0 h1 (div_pos hlr hN) hF' hF0 hP ht ht1 hsmall hrec hrec'
  rw [coveredQ_eq] at hs'
  have h2 := (span_tendsto (fun i => (hlim i).1) hs').add_const (linQ base phi best s a)
  have h3 := (span_tendsto (fun i => (hlim i).2) hs').add_const (linQ base phi best s a)
  rw [zero_add] at h2 h3
  refine ⟨h2.congr fun t => ?_, h3.congr fun t => ?_⟩
  · rw [← linQ_sub base]
    ring
  · rw [← linQ_sub base]
    ring

end Coax.Loop
