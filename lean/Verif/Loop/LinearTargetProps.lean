import Verif.Loop.LinearTargetLemmas
import Verif.Loop.LinearQProps

/-! Properties C149 and C150: linear functions with a target network. -/

namespace Coax.Loop

open Coax.RewardTracing Coax.TD Coax.Core Coax.Values Coax.Pol Filter Topology

variable {σ : Type _} {n d : Nat}

theorem affineUpdate_lag (lr : ℝ) (base : σ → ℝ) (phi : σ → Fin d → ℝ) {rows : List (Out σ (Fin n) ℝ)} (hne : rows ≠ []) (hs : ∀ o ∈ rows, o.S_next.isSome) (hw : ∀ o ∈ rows, o.W = 1) {best : Fin d → ℝ} (hb : Projected base phi rows best)
    (θT θ : Fin d → ℝ) : affineUpdate lr mse1 base phi θT θ rows = .ok (θ - (lr / rows.length) • lagResid (feats phi rows) (ahead phi rows) (θ - best) (θT - best)) := by
  rw [C149_update lr base phi θT θ hne hs]
  congr 1
  funext k
  have h1 := (projectedLin_iff base phi best).1 hb k
  have h2 : (rows.map fun o => min (max o.W 0.1) 10 * ((o.Rn + o.In * o.S_next.elim 0 (lin base phi θT) - lin base phi θ o.S) * phi o.S k)).sum = -lagResid (feats phi rows) (ahead phi rows) (θ - best) (θT - best) k := by
    rw [sum_rows]
    have e : ∀ i : Fin rows.length, min (max rows[i].W 0.1) 10 * ((rows[i].Rn + rows[i].In * rows[i].S_next.elim 0 (lin base phi θT) - lin base phi θ rows[i].S) * phi rows[i].S k) =
        tdErr (lin base phi best) rows[i] * feats phi rows i k - (feats phi rows i ⬝ᵥ (θ - best) - ahead phi rows i ⬝ᵥ (θT - best)) * feats phi rows i k := fun i => by
      obtain ⟨s, h⟩ := Option.isSome_iff_exists.1 (hs rows[i] (List.getElem_mem _))
      rw [hw rows[i] (List.getElem_mem _), ahead_dot, h]
      unfold tdErr
      rw [h]
      simp only [Option.elim_some, feats]
      rw [← lin_sub base, ← lin_sub base]
      norm_num
      ring
    rw [Finset.sum_congr rfl fun i _ => e i, Finset.sum_sub_distrib, h1, zero_sub]
    rfl
  rw [h2, Pi.sub_apply, Pi.smul_apply, smul_eq_mul]
  ring

/-- Claim C149, target networks: if the transitions of a batch lead to its states as often as these occur, then updates with a small learning rate, each of which is followed by a soft update of the target network, converge to the same values, with every
`tau` and from all params of both networks.  Nothing raises. -/
theorem C149_target {gamma : ℝ} (h0 : 0 ≤ gamma) (h1 : gamma < 1) {rows : List (Out σ (Fin n) ℝ)} (hne : rows ≠ []) (hp : OnPolicy gamma rows) (base : σ → ℝ) (phi : σ → Fin d → ℝ) {F : ℝ} (hF : ∀ o ∈ rows, ∑ k, phi o.S k ^ 2 ≤ F) {lr : ℝ} (hlr : 0 < lr)
    (hs : 7 * (lr * F) < 1 - gamma) {tau : ℝ} (ht : 0 < tau) (ht1 : tau ≤ 1) (θ0 θT0 : Fin d → ℝ) :
    ∃ θ θT : ℕ → Fin d → ℝ, (∀ t, affineLearnT (fun _ => lr) tau mse1 base phi 0 (θ0, θT0) (List.replicate t rows) = .ok (θ t, θT t)) ∧
      ∃ best, Projected base phi rows best ∧ ∀ s, phi s ∈ covered phi rows →
        Tendsto (fun t => lin base phi (θ t) s) atTop (𝓝 (lin base phi best s)) ∧ Tendsto (fun t => lin base phi (θT t) s) atTop (𝓝 (lin base phi best s)) := by
  obtain ⟨best, hb⟩ := C149_exists h0 h1 hp base phi
  set step : (Fin d → ℝ) × (Fin d → ℝ) → (Fin d → ℝ) × (Fin d → ℝ) := fun z =>
    (z.1 - (lr / rows.length) • lagResid (feats phi rows) (ahead phi rows) (z.1 - best) (z.2 - best), softV tau z.2 (z.1 - (lr / rows.length) • lagResid (feats phi rows) (ahead phi rows) (z.1 - best) (z.2 - best))) with hstep
  have hN : (0 : ℝ) < rows.length := by
    have := List.length_pos_iff.2 hne
    exact_mod_cast this
  have hlearn : ∀ t k z, affineLearnT (fun _ => lr) tau mse1 base phi k z (List.replicate t rows) = .ok (step^[t] z) := fun t => by
    induction t with
    | zero => rintro k ⟨θ, θT⟩; rfl
    | succ t ih =>
      rintro k ⟨θ, θT⟩
      rw [List.replicate_succ, affineLearnT, affineUpdate_lag lr base phi hne hp.s_next hp.w hb θT θ]
      exact ih _ _
  refine ⟨fun t => (step^[t] (θ0, θT0)).1, fun t => (step^[t] (θ0, θT0)).2, fun t => hlearn t 0 _, best, hb, fun s hs' => ?_⟩
  have hF' : ∀ i, feats phi rows i ⬝ᵥ feats phi rows i ≤ F := fun i => by
    have := hF rows[i] (List.getElem_mem _)
    simpa [dotProduct, feats, ← sq] using this
  have hF0 : 0 ≤ F := by
    obtain ⟨o, ho⟩ := List.exists_mem_of_ne_nil _ hne
    exact (Finset.sum_nonneg fun k _ => sq_nonneg _).trans (hF o ho)
  have hsmall : 7 * (lr / rows.length * (Fintype.card (Fin rows.length) * F)) < 1 - gamma := by
    rw [Fintype.card_fin]
    have : lr / rows.length * (rows.length * F) = lr * F := by field_simp
    rw [this]
    exact hs
  have hrec : ∀ t, (step^[t + 1] (θ0, θT0)).1 - best = ((step^[t] (θ0, θT0)).1 - best) - (lr / rows.length) • lagResid (feats phi rows) (ahead phi rows) ((step^[t] (θ0, θT0)).1 - best) ((step^[t] (θ0, θT0)).2 - best) := fun t => by
    rw [Function.iterate_succ_apply', hstep]
    exact sub_right_comm _ _ _
  have hrec' : ∀ t, (step^[t + 1] (θ0, θT0)).2 - best = (1 - tau) • ((step^[t] (θ0, θT0)).2 - best) + tau • ((step^[t + 1] (θ0, θT0)).1 - best) := fun t => by
    rw [Function.iterate_succ_apply', hstep]
    funext k
    simp only [softV, Pi.sub_apply, Pi.add_apply, Pi.smul_apply, smul_eq_mul]
    ring
  have hlim := lag_tendsto (w := fun t => (step^[t] (θ0, θT0)).1 - best) (v := fun t => (step^[t] (θ0, θT0)).2 - best) h0 h1 (div_pos hlr hN) hF' hF0 (hp.feats phi) ht ht1 hsmall hrec hrec'
  rw [covered_eq] at hs'
  have h2 := (span_tendsto (fun i => (hlim i).1) hs').add_const (lin base phi best s)
  have h3 := (span_tendsto (fun i => (hlim i).2) hs').add_const (lin base phi best s)
  rw [zero_add] at h2 h3
  refine ⟨h2.congr fun t => ?_, h3.congr fun t => ?_⟩
  · rw [← lin_sub base]
    ring
  · rw [← lin_sub base]
    ring

theorem affineLearnTQ_pair (lr : ℕ → ℝ) (tau : ℝ) (type1 : Bool) (base : σ → Fin n → ℝ) (phi : σ → Fin n → Fin d → ℝ) {batches : List (List (Out σ (Fin n) ℝ))} (hb : ∀ rows ∈ batches, rows ≠ [] ∧ ∀ o ∈ rows, o.S_next.isSome ∧ o.A_next.isSome) (k : ℕ)
    (z : (Fin d → ℝ) × (Fin d → ℝ)) :
    affineLearnTQ lr tau mse1 (sarsa n) type1 base phi k z batches = affineLearnT lr tau mse1 (fun p => base p.1 p.2) (fun p => phi p.1 p.2) k z (batches.map (List.map pair)) := by
  induction batches generalizing k z with
  | nil => rfl
  | cons rows bs ih =>
    obtain ⟨θ, θT⟩ := z
    rw [List.map_cons, affineLearnTQ, affineLearnT, affineUpdateQ_pair mse1_meanOf _ type1 base phi θT θ (hb rows (by simp)).1 (hb rows (by simp)).2]
    cases affineUpdate (lr k) mse1 (fun p => base p.1 p.2) (fun p => phi p.1 p.2) θT θ (rows.map pair) with
    | error e => rfl
    | ok θ' => exact ih (fun r hr => hb r (by simp [hr])) (k + 1) _

/-- Claim C150, target networks: with the transitions that an `NStep` tracer makes of complete episodes, `Sarsa` updates with a small learning rate, each of which is followed by a soft update of the target network, converge to values that are as good as
without a target network. -/
theorem C150_target {gamma : ℝ} (h0 : 0 ≤ gamma) (h1 : gamma < 1) {N : ℕ} (hN : 0 < N) {steps : List (Step σ (Fin n) ℝ × Bool)} {x : Step σ (Fin n) ℝ} (hlast : steps.getLast? = some (x, true)) (hlogp : ∀ p ∈ steps, p.1.logp ≤ 0)
    (hw : ∀ p ∈ steps, p.1.w = 1) (type1 : Bool) (base : σ → Fin n → ℝ) (phi : σ → Fin n → Fin d → ℝ) {F : ℝ} (hF : ∀ p ∈ steps, ∑ k, phi p.1.s p.1.a k ^ 2 ≤ F) {lr : ℝ} (hlr : 0 < lr) (hs : 7 * (lr * F) < 1 - gamma) {tau : ℝ} (ht : 0 < tau)
    (ht1 : tau ≤ 1) (θ0 θT0 : Fin d → ℝ) :
    ∃ tracer rows k, onlineU (fun _ (acc : List (Out σ (Fin n) ℝ)) o => .ok (acc ++ [o])) (NStep.init N gamma false, [], 0) steps = .ok (tracer, rows, k) ∧
      ∃ (θ θT : ℕ → Fin d → ℝ) (best : Fin d → ℝ), (∀ t, affineLearnTQ (fun _ => lr) tau mse1 (sarsa n) type1 base phi 0 (θ0, θT0) (List.replicate t rows) = .ok (θ t, θT t)) ∧
        (∀ p ∈ steps, Tendsto (fun t => linQ base phi (θ t) p.1.s p.1.a) atTop (𝓝 (linQ base phi best p.1.s p.1.a)) ∧ Tendsto (fun t => linQ base phi (θT t) p.1.s p.1.a) atTop (𝓝 (linQ base phi best p.1.s p.1.a))) ∧
        NearBest gamma base phi rows steps best := by
  obtain ⟨tracer, rows, k, hrun, hS, hne, hsa, hp⟩ := episodes_pair h0 h1.le hN hlast hlogp hw
  refine ⟨tracer, rows, k, hrun, ?_⟩
  have hF' : ∀ o ∈ rows.map pair, ∑ k, phi o.S.1 o.S.2 k ^ 2 ≤ F := fun o ho => by
    obtain ⟨o, ho', rfl⟩ := List.mem_map.1 ho
    have h2 : (o.S, o.A) ∈ rows.map fun o => (o.S, o.A) := List.mem_map_of_mem (f := fun o : Out σ (Fin n) ℝ => (o.S, o.A)) ho'
    rw [hS] at h2
    obtain ⟨p, hp, e⟩ := List.mem_map.1 h2
    have := hF p hp
    rw [Prod.mk.injEq] at e
    rwa [e.1, e.2] at this
  obtain ⟨θ, θT, hθ, best, hb, hlim⟩ := C149_target h0 h1 (by simpa using hne) hp (fun p : σ × Fin n => base p.1 p.2) (fun p => phi p.1 p.2) hF' hlr hs ht ht1 θ0 θT0
  refine ⟨θ, θT, best, fun t => ?_, fun p hp' => ?_, nearBest_of h0 h1 base phi hS hsa hp hb⟩
  · rw [affineLearnTQ_pair _ tau type1 base phi fun r hr => ?_, List.map_replicate, hθ]
    rw [(List.mem_replicate.1 hr).2]
    exact ⟨hne, hsa⟩
  · have h2 : (p.1.s, p.1.a) ∈ steps.map fun p => (p.1.s, p.1.a) := List.mem_map_of_mem (f := fun p : Step σ (Fin n) ℝ × Bool => (p.1.s, p.1.a)) hp'
    rw [← hS] at h2
    obtain ⟨o, ho, e⟩ := List.mem_map.1 h2
    rw [Prod.mk.injEq] at e
    have := hlim (o.S, o.A) (Submodule.subset_span ⟨pair o, List.mem_map_of_mem ho, rfl⟩)
    rw [← e.1, ← e.2]
    exact this

/-- Two steps of an episode, a learning rate of 1/1000 and `tau` = 1/100. -/
example : ∃ (rows : List (Out Bool (Fin 1) ℝ)) (θ θT : ℕ → Fin 1 → ℝ) (best : Fin 1 → ℝ), (∀ t, affineLearnTQ (fun _ => 1 / 1000) (1 / 100) mse1 (sarsa 1) false (fun _ _ => 0) (fun s _ => double s) 0 (fun _ => 3, fun _ => -1) (List.replicate t rows) = .ok (θ t, θT t)) ∧
    Tendsto (fun t => linQ (n := 1) (fun _ _ => 0) (fun s _ => double s) (θT t) true 0) atTop (𝓝 (linQ (n := 1) (fun _ _ => 0) (fun s _ => double s) best true 0)) := by
  obtain ⟨-, rows, -, -, θ, θT, best, h1, h2, -⟩ := C150_target (σ := Bool) (n := 1) (gamma := 9 / 10) (by norm_num) (by norm_num) (N := 1) one_pos (steps := [(⟨false, 0, 1, 0, 1⟩, false), (⟨true, 0, 2, 0, 1⟩, true)]) (x := ⟨true, 0, 2, 0, 1⟩) rfl (by simp) (by simp)
    false (fun _ _ => 0) (fun s _ => double s) (F := 4) (by norm_num [double]) (lr := 1 / 1000) (by norm_num) (by norm_num) (tau := 1 / 100) (by norm_num) (by norm_num) (fun _ => 3) fun _ => -1
  exact ⟨rows, θ, θT, best, h1, (h2 (⟨true, 0, 2, 0, 1⟩, true) (by simp)).2⟩

end Coax.Loop
