import Verif.Loop.RegularizedProps

/-! Lemmas for C147 with more than one step: something that is added to the targets of several steps is a difference of potentials along the path. -/

namespace Coax.Loop

open Coax.RewardTracing Coax.TD Coax.Core Coax.Values Coax.Pol Filter Topology MeasureTheory

variable {σ X J Ω : Type _} {n m : Nat} {m0 : MeasurableSpace Ω}

/-- The rewards with the difference of potentials of the two cells. -/
noncomputable def shaped (rew : X → J → ℝ) (stop : X → J → Bool) (next : X → J → X) (gamma : ℝ) (f : X → ℝ) (p : X) (j : J) : ℝ := rew p j + f p - if stop p j then 0 else gamma * f (next p j)

theorem pathRet_shaped (rew : X → J → ℝ) {stop : X → J → Bool} {next : X → J → X} (gamma : ℝ) (f v : X → ℝ) {z : ℕ → X} {x : ℕ → J} (hz : ∀ t, stop (z t) (x t) = false → z (t + 1) = next (z t) (x t)) (N t : ℕ) :
    pathRet (shaped rew stop next gamma f) stop gamma z x (fun p => v p + f p) N t = f (z t) + pathRet rew stop gamma z x v N t := by
  induction N generalizing t with
  | zero => exact add_comm _ _
  | succ N ih =>
    rw [pathRet, pathRet, ih, shaped]
    cases h : stop (z t) (x t) with
    | true => simp; ring
    | false =>
      simp only [Bool.false_eq_true, if_false]
      rw [← hz t h]
      ring

theorem chainOp_shaped [Fintype J] {q : X → J → ℝ} (hq : ∀ p, ∑ j, q p j = 1) (rew : X → J → ℝ) (stop : X → J → Bool) (next : X → J → X) (gamma : ℝ) (f v : X → ℝ) (N : ℕ) (p : X) :
    (chainOp q (shaped rew stop next gamma f) stop next gamma)^[N] (fun p => v p + f p) p = f p + (chainOp q rew stop next gamma)^[N] v p := by
  induction N generalizing p with
  | zero => exact add_comm _ _
  | succ N ih =>
    rw [Function.iterate_succ_apply', Function.iterate_succ_apply', chainOp, chainOp]
    have : f p = ∑ j, q p j * f p := by rw [← Finset.sum_mul, hq, one_mul]
    rw [this, ← Finset.sum_add_distrib]
    refine Finset.sum_congr rfl fun j _ => ?_
    rw [ih, shaped]
    cases stop p j with
    | true => simp; ring
    | false => simp only [Bool.false_eq_true, if_false]; ring

theorem additive_simple : Additive (σ := σ) (n := 1) simpleRule := by
  intro type1 θQ θT b c h
  exact backup_pay b _ c h

section

variable [DecidableEq σ]

/-- `learnS_lookahead` with something added to the returns. -/
theorem learnS_lookahead_pay [Fintype σ] [Fintype J] {μ : Measure Ω} [IsProbabilityMeasure μ] {ℱ : Filtration ℕ m0} {updateRule} (ha : Additive updateRule) {type1 : Bool} (hn : 0 < n) {gamma : ℝ} (h0 : 0 ≤ gamma) (h1 : gamma < 1) {N : ℕ} (hN : 0 < N)
    (f : σ → ℝ) {q rew : σ × Fin n → J → ℝ} {stop : σ × Fin n → J → Bool} {next : σ × Fin n → J → σ × Fin n} {boot : (σ × Fin n → ℝ) → σ × Fin n → ℝ} {lr tau : ℕ → ℝ} {rows : ℕ → Ω → Out σ (Fin n) ℝ} {x : ℕ → Ω → J}
    (hq0 : ∀ p j, 0 ≤ q p j) (hq1 : ∀ p, ∑ j, q p j = 1) (hc : Chain μ ℱ q stop next (fun t ω => ((rows t ω).S, (rows t ω).A)) x) (hw : ∀ t, Measurable[ℱ t] fun ω => (rows t ω).W)
    (hclose : ∀ (q1 q2 : σ × Fin n → ℝ) M, (∀ p, |q1 p - q2 p| ≤ M) → ∀ p, |boot q1 p - boot q2 p| ≤ M)
    (hup : ∀ θ θT t ω, ∃ B, toTBatch id (fun a : Fin n => oneHot n a) [rows t ω] = .ok B ∧
      updateRule (tabular type1 θ) (tabular type1 θT) B = .ok [pathRet rew stop gamma (fun t => ((rows t ω).S, (rows t ω).A)) (fun t => x t ω) (boot fun p => θT p.1 p.2) N t])
    (hl : Rates μ rows lr tau) (hanti : Antitone lr) {best : σ → Fin n → ℝ} (hbest : ∀ p : σ × Fin n, f p.1 + (chainOp q rew stop next gamma)^[N] (boot fun p => best p.1 p.2) p = best p.1 p.2) (θ0 θT0 : σ → Fin n → ℝ) :
    ∃ θ θT : ℕ → Ω → σ → Fin n → ℝ, (∀ k ω, learnS lr mse1 updateRule type1 0 (θ0, θT0) ((List.range k).map fun t => ([payRow f (rows t ω)], tau t)) = .ok (θ k ω, θT k ω)) ∧
      ∀ᵐ ω ∂μ, ∀ s a, Tendsto (fun k => θ k ω s a) atTop (𝓝 (best s a)) ∧ Tendsto (fun k => θT k ω s a) atTop (𝓝 (best s a)) := by
  refine learnS_lookahead (rows := fun t ω => payRow f (rows t ω)) (boot := fun q p => boot q p + f p.1) (rew := shaped rew stop next gamma fun p => f p.1) hn h0 h1 hN hq0 hq1 hc hw (fun q1 q2 M hM p => ?_) (fun θ θT t ω => ?_)
    ⟨hl.nonneg, hl.le, hl.squares, hl.visits, hl.tau_nonneg, hl.tau_le, hl.syncs⟩ hanti (fun p => ?_) θ0 θT0
  · rw [add_sub_add_right_eq_sub]
    exact hclose q1 q2 M hM p
  · obtain ⟨B, hB, ht⟩ := hup θ θT t ω
    have h2 := toTBatch_pay f [rows t ω]
    rw [hB] at h2
    refine ⟨_, h2, ?_⟩
    have h3 := (ha type1 θ θT B ([rows t ω].map fun o => f o.S) (by rw [toTBatch_length hB]; simp)).2
    refine h3.trans ?_
    rw [ht]
    have h4 := pathRet_shaped rew gamma (fun p : σ × Fin n => f p.1) (boot fun p => θT p.1 p.2) (z := fun t => ((rows t ω).S, (rows t ω).A)) (x := fun t => x t ω) (fun t => hc.goes t ω) N t
    have h5 : ∀ a b : ℝ, (Except.ok [a] : Except Err (List ℝ)).map (fun G => List.zipWith (· + ·) G [b]) = .ok [b + a] := fun a b => by rw [add_comm]; rfl
    refine (h5 _ _).trans ?_
    rw [← h4]
    rfl
  · rw [← hbest]
    exact chainOp_shaped hq1 rew stop next gamma (fun p => f p.1) _ N p

/-- What is learned from the transitions of `N` steps one by one is learned online. -/
theorem onlineTReg_of_rowN {μ : Measure Ω} {lr : ℕ → ℝ} {tau gamma : ℝ} (h0 : 0 ≤ gamma) (h1 : gamma ≤ 1) {N : ℕ} (hN : 0 < N) {L : LossFn} {reg : List (Out σ (Fin n) ℝ) → Except Err (List ℝ)} {f : σ → ℝ} (hreg : Pays reg f) {updateRule}
    (ha : Additive updateRule) {type1 : Bool} {xs : ℕ → Ω → Step σ (Fin n) ℝ} {dn : ℕ → Ω → Bool} (hlogp : ∀ t ω, (xs t ω).logp ≤ 0) (hw : ∀ t ω, 0 < (xs t ω).w) {θ0 θT0 : σ → Fin n → ℝ} {best : σ → Fin n → ℝ}
    (h : ∃ θ θT : ℕ → Ω → σ → Fin n → ℝ, (∀ k ω, learnS lr L updateRule type1 0 (θ0, θT0) ((List.range k).map fun t => ([payRow f (rowN gamma N (fun t => xs t ω) (fun t => dn t ω) t)], tau)) = .ok (θ k ω, θT k ω)) ∧
      ∀ᵐ ω ∂μ, ∀ s a, Tendsto (fun k => θ k ω s a) atTop (𝓝 (best s a)) ∧ Tendsto (fun k => θT k ω s a) atTop (𝓝 (best s a))) :
    ∃ θ θT : ℕ → Ω → σ → Fin n → ℝ,
      (∀ k ω, ∃ t c, onlineTReg lr tau L reg updateRule type1 (NStep.init N gamma false, (θ0, θT0), 0) ((List.range k).map fun t => (xs t ω, dn t ω)) = .ok (t, (θ k ω, θT k ω), c)) ∧
      ∀ᵐ ω ∂μ, ∀ s a, Tendsto (fun k => θ k ω s a) atTop (𝓝 (best s a)) ∧ Tendsto (fun k => θT k ω s a) atTop (𝓝 (best s a)) := by
  obtain ⟨θ, θT, h2, h3⟩ := h
  have start : ∀ ω, (θ 0 ω, θT 0 ω) = (θ0, θT0) := fun ω => (Except.ok.inj (h2 0 ω)).symm
  have step : ∀ ω j, updateTReg lr tau L reg updateRule type1 j (θ j ω, θT j ω) (rowN gamma N (fun t => xs t ω) (fun t => dn t ω) j) = .ok (θ (j + 1) ω, θT (j + 1) ω) := by
    intro ω j
    have h4 := h2 (j + 1) ω
    rw [List.range_succ, List.map_append, learnS_append (h2 j ω)] at h4
    simp only [List.map_cons, List.map_nil, List.length_map, List.length_range, Nat.zero_add] at h4
    rw [learnS] at h4
    rw [updateTReg, sgdUpdate_pay hreg ha, List.map_cons, List.map_nil]
    split at h4
    · cases h4
    · rename_i θ' he
      rw [learnS] at h4
      rw [he]
      exact h4
  have main := fun ω => onlineU_lookahead (dn := fun t => dn t ω) (θ := fun t => (θ t ω, θT t ω)) h0 h1 hN (fun t => hlogp t ω) (fun t => hw t ω) (step ω)
  refine ⟨fun k ω => θ (poppedN (fun t => dn t ω) N k) ω, fun k ω => θT (poppedN (fun t => dn t ω) N k) ω, fun k ω => ?_, ?_⟩
  · obtain ⟨d, -, h4⟩ := main ω k
    rw [← start ω, onlineTReg]
    exact ⟨_, _, h4⟩
  · filter_upwards [h3] with ω h3 s a
    exact ⟨(h3 s a).1.comp (poppedN_tendsto _ hN), (h3 s a).2.comp (poppedN_tendsto _ hN)⟩

/-- The same for state values. -/
theorem onlineVReg_of_rowN {μ : Measure Ω} {lr : ℕ → ℝ} {tau gamma : ℝ} (h0 : 0 ≤ gamma) (h1 : gamma ≤ 1) {N : ℕ} (hN : 0 < N) {L : LossFn} {reg : List (Out σ (Fin n) ℝ) → Except Err (List ℝ)} {f : σ → ℝ} (hreg : Pays reg f)
    {xs : ℕ → Ω → Step σ (Fin n) ℝ} {dn : ℕ → Ω → Bool} (hlogp : ∀ t ω, (xs t ω).logp ≤ 0) (hw : ∀ t ω, 0 < (xs t ω).w) {θ0 θT0 : σ → ℝ} {best : σ → ℝ}
    (h : ∃ θ θT : ℕ → Ω → σ → ℝ, (∀ k ω, learnV lr L 0 (θ0, θT0) ((List.range k).map fun t => ([payRow f (rowN gamma N (fun t => xs t ω) (fun t => dn t ω) t)], tau)) = .ok (θ k ω, θT k ω)) ∧
      ∀ᵐ ω ∂μ, ∀ s, Tendsto (fun k => θ k ω s) atTop (𝓝 (best s)) ∧ Tendsto (fun k => θT k ω s) atTop (𝓝 (best s))) :
    ∃ θ θT : ℕ → Ω → σ → ℝ,
      (∀ k ω, ∃ t c, onlineVReg lr tau L reg (NStep.init N gamma false, (θ0, θT0), 0) ((List.range k).map fun t => (xs t ω, dn t ω)) = .ok (t, (θ k ω, θT k ω), c)) ∧
      ∀ᵐ ω ∂μ, ∀ s, Tendsto (fun k => θ k ω s) atTop (𝓝 (best s)) ∧ Tendsto (fun k => θT k ω s) atTop (𝓝 (best s)) := by
  obtain ⟨θ, θT, h2, h3⟩ := h
  have start : ∀ ω, (θ 0 ω, θT 0 ω) = (θ0, θT0) := fun ω => (Except.ok.inj (h2 0 ω)).symm
  have step : ∀ ω j, updateVReg lr tau L reg j (θ j ω, θT j ω) (rowN gamma N (fun t => xs t ω) (fun t => dn t ω) j) = .ok (θ (j + 1) ω, θT (j + 1) ω) := by
    intro ω j
    have h4 := h2 (j + 1) ω
    rw [List.range_succ, List.map_append, learnV_append (h2 j ω)] at h4
    simp only [List.map_cons, List.map_nil, List.length_map, List.length_range, Nat.zero_add] at h4
    rw [learnV] at h4
    rw [updateVReg, sgdUpdateV_pay hreg, List.map_cons, List.map_nil]
    split at h4
    · cases h4
    · rename_i θ' he
      rw [learnV] at h4
      rw [he]
      exact h4
  have main := fun ω => onlineU_lookahead (dn := fun t => dn t ω) (θ := fun t => (θ t ω, θT t ω)) h0 h1 hN (fun t => hlogp t ω) (fun t => hw t ω) (step ω)
  refine ⟨fun k ω => θ (poppedN (fun t => dn t ω) N k) ω, fun k ω => θT (poppedN (fun t => dn t ω) N k) ω, fun k ω => ?_, ?_⟩
  · obtain ⟨d, -, h4⟩ := main ω k
    rw [← start ω, onlineVReg]
    exact ⟨_, _, h4⟩
  · filter_upwards [h3] with ω h3 s
    exact ⟨(h3 s).1.comp (poppedN_tendsto _ hN), (h3 s).2.comp (poppedN_tendsto _ hN)⟩

end

end Coax.Loop
