import Verif.Loop.AlmostSureProps
import Verif.Loop.ProcessLemmas

/-! Tabular learning as a process of stochastic approximation. -/

namespace Coax.Loop

open Coax.RewardTracing Coax.TD Coax.Core Coax.Values Coax.Pol Filter Topology MeasureTheory

variable {σ J Ω : Type _} {n m : Nat} {m0 : MeasurableSpace Ω} [DecidableEq σ] [Fintype J]

/-- The target of a transition with outcome `j` is `Y θ θT p j`, which is bounded and close to the operator `T` in the mean. -/
structure OutcomeTargets (prob : σ × Fin n → J → ℝ) (gamma R K : ℝ) (T : (σ × Fin n → ℝ) → σ × Fin n → ℝ) (Y : (σ → Fin n → ℝ) → (σ → Fin n → ℝ) → σ × Fin n → J → ℝ) : Prop where
  nonneg : ∀ p j, 0 ≤ prob p j
  total : ∀ p, ∑ j, prob p j = 1
  bounded : ∀ θ θT M, (∀ s a, |θ s a| ≤ M) → (∀ s a, |θT s a| ≤ M) → ∀ p j, |Y θ θT p j| ≤ R + gamma * M
  measurable : ∀ p j, Measurable fun x : (σ → Fin n → ℝ) × (σ → Fin n → ℝ) => Y x.1 x.2 p j
  close : ∀ θ θT D, (∀ s a, |θT s a - θ s a| ≤ D) → ∀ p, |∑ j, prob p j * Y θ θT p j - T (fun p => θT p.1 p.2) p| ≤ K * D

theorem learnS_process [Fintype σ] {μ : Measure Ω} [IsProbabilityMeasure μ] {ℱ : Filtration ℕ m0} {updateRule} {type1 : Bool} (hn : 0 < n) {prob : σ × Fin n → J → ℝ} {gamma R K : ℝ} (h0 : 0 ≤ gamma) (h1 : gamma < 1)
    {T : (σ × Fin n → ℝ) → σ × Fin n → ℝ} {Y : (σ → Fin n → ℝ) → (σ → Fin n → ℝ) → σ × Fin n → J → ℝ} (hY : OutcomeTargets prob gamma R K T Y) {lr tau : ℕ → ℝ} {rows : ℕ → Ω → Out σ (Fin n) ℝ} {ix : ℕ → Ω → J}
    (hat : ∀ t s a, MeasurableSet[ℱ t] {ω | (rows t ω).S = s ∧ (rows t ω).A = a}) (hw : ∀ t, Measurable[ℱ t] fun ω => (rows t ω).W) (hix : ∀ t j, MeasurableSet[ℱ (t + 1)] {ω | ix t ω = j})
    (hlaw : ∀ t j, ∀ᵐ ω ∂μ, (μ[Set.indicator {ω | ix t ω = j} (fun _ => (1 : ℝ)) | ℱ t]) ω = prob ((rows t ω).S, (rows t ω).A) j)
    (hup : ∀ θ θT t ω, ∃ B, toTBatch id (fun a : Fin n => oneHot n a) [rows t ω] = .ok B ∧ updateRule (tabular type1 θ) (tabular type1 θT) B = .ok [Y θ θT ((rows t ω).S, (rows t ω).A) (ix t ω)])
    (hl : Rates μ rows lr tau) (hK : K = 0 ∨ (∀ t, 0 < tau t) ∧ Tendsto (fun t => lr t / tau t) atTop (𝓝 0)) {best : σ → Fin n → ℝ} (hT : Attracts T (fun p => best p.1 p.2) gamma) (θ0 θT0 : σ → Fin n → ℝ) :
    ∃ θ θT : ℕ → Ω → σ → Fin n → ℝ, (∀ k ω, learnS lr mse1 updateRule type1 0 (θ0, θT0) ((List.range k).map fun t => ([rows t ω], tau t)) = .ok (θ k ω, θT k ω)) ∧
      ∀ᵐ ω ∂μ, ∀ s a, Tendsto (fun k => θ k ω s a) atTop (𝓝 (best s a)) ∧ Tendsto (fun k => θT k ω s a) atTop (𝓝 (best s a)) := by
  let b : ℕ → σ × Fin n → Ω → ℝ := fun t p ω => lr t * if (rows t ω).S = p.1 ∧ (rows t ω).A = p.2 then min (max (rows t ω).W 0.1) 10 else 0
  have step : ∀ θT θ t ω, sgdUpdate (lr t) mse1 updateRule type1 θT θ [rows t ω] = .ok fun s a => θ s a + b t (s, a) ω * (Y θ θT (s, a) (ix t ω) - θ s a) := by
    intro θT θ t ω
    obtain ⟨B, hB, ht⟩ := hup θ θT t ω
    rw [sgdUpdate_eq mse1_meanOf gentle_mse hn (List.cons_ne_nil _ _) hB (T := fun s a => Y θ θT (s, a) (ix t ω)) ht (lr t)]
    congr 1
    funext s a
    rw [share_one]
    simp only [b, mul_one]
  let next : ℕ → Ω → (σ → Fin n → ℝ) × (σ → Fin n → ℝ) → (σ → Fin n → ℝ) × (σ → Fin n → ℝ) := fun t ω x =>
    let θ' : σ → Fin n → ℝ := fun s a => x.1 s a + b t (s, a) ω * (Y x.1 x.2 (s, a) (ix t ω) - x.1 s a)
    (θ', softTable (tau t) x.2 θ')
  let run : ℕ → Ω → (σ → Fin n → ℝ) × (σ → Fin n → ℝ) := fun k ω => Nat.rec (θ0, θT0) (fun t x => next t ω x) k
  have hrun : ∀ k ω, learnS lr mse1 updateRule type1 0 (θ0, θT0) ((List.range k).map fun t => ([rows t ω], tau t)) = .ok (run k ω) := by
    intro k ω
    induction k with
    | zero => rfl
    | succ k ih =>
      rw [List.range_succ, List.map_append, learnS_append ih]
      show learnS lr mse1 updateRule type1 _ ((run k ω).1, (run k ω).2) [([rows k ω], tau k)] = _
      rw [learnS]
      simp only [List.length_map, List.length_range, Nat.zero_add]
      rw [step]
      rfl
  refine ⟨fun k ω => (run k ω).1, fun k ω => (run k ω).2, hrun, ?_⟩
  let f : ℕ → Ω → σ × Fin n → ℝ := fun t ω p => (run t ω).1 p.1 p.2
  let g : ℕ → Ω → σ × Fin n → ℝ := fun t ω p => (run t ω).2 p.1 p.2
  let Yt : ℕ → Ω → σ × Fin n → J → ℝ := fun t ω => Y (run t ω).1 (run t ω).2
  have hfstep : ∀ t ω p, f (t + 1) ω p = f t ω p + b t p ω * (Yt t ω p (ix t ω) - f t ω p) := fun t ω p => rfl
  have hgstep : ∀ t ω p, g (t + 1) ω p = (1 - tau t) * g t ω p + tau t * f (t + 1) ω p := fun t ω p => rfl
  have hb0 : ∀ t p ω, 0 ≤ b t p ω := by
    intro t p ω
    refine mul_nonneg (hl.nonneg t) ?_
    split
    · exact le_min ((by norm_num : (0 : ℝ) ≤ 0.1).trans (le_max_right _ _)) (by norm_num)
    · exact le_rfl
  have hb1 : ∀ t p ω, b t p ω ≤ 1 := by
    intro t p ω
    simp only [b]
    split
    · exact hl.le t ω
    · simp
  have hb10 : ∀ t p ω, b t p ω ≤ 10 * lr t := by
    intro t p ω
    simp only [b]
    rw [mul_comm 10]
    refine mul_le_mul_of_nonneg_left ?_ (hl.nonneg t)
    split
    · exact min_le_right _ _
    · norm_num
  -- bounds
  obtain ⟨C, hC⟩ := (Set.finite_range fun p : σ × Fin n => max |θ0 p.1 p.2| |θT0 p.1 p.2|).bddAbove
  have hC : ∀ p : σ × Fin n, max |θ0 p.1 p.2| |θT0 p.1 p.2| ≤ C := fun p => hC ⟨p, rfl⟩
  let M : ℝ := max (max C 0) (R / (1 - gamma))
  have hM0 : 0 ≤ M := (le_max_right C 0).trans (le_max_left _ _)
  have hMC : C ≤ M := (le_max_left C 0).trans (le_max_left _ _)
  have hMK : R + gamma * M ≤ M := by
    have h2 : R / (1 - gamma) ≤ M := le_max_right _ _
    rw [div_le_iff₀ (by linarith)] at h2
    linarith
  have hbound : ∀ t ω, (∀ p, |f t ω p| ≤ M) ∧ ∀ p, |g t ω p| ≤ M := by
    intro t ω
    induction t with
    | zero => exact ⟨fun p => ((le_max_left _ _).trans (hC p)).trans hMC, fun p => ((le_max_right _ _).trans (hC p)).trans hMC⟩
    | succ t ih =>
      have hf : ∀ p, |f (t + 1) ω p| ≤ M := by
        intro p
        have e1 : f (t + 1) ω p = (1 - b t p ω) * f t ω p + b t p ω * Yt t ω p (ix t ω) := by rw [hfstep]; ring
        have hy : |Yt t ω p (ix t ω)| ≤ M := (hY.bounded _ _ M (fun s a => ih.1 (s, a)) (fun s a => ih.2 (s, a)) p _).trans hMK
        rw [e1]
        simpa using (abs_mix (z := 0) (A := M) (B := M) (hb0 t p ω) (hb1 t p ω) (by simpa using ih.1 p) (by simpa using hy)).trans (le_of_eq (by ring : _ = M))
      refine ⟨hf, fun p => ?_⟩
      rw [hgstep]
      simpa using (abs_mix (z := 0) (A := M) (B := M) (hl.tau_nonneg t) (hl.tau_le t) (by simpa using ih.2 p) (by simpa using hf p)).trans (le_of_eq (by ring : _ = M))
  -- measurability
  have hbm : ∀ t p, Measurable[ℱ t] (b t p) := by
    intro t p
    refine Measurable.const_mul (Measurable.ite (hat t p.1 p.2) ?_ measurable_const) _
    exact ((hw t).max measurable_const).min measurable_const
  have hYm : ∀ t, (∀ p, Measurable[ℱ t] fun ω => f t ω p) → (∀ p, Measurable[ℱ t] fun ω => g t ω p) → ∀ p j, Measurable[ℱ t] fun ω => Yt t ω p j := by
    intro t hf hg p j
    have h2 : Measurable[ℱ t] fun ω => (run t ω).1 := @measurable_pi_lambda _ _ _ (ℱ t) _ _ fun s => @measurable_pi_lambda _ _ _ (ℱ t) _ _ fun a => hf (s, a)
    have h3 : Measurable[ℱ t] fun ω => (run t ω).2 := @measurable_pi_lambda _ _ _ (ℱ t) _ _ fun s => @measurable_pi_lambda _ _ _ (ℱ t) _ _ fun a => hg (s, a)
    exact (hY.measurable p j).comp (h2.prodMk h3)
  have hmeas : ∀ t, (∀ p, Measurable[ℱ t] fun ω => f t ω p) ∧ ∀ p, Measurable[ℱ t] fun ω => g t ω p := by
    intro t
    induction t with
    | zero => exact ⟨fun p => measurable_const, fun p => measurable_const⟩
    | succ t ih =>
      have up : ∀ {F : Ω → ℝ}, Measurable[ℱ t] F → Measurable[ℱ (t + 1)] F := fun h => h.mono (ℱ.mono (by omega)) le_rfl
      have hf : ∀ p, Measurable[ℱ (t + 1)] fun ω => f (t + 1) ω p := fun p => by
        simp only [hfstep]
        exact (up (ih.1 p)).add ((up (hbm t p)).mul ((target_known (F := fun j ω => Yt t ω p j) (ℱ.mono (by omega)) (fun j => hYm t ih.1 ih.2 p j) (hix t)).sub (up (ih.1 p))))
      refine ⟨hf, fun p => ?_⟩
      simp only [hgstep]
      exact ((up (ih.2 p)).const_mul _).add ((hf p).const_mul _)
  have hP : Process μ ℱ prob f g b Yt ix tau (fun t => 10 * lr t) M := {
    prob_nonneg := hY.nonneg
    prob_total := hY.total
    move := hfstep
    sync := hgstep
    b_nonneg := hb0
    b_le := hb1
    b_small := hb10
    squares := by
      have : (fun t => (10 * lr t) ^ 2) = fun t => 10 ^ 2 * lr t ^ 2 := by funext t; ring
      rw [this]
      exact hl.squares.mul_left _
    b_known := hbm
    y_known := fun t p j => hYm t (hmeas t).1 (hmeas t).2 p j
    y_le := fun t ω p j => (hY.bounded _ _ M (fun s a => (hbound t ω).1 (s, a)) (fun s a => (hbound t ω).2 (s, a)) p j).trans hMK
    out_known := hix
    law := by
      intro t p j
      filter_upwards [hlaw t j] with ω h2 hne
      have : (rows t ω).S = p.1 ∧ (rows t ω).A = p.2 := by
        by_contra hc
        exact hne (by simp [b, hc])
      rw [h2, this.1, this.2]
    visits := by
      intro p
      filter_upwards [hl.visits p.1 p.2] with ω hv hsm
      refine hv (Summable.of_nonneg_of_le (fun t => ?_) (fun t => ?_) (hsm.mul_left 10))
      · split
        · exact hl.nonneg t
        · exact le_rfl
      · simp only [b]
        split
        · have h2 : (0.1 : ℝ) ≤ min (max (rows t ω).W 0.1) 10 := le_min (le_max_right _ _) (by norm_num)
          have := mul_le_mul_of_nonneg_left h2 (hl.nonneg t)
          linarith
        · simp
    tau_nonneg := hl.tau_nonneg
    tau_le := hl.tau_le
    syncs := hl.syncs }
  obtain ⟨S, hS⟩ := (Set.finite_range fun p : σ × Fin n => |best p.1 p.2|).bddAbove
  have hS : ∀ p : σ × Fin n, |best p.1 p.2| ≤ S := fun p => hS ⟨p, rfl⟩
  have hr : ∀ ω p, Tendsto (fun t => ∑ j, prob p j * Yt t ω p j - T (g t ω) p) atTop (𝓝 0) := by
    intro ω p
    rcases hK with rfl | ⟨hpos, hq⟩
    · have : (fun t => ∑ j, prob p j * Yt t ω p j - T (g t ω) p) = fun _ => 0 := by
        funext t
        have h2 := hY.close (run t ω).1 (run t ω).2 (M + M) (fun s a => (abs_sub _ _).trans (add_le_add ((hbound t ω).2 (s, a)) ((hbound t ω).1 (s, a)))) p
        rw [zero_mul] at h2
        exact abs_nonpos_iff.1 h2
      rw [this]
      exact tendsto_const_nhds
    · have hc : ∀ p, Tendsto (fun t => g t ω p - f t ω p) atTop (𝓝 0) := hP.catches (fun t ω p => (hbound t ω).1 p) hpos (by
        have := hq.const_mul 10
        simpa [mul_div_assoc] using this) ω
      have hsup : Tendsto (fun t => K * ∑ p, |g t ω p - f t ω p|) atTop (𝓝 0) := by
        have h2 : Tendsto (fun t => ∑ p, |g t ω p - f t ω p|) atTop (𝓝 (∑ _p : σ × Fin n, (0 : ℝ))) := tendsto_finset_sum _ fun p _ => by simpa using (hc p).abs
        simpa using h2.const_mul K
      refine squeeze_zero_norm (fun t => ?_) hsup
      rw [Real.norm_eq_abs]
      exact hY.close (run t ω).1 (run t ω).2 _ (fun s a => Finset.single_le_sum (f := fun p => |g t ω p - f t ω p|) (fun p _ => abs_nonneg _) (Finset.mem_univ (s, a))) p
  have := hP.converges hT h0 h1 hM0 (M := M + S) (fun t ω p => ⟨(abs_sub _ _).trans (add_le_add ((hbound t ω).1 p) (hS p)), (abs_sub _ _).trans (add_le_add ((hbound t ω).2 p) (hS p))⟩) (Eventually.of_forall hr)
  filter_upwards [this] with ω h2 s a
  exact h2 (s, a)

end Coax.Loop
