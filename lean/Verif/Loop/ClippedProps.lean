import Verif.Loop.ClippedLemmas

/-! Property C133: two tables that are learned with `ClippedDoubleQLearning`, one of which is updated in each step, converge almost surely to the optimal values. -/

namespace Coax.Loop

open Coax.RewardTracing Coax.TD Coax.Core Coax.Values Coax.Pol Filter Topology MeasureTheory

variable {σ Ω : Type _} {n m : Nat} {m0 : MeasurableSpace Ω}

/-- A fair coin that does not depend on the past or on what happens in the environment. -/
structure Tossed (e : Mdp σ n m) (μ : Measure Ω) (ℱ : Filtration ℕ m0) (rows : ℕ → Ω → Out σ (Fin n) ℝ) (out : ℕ → Ω → Fin m) (coin : ℕ → Ω → Bool) : Prop where
  known : ∀ t i, MeasurableSet[ℱ (t + 1)] {ω | coin t ω = i}
  law : ∀ t i j, μ[Set.indicator {ω | coin t ω = i ∧ out t ω = j} (fun _ => (1 : ℝ)) | ℱ t] =ᵐ[μ] fun ω => 1 / 2 * e.prob (rows t ω).S (rows t ω).A j

variable [DecidableEq σ]

theorem learnC_append {lr : ℕ → ℝ} {L : LossFn} {type1 : Bool} {k : Bool → ℕ} {θ θ' : (Bool → σ → Fin n → ℝ) × (Bool → σ → Fin n → ℝ)} {bs : List (Bool × List (Out σ (Fin n) ℝ) × ℝ)} (h : learnC lr L type1 k θ bs = .ok θ')
    (bs' : List (Bool × List (Out σ (Fin n) ℝ) × ℝ)) : learnC lr L type1 k θ (bs ++ bs') = learnC lr L type1 (fun i => k i + (bs.map fun b => if b.1 = i then 1 else 0).sum) θ' bs' := by
  induction bs generalizing θ k with
  | nil => cases h; rfl
  | cons x bs ih =>
    obtain ⟨θ, θT⟩ := θ
    obtain ⟨coin, rows, tau⟩ := x
    rw [List.cons_append, learnC]
    rw [learnC] at h
    split at h
    · cases h
    · rw [ih h]
      congr 1
      funext i
      rw [List.map_cons, List.sum_cons]
      simp only [eq_comm (a := coin)]
      split <;> ring

theorem learnC_converges [Fintype σ] {μ : Measure Ω} [IsProbabilityMeasure μ] {ℱ : Filtration ℕ m0} (hn : 0 < n) {e : Mdp σ n m} (he : e.Proper) {gamma : ℝ} (h0 : 0 ≤ gamma) (h1 : gamma < 1) {lr tau : ℕ → ℝ} {rows : ℕ → Ω → Out σ (Fin n) ℝ} {out : ℕ → Ω → Fin m}
    {coin : ℕ → Ω → Bool} (hs : Samples e gamma μ ℱ rows out) (ht : Tossed e μ ℱ rows out coin) (hl : Rates μ rows lr tau) (hpos : ∀ k, 0 < lr k) (hanti : Antitone lr) (hsteady : Steady lr) (hle : ∀ t ω, lr 0 * min (max (rows t ω).W 0.1) 10 ≤ 1)
    {best : σ → Fin n → ℝ} (hbest : e.Solves gamma Greedy best) (type1 : Bool) (θ0 θT0 : Bool → σ → Fin n → ℝ) :
    ∃ θ θT : ℕ → Ω → Bool → σ → Fin n → ℝ, (∀ k ω, learnC lr mse1 type1 (fun _ => 0) (θ0, θT0) ((List.range k).map fun t => (coin t ω, [rows t ω], tau t)) = .ok (θ k ω, θT k ω)) ∧
      ∀ᵐ ω ∂μ, ∀ i s a, Tendsto (fun k => θ k ω i s a) atTop (𝓝 (best s a)) ∧ Tendsto (fun k => θT k ω i s a) atTop (𝓝 (best s a)) := by
  have hr := rule_qLearning (σ := σ) hn false
  choose val hval using hr.value
  obtain ⟨R, hR⟩ := reward_bound e
  have hmax : ∀ (θT : σ → Fin n → ℝ) s, tieMean n (ext θT s) (ext θT s) = val s (θT s) := fun θT s => hr.unique (isMaxOf_greatest (tieMean_isMax hn _)) (hval _ _)
  let v : ℕ → σ × Fin n → Ω → ℝ := fun t p ω => if (rows t ω).S = p.1 ∧ (rows t ω).A = p.2 then min (max (rows t ω).W 0.1) 10 else 0
  have step : ∀ x (θT : Bool → σ → Fin n → ℝ) θ t ω, sgdUpdate x mse1 (fun q _ => clippedRule type1 θT q) type1 (θT true) θ [rows t ω] = .ok fun s a => θ s a + x * v t (s, a) ω * (e.clippedGoal gamma θT (s, a) (out t ω) - θ s a) := by
    intro x θT θ t ω
    obtain ⟨B, hB, hg⟩ := clipped_row hn type1 (hs.rn t ω) (hs.ended t ω) (hs.goes t ω) (hs.s_next t ω) (hs.a_next t ω) θ θT
    rw [sgdUpdate_eq mse1_meanOf gentle_mse hn (List.cons_ne_nil _ _) hB (T := fun s a => e.clippedGoal gamma θT (s, a) (out t ω)) hg x]
    congr 1
    funext s a
    rw [share_one]
    simp only [v, mul_one]
  let St := (Bool → σ → Fin n → ℝ) × (Bool → σ → Fin n → ℝ)
  let next : ℕ → Ω → St → St := fun t ω x =>
    let θ' : Bool → σ → Fin n → ℝ := fun i => if i = coin t ω then fun s a => x.1 (coin t ω) s a + lr (chosen coin (coin t ω) t ω) * v t (s, a) ω * (e.clippedGoal gamma x.2 (s, a) (out t ω) - x.1 (coin t ω) s a) else x.1 i
    (θ', fun i => softTable (tau t) (x.2 i) (θ' i))
  let run : ℕ → Ω → St := fun k ω => Nat.rec (θ0, θT0) (fun t x => next t ω x) k
  have hrun : ∀ k ω, learnC lr mse1 type1 (fun _ => 0) (θ0, θT0) ((List.range k).map fun t => (coin t ω, [rows t ω], tau t)) = .ok (run k ω) := by
    intro k ω
    induction k with
    | zero => rfl
    | succ k ih =>
      rw [List.range_succ, List.map_append, learnC_append ih]
      show learnC lr mse1 type1 _ ((run k ω).1, (run k ω).2) [(coin k ω, [rows k ω], tau k)] = _
      rw [learnC]
      have hc : (0 + (((List.range k).map fun t => (coin t ω, [rows t ω], tau t)).map fun b => if b.1 = coin k ω then 1 else 0).sum) = chosen coin (coin k ω) k ω := by
        rw [List.map_map, Nat.zero_add]
        rfl
      rw [hc, step]
      rfl
  refine ⟨fun k ω => (run k ω).1, fun k ω => (run k ω).2, hrun, ?_⟩
  let f : Bool → ℕ → Ω → σ × Fin n → ℝ := fun i t ω p => (run t ω).1 i p.1 p.2
  let g : Bool → ℕ → Ω → σ × Fin n → ℝ := fun i t ω p => (run t ω).2 i p.1 p.2
  let Y : ℕ → Ω → σ × Fin n → Fin m → ℝ := fun t ω => e.clippedGoal gamma (run t ω).2
  have hfstep : ∀ i t ω p, f i (t + 1) ω p = if coin t ω = i then f i t ω p + lr (chosen coin i t ω) * v t p ω * (Y t ω p (out t ω) - f i t ω p) else f i t ω p := by
    intro i t ω p
    show (if i = coin t ω then fun s a => (run t ω).1 (coin t ω) s a + lr (chosen coin (coin t ω) t ω) * v t (s, a) ω * (e.clippedGoal gamma (run t ω).2 (s, a) (out t ω) - (run t ω).1 (coin t ω) s a) else (run t ω).1 i) p.1 p.2 = _
    by_cases hc : i = coin t ω
    · rw [if_pos hc, if_pos hc.symm, hc]
    · rw [if_neg hc, if_neg (Ne.symm hc)]
  have hgstep : ∀ i t ω p, g i (t + 1) ω p = (1 - tau t) * g i t ω p + tau t * f i (t + 1) ω p := fun i t ω p => rfl
  have hv0 : ∀ t p ω, 0 ≤ v t p ω := by
    intro t p ω
    simp only [v]
    split
    · exact le_min ((by norm_num : (0 : ℝ) ≤ 0.1).trans (le_max_right _ _)) (by norm_num)
    · exact le_rfl
  have hv10 : ∀ t p ω, v t p ω ≤ 10 := by
    intro t p ω
    simp only [v]
    split
    · exact min_le_right _ _
    · norm_num
  have hrate : ∀ k t p ω, lr k * v t p ω ≤ 1 := by
    intro k t p ω
    refine (mul_le_mul_of_nonneg_right (hanti (Nat.zero_le k)) (hv0 t p ω)).trans ?_
    simp only [v]
    split
    · exact hle t ω
    · simp
  -- bounds
  obtain ⟨C, hC⟩ := (Set.finite_range fun x : Bool × σ × Fin n => max |θ0 x.1 x.2.1 x.2.2| |θT0 x.1 x.2.1 x.2.2|).bddAbove
  have hC : ∀ i (p : σ × Fin n), max |θ0 i p.1 p.2| |θT0 i p.1 p.2| ≤ C := fun i p => hC ⟨(i, p), rfl⟩
  let M : ℝ := max (max C 0) (R / (1 - gamma))
  have hM0 : 0 ≤ M := (le_max_right C 0).trans (le_max_left _ _)
  have hMC : C ≤ M := (le_max_left C 0).trans (le_max_left _ _)
  have hMK : R + gamma * M ≤ M := by
    have h2 : R / (1 - gamma) ≤ M := le_max_right _ _
    rw [div_le_iff₀ (by linarith)] at h2
    linarith
  have hYb : ∀ (θT : Bool → σ → Fin n → ℝ), (∀ i s a, |θT i s a| ≤ M) → ∀ p j, |e.clippedGoal gamma θT p j| ≤ M := by
    intro θT hT p j
    refine le_trans ?_ hMK
    unfold Mdp.clippedGoal
    refine (abs_add_le _ _).trans (add_le_add (hR _ _ _) ?_)
    split
    · simpa using mul_nonneg h0 hM0
    · rw [abs_mul, abs_of_nonneg h0]
      exact mul_le_mul_of_nonneg_left (clipped_bound hn (fun a ha => by rw [ext_lt _ _ ha]; exact hT _ _ _) (fun a ha => by rw [ext_lt _ _ ha]; exact hT _ _ _)) h0
  have hbound : ∀ t ω, (∀ i p, |f i t ω p| ≤ M) ∧ ∀ i p, |g i t ω p| ≤ M := by
    intro t ω
    induction t with
    | zero => exact ⟨fun i p => ((le_max_left _ _).trans (hC i p)).trans hMC, fun i p => ((le_max_right _ _).trans (hC i p)).trans hMC⟩
    | succ t ih =>
      have hf : ∀ i p, |f i (t + 1) ω p| ≤ M := by
        intro i p
        rw [hfstep]
        split
        · have e1 : f i t ω p + lr (chosen coin i t ω) * v t p ω * (Y t ω p (out t ω) - f i t ω p) = (1 - lr (chosen coin i t ω) * v t p ω) * f i t ω p + lr (chosen coin i t ω) * v t p ω * Y t ω p (out t ω) := by ring
          have hy : |Y t ω p (out t ω)| ≤ M := hYb _ (fun i s a => ih.2 i (s, a)) p _
          rw [e1]
          simpa using (abs_mix (z := 0) (A := M) (B := M) (mul_nonneg (hpos _).le (hv0 t p ω)) (hrate _ t p ω) (by simpa using ih.1 i p) (by simpa using hy)).trans (le_of_eq (by ring : _ = M))
        · exact ih.1 i p
      refine ⟨hf, fun i p => ?_⟩
      rw [hgstep]
      simpa using (abs_mix (z := 0) (A := M) (B := M) (hl.tau_nonneg t) (hl.tau_le t) (by simpa using ih.2 i p) (by simpa using hf i p)).trans (le_of_eq (by ring : _ = M))
  -- measurability
  have hvm : ∀ t p, Measurable[ℱ t] (v t p) := by
    intro t p
    exact Measurable.ite (hs.at_known t p.1 p.2) (((hs.w_known t).max measurable_const).min measurable_const) measurable_const
  have hYm : ∀ t, (∀ i p, Measurable[ℱ t] fun ω => g i t ω p) → ∀ p j, Measurable[ℱ t] fun ω => Y t ω p j := by
    intro t hg p j
    have h2 : ∀ i, Measurable[ℱ t] fun ω => (run t ω).2 i := fun i => @measurable_pi_lambda _ _ _ (ℱ t) _ _ fun s => @measurable_pi_lambda _ _ _ (ℱ t) _ _ fun a => hg i (s, a)
    simp only [Y]
    unfold Mdp.clippedGoal
    split
    · exact measurable_const
    · exact (((clipped_measurable (e.next p.1 p.2 j)).comp ((h2 true).prodMk (h2 false))).const_mul _).const_add _
  have hmeas : ∀ t, (∀ i p, Measurable[ℱ t] fun ω => f i t ω p) ∧ ∀ i p, Measurable[ℱ t] fun ω => g i t ω p := by
    intro t
    induction t with
    | zero => exact ⟨fun i p => measurable_const, fun i p => measurable_const⟩
    | succ t ih =>
      have up : ∀ {F : Ω → ℝ}, Measurable[ℱ t] F → Measurable[ℱ (t + 1)] F := fun h => h.mono (ℱ.mono (by omega)) le_rfl
      have hf : ∀ i p, Measurable[ℱ (t + 1)] fun ω => f i (t + 1) ω p := fun i p => by
        simp only [hfstep]
        refine Measurable.ite (ht.known t i) ?_ (up (ih.1 i p))
        exact (up (ih.1 i p)).add (((up ((measurable_from_nat (f := lr)).comp (chosen_known ht.known i t))).mul (up (hvm t p))).mul
          ((target_known (F := fun j ω => Y t ω p j) (ℱ.mono (by omega)) (fun j => hYm t ih.2 p j) (hs.out_known t)).sub (up (ih.1 i p))))
      refine ⟨hf, fun i p => ?_⟩
      simp only [hgstep]
      exact ((up (ih.2 i p)).const_mul _).add ((hf i p).const_mul _)
  have hD : Duel μ ℱ (fun p j => e.prob p.1 p.2 j) f g lr v Y coin out tau M := {
    prob_nonneg := fun p j => he.nonneg _ _ _
    prob_total := fun p => he.total _ _
    move := hfstep
    sync := hgstep
    v_nonneg := hv0
    v_le := hv10
    rate_le := hrate
    lr_pos := hpos
    lr_anti := hanti
    squares := hl.squares
    steady := hsteady
    v_known := hvm
    y_known := fun t p j => hYm t (hmeas t).2 p j
    f_known := fun i t p => (hmeas t).1 i p
    y_le := fun t ω p j => hYb _ (fun i s a => (hbound t ω).2 i (s, a)) p j
    f_le := fun i t ω p => (hbound t ω).1 i p
    coin_known := ht.known
    out_known := hs.out_known
    law := by
      intro t p i j
      have e1 : {ω | (coin t ω, out t ω) = (i, j)} = {ω | coin t ω = i ∧ out t ω = j} := by
        ext ω
        simp
      rw [e1]
      filter_upwards [ht.law t i j] with ω h2 hne
      have : (rows t ω).S = p.1 ∧ (rows t ω).A = p.2 := by
        by_contra hc
        exact hne (by simp [v, hc])
      rw [h2, this.1, this.2]
    fair := by
      intro t i
      have e1 : Set.indicator {ω | coin t ω = i} (fun _ => (1 : ℝ)) = ∑ j, Set.indicator {ω | coin t ω = i ∧ out t ω = j} (fun _ => (1 : ℝ)) := by
        classical
        funext ω
        simp only [Finset.sum_apply, Set.indicator_apply, Set.mem_ofPred_eq]
        by_cases hc : coin t ω = i <;> simp [hc]
      have hint : ∀ j, Integrable (Set.indicator {ω | coin t ω = i ∧ out t ω = j} fun _ => (1 : ℝ)) μ := fun j =>
        (integrable_const 1).indicator (ℱ.le _ _ ((ht.known t i).inter (hs.out_known t j)))
      rw [e1]
      filter_upwards [condExp_finsetSum (fun j _ => hint j) (ℱ t), ae_all_iff.2 fun j => ht.law t i j] with ω h2 h3
      rw [h2, Finset.sum_apply]
      simp only [h3, ← Finset.mul_sum, he.total, mul_one]
    visits := by
      intro p
      filter_upwards [hl.visits p.1 p.2] with ω hv hsm
      refine hv (Summable.of_nonneg_of_le (fun t => ?_) (fun t => ?_) (hsm.mul_left 10))
      · split
        · exact hl.nonneg t
        · exact le_rfl
      · simp only [v]
        split
        · have h2 : (0.1 : ℝ) ≤ min (max (rows t ω).W 0.1) 10 := le_min (le_max_right _ _) (by norm_num)
          have := mul_le_mul_of_nonneg_left h2 (hl.nonneg t)
          linarith
        · simp
    tau_nonneg := hl.tau_nonneg
    tau_le := hl.tau_le
    syncs := hl.syncs }
  obtain ⟨S, hS⟩ := (Set.finite_range fun p : σ × Fin n => |best p.1 p.2|).bddAbove
  have hS : ∀ p : σ × Fin n, |best p.1 p.2| ≤ S := fun p => hS ⟨p, rfl⟩
  have hT : Attracts (e.op gamma val) (fun p => best p.1 p.2) gamma := by
    intro q M' hM' p
    have h2 := congrFun ((mdp_solves_iff hr hval best).1 hbest) p
    show |_ - best p.1 p.2| ≤ _
    rw [show best p.1 p.2 = _ from h2.symm]
    exact mdp_op_close hr hval he h0 q _ M' hM' ((abs_nonneg _).trans (hM' p)) p
  have hres : ∀ ω, (∀ p, Tendsto (fun t => g true t ω p - g false t ω p) atTop (𝓝 0)) → ∀ i p, Tendsto (fun t => ∑ j, e.prob p.1 p.2 j * Y t ω p j - e.op gamma val (g i t ω) p) atTop (𝓝 0) := by
    intro ω hg i p
    have hsup : Tendsto (fun t => gamma * (2 * ∑ p, |g true t ω p - g false t ω p|)) atTop (𝓝 0) := by
      have h2 : Tendsto (fun t => ∑ p, |g true t ω p - g false t ω p|) atTop (𝓝 (∑ _p : σ × Fin n, (0 : ℝ))) := tendsto_finset_sum _ fun p _ => by simpa using (hg p).abs
      simpa using (h2.const_mul 2).const_mul gamma
    refine squeeze_zero_norm (fun t => ?_) hsup
    rw [Real.norm_eq_abs]
    have hD : ∀ s, ∀ a < n, |ext ((run t ω).2 true) s a - ext ((run t ω).2 false) s a| ≤ ∑ p, |g true t ω p - g false t ω p| := by
      intro s a ha
      rw [ext_lt _ _ ha, ext_lt _ _ ha]
      exact Finset.single_le_sum (f := fun p => |g true t ω p - g false t ω p|) (fun p _ => abs_nonneg _) (Finset.mem_univ (s, (⟨a, ha⟩ : Fin n)))
    have hD0 : 0 ≤ ∑ p, |g true t ω p - g false t ω p| := Finset.sum_nonneg fun _ _ => abs_nonneg _
    unfold Mdp.op
    rw [← Finset.sum_sub_distrib]
    have : ∀ j, |(Y t ω p j - e.goal gamma val (g i t ω) p j) - 0| ≤ gamma * (2 * ∑ p, |g true t ω p - g false t ω p|) := by
      intro j
      rw [sub_zero]
      simp only [Y]
      unfold Mdp.clippedGoal Mdp.goal
      split
      · simpa using mul_nonneg h0 (mul_nonneg zero_le_two hD0)
      · rw [show (val (e.next p.1 p.2 j) fun b => g i t ω (e.next p.1 p.2 j, b)) = _ from (hmax ((run t ω).2 i) _).symm, add_sub_add_left_eq_sub, ← mul_sub, abs_mul, abs_of_nonneg h0]
        refine mul_le_mul_of_nonneg_left ?_ h0
        have h3 := clipped_near hn (hD (e.next p.1 p.2 j))
        cases i
        · exact h3.2
        · exact h3.1
    have := mean_near he p.1 p.2 this
    rw [sub_zero] at this
    simpa only [mul_sub] using this
  have := hD.converges hT h0 h1 hM0 (M := M + S) (fun i t ω p => ⟨(abs_sub _ _).trans (add_le_add ((hbound t ω).1 i p) (hS p)), (abs_sub _ _).trans (add_le_add ((hbound t ω).2 i p) (hS p))⟩) hres
  filter_upwards [this] with ω h2 i s a
  exact h2 i (s, a)

/-- **C133**: two tables are learned with `ClippedDoubleQLearning`, a fair coin deciding in each step which of them is updated.  Their params and those of both target networks converge almost surely to the only solution of the Bellman optimality
equation: in the limit the minimum over the tables does not bias the values.  Each updater goes through the learning rates on its own; they decrease, satisfy the conditions of Robbins and Monro and hardly differ at times that hardly differ. -/
theorem C133_clipped_double_q_learning [Fintype σ] (hn : 0 < n) {e : Mdp σ n m} (he : e.Proper) {gamma : ℝ} (h0 : 0 ≤ gamma) (h1 : gamma < 1) :
    ∃ best, e.Solves gamma Greedy best ∧ (∀ q, e.Solves gamma Greedy q → q = best) ∧
      ∀ {Ω : Type} {m0 : MeasurableSpace Ω} {μ : Measure Ω} [IsProbabilityMeasure μ] {ℱ : Filtration ℕ m0} {lr tau : ℕ → ℝ} {rows : ℕ → Ω → Out σ (Fin n) ℝ} {out : ℕ → Ω → Fin m} {coin : ℕ → Ω → Bool}, Samples e gamma μ ℱ rows out →
        Tossed e μ ℱ rows out coin → Rates μ rows lr tau → (∀ k, 0 < lr k) → Antitone lr → Steady lr → (∀ t ω, lr 0 * min (max (rows t ω).W 0.1) 10 ≤ 1) → ∀ type1 θ0 θT0, ∃ θ θT : ℕ → Ω → Bool → σ → Fin n → ℝ,
          (∀ k ω, learnC lr mse1 type1 (fun _ => 0) (θ0, θT0) ((List.range k).map fun t => (coin t ω, [rows t ω], tau t)) = .ok (θ k ω, θT k ω)) ∧
          ∀ᵐ ω ∂μ, ∀ i s a, Tendsto (fun k => θ k ω i s a) atTop (𝓝 (best s a)) ∧ Tendsto (fun k => θT k ω i s a) atTop (𝓝 (best s a)) := by
  obtain ⟨best, hb, hu⟩ := mdp_solution (rule_qLearning (σ := σ) hn false) he h0 h1
  exact ⟨best, hb, hu, fun hs ht hl hpos hanti hst hle type1 θ0 θT0 => learnC_converges hn he h0 h1 hs ht hl hpos hanti hst hle hb type1 θ0 θT0⟩

/-! ### A case -/

omit [DecidableEq σ] in
/-- The learning rates `1 / (k + 1)` hardly differ at times that hardly differ. -/
theorem steady_harmonic : Steady fun k : ℕ => 1 / ((k : ℝ) + 1) := by
  intro u v hu hv huv
  have hu' : Tendsto (fun t => (u t : ℝ)) atTop atTop := tendsto_natCast_atTop_atTop.comp hu
  have hv' : Tendsto (fun t => (v t : ℝ)) atTop atTop := tendsto_natCast_atTop_atTop.comp hv
  have h1 : Tendsto (fun t => (u t : ℝ)⁻¹) atTop (𝓝 0) := tendsto_inv_atTop_zero.comp hu'
  have h2 : Tendsto (fun t => (v t : ℝ)⁻¹) atTop (𝓝 0) := tendsto_inv_atTop_zero.comp hv'
  have h3 : Tendsto (fun t => (1 + (v t : ℝ)⁻¹) / ((u t : ℝ) / v t * (1 + (u t : ℝ)⁻¹))) atTop (𝓝 ((1 + 0) / (1 * (1 + 0)))) :=
    (h2.const_add 1).div (huv.mul (h1.const_add 1)) (by norm_num)
  rw [show ((1 : ℝ) + 0) / (1 * (1 + 0)) = 1 by norm_num] at h3
  refine h3.congr' ?_
  filter_upwards [hu'.eventually_gt_atTop 0, hv'.eventually_gt_atTop 0] with t h4 h5
  field_simp

/-- All states and actions in turn; the outcome is that of a coin. -/
noncomputable def inTurn (t : ℕ) (ω : ℕ → Bool) : Out Bool (Fin 2) ℝ :=
  let s : Bool := t / 2 % 2 == 1
  let a : Fin 2 := if t % 2 = 1 then 1 else 0
  let j : Fin 2 := if ω (2 * t + 2) then 1 else 0
  ⟨s, a, 0, twoCoins.reward s a j, if twoCoins.ends s a j then 0 else 1 / 2, some (twoCoins.next s a j), some 0, none, 1, 0, none⟩

theorem inTurn_samples : Samples twoCoins (1 / 2) coins (sub2 flips 0) inTurn fun t ω => if ω (2 * t + 2) then 1 else 0 where
  at_known t s a := MeasurableSet.const ((t / 2 % 2 == 1) = s ∧ (if t % 2 = 1 then (1 : Fin 2) else 0) = a)
  w_known t := measurable_const
  out_known t j := fin2_known (by omega) j
  law t j := fin2_fair (by omega) j
  rn t ω := rfl
  ended t ω h := if_pos h
  goes t ω h := ⟨if_neg (by rw [Bool.not_eq_true]; exact h), rfl⟩
  s_next t ω := rfl
  a_next t ω := rfl

theorem inTurn_tossed : Tossed twoCoins coins (sub2 flips 0) inTurn (fun t ω => if ω (2 * t + 2) then 1 else 0) fun t ω => ω (2 * t + 1) where
  known t i := flips_known (by omega) i
  law t i j := by
    let E : Set (ℕ → Bool) := {ω | ω (2 * t + 1) = i}
    let D : Set (ℕ → Bool) := {ω | (if ω (2 * t + 2) then (1 : Fin 2) else 0) = j}
    have hE : MeasurableSet[flips (2 * t + 1)] E := flips_known le_rfl i
    have hD : MeasurableSet[flips (2 * t + 2)] D := fin2_known le_rfl j
    have hDi : Integrable (Set.indicator D fun _ => (1 : ℝ)) coins := (integrable_const 1).indicator (flips.le _ _ hD)
    have e1 : Set.indicator {ω : ℕ → Bool | ω (2 * t + 1) = i ∧ (if ω (2 * t + 2) then (1 : Fin 2) else 0) = j} (fun _ => (1 : ℝ)) = E.indicator (D.indicator fun _ => 1) := by
      rw [Set.indicator_indicator]
      rfl
    have h1 := condExp_indicator (m := flips (2 * t + 1)) hDi hE
    have h2 : coins[E.indicator (D.indicator fun _ => (1 : ℝ)) | flips (2 * t + 1)] =ᵐ[coins] fun ω => 1 / 2 * E.indicator (fun _ => (1 : ℝ)) ω := by
      filter_upwards [h1, fin2_fair (i := 2 * t + 1) (j := 2 * t + 2) (by omega) j] with ω h3 h4
      rw [h3]
      by_cases hω : ω ∈ E
      · rw [Set.indicator_of_mem hω, Set.indicator_of_mem hω, mul_one]
        exact h4
      · rw [Set.indicator_of_notMem hω, Set.indicator_of_notMem hω, mul_zero]
    rw [e1]
    have h3 := condExp_condExp_of_le (μ := coins) (f := E.indicator (D.indicator fun _ => (1 : ℝ))) (flips.mono (by omega : 2 * t ≤ 2 * t + 1)) (flips.le (2 * t + 1))
    have h4 := condExp_congr_ae (m := flips (2 * t)) h2
    have h5 := condExp_smul (μ := coins) (1 / 2 : ℝ) (E.indicator fun _ => (1 : ℝ)) (flips (2 * t))
    show coins[_ | flips (2 * t)] =ᵐ[coins] _
    filter_upwards [h3, h4, h5, flips_fair (i := 2 * t) (j := 2 * t + 1) (by omega) i] with ω h6 h7 h8 h9
    rw [← h6, h7, show (fun ω => 1 / 2 * E.indicator (fun _ => (1 : ℝ)) ω) = (1 / 2 : ℝ) • E.indicator fun _ => (1 : ℝ) from rfl, h8, Pi.smul_apply, h9]
    simp [twoCoins]

theorem inTurn_rates : Rates coins inTurn (fun k => 1 / ((k : ℝ) + 1)) fun _ => 1 / 10 where
  nonneg t := by positivity
  le t ω := by
    have h2 : (1 : ℝ) / ((t : ℝ) + 1) ≤ 1 := by
      rw [div_le_one (by positivity)]
      linarith [(Nat.cast_nonneg t : (0 : ℝ) ≤ t)]
    have h3 : min (max (inTurn t ω).W 0.1) 10 = (1 : ℝ) := by
      show min (max (1 : ℝ) 0.1) 10 = 1
      norm_num
    rw [h3, mul_one]
    exact h2
  squares := by
    have := (summable_nat_add_iff 1).2 (Real.summable_one_div_nat_pow.2 (by norm_num : 1 < 2))
    refine this.congr fun t => ?_
    push_cast
    rw [div_pow, one_pow]
  visits s a := by
    refine Eventually.of_forall fun ω hsum => ?_
    let r : ℕ := (if s then 2 else 0) + a
    have hr : ∀ k : ℕ, (inTurn (4 * k + r) ω).S = s ∧ (inTurn (4 * k + r) ω).A = a := by
      intro k
      show ((4 * k + r) / 2 % 2 == 1) = s ∧ (if (4 * k + r) % 2 = 1 then (1 : Fin 2) else 0) = a
      have h4 : (4 * k + r) / 2 = 2 * k + r / 2 := by omega
      have h5 : (4 * k + r) % 2 = r % 2 := by omega
      have h6 : (2 * k + r / 2) % 2 = r / 2 % 2 := by omega
      rw [h4, h5, h6]
      simp only [r]
      cases s <;> fin_cases a <;> simp
    have h2 := hsum.comp_injective (i := fun k => 4 * k + r) fun x y hxy => by
      have : 4 * x + r = 4 * y + r := hxy
      omega
    refine Real.not_summable_one_div_natCast ((summable_nat_add_iff 1).1 (Summable.of_nonneg_of_le (fun k => by positivity) (fun k => ?_) (h2.mul_left 4)))
    simp only [Function.comp_apply]
    rw [if_pos (hr k)]
    have hr3 : r ≤ 3 := by
      simp only [r]
      have := a.2
      split <;> omega
    have hr3 : (r : ℝ) ≤ 3 := by exact_mod_cast hr3
    push_cast
    rw [mul_one_div, div_le_div_iff₀ (by positivity) (by positivity)]
    linarith
  tau_nonneg _ := by norm_num
  tau_le _ := by norm_num
  syncs h := by
    have := h.tendsto_atTop_zero
    rw [tendsto_const_nhds_iff] at this
    norm_num at this

/-- The hypotheses of C133 are met: both tables learn the values 1/4, 1/2, 1/4 and 1 in the limit, almost surely. -/
example (θ0 θT0 : Bool → Bool → Fin 2 → ℝ) : ∃ θ θT : ℕ → (ℕ → Bool) → Bool → Bool → Fin 2 → ℝ,
    (∀ k ω, learnC (fun k => 1 / ((k : ℝ) + 1)) mse1 true (fun _ => 0) (θ0, θT0) ((List.range k).map fun t => (ω (2 * t + 1), [inTurn t ω], 1 / 10)) = .ok (θ k ω, θT k ω)) ∧
    ∀ᵐ ω ∂coins, ∀ i, Tendsto (fun k => θ k ω i false 0) atTop (𝓝 (1 / 4)) ∧ Tendsto (fun k => θ k ω i false 1) atTop (𝓝 (1 / 2)) ∧ Tendsto (fun k => θT k ω i true 1) atTop (𝓝 1) := by
  have hp : twoCoins.Proper := ⟨fun _ _ _ => by norm_num [twoCoins], fun _ _ => by norm_num [twoCoins]⟩
  obtain ⟨best, -, hu, hc⟩ := C133_clipped_double_q_learning (by norm_num) hp (gamma := 1 / 2) (by norm_num) (by norm_num)
  have hb := hu _ coins_solves
  obtain ⟨θ, θT, h, h'⟩ := hc inTurn_samples inTurn_tossed inTurn_rates (fun k => by positivity) (fun x y h => by
    have : (x : ℝ) ≤ y := by exact_mod_cast h
    exact one_div_le_one_div_of_le (by positivity) (by linarith)) steady_harmonic (fun t ω => by
    show 1 / (((0 : ℕ) : ℝ) + 1) * min (max (1 : ℝ) 0.1) 10 ≤ 1
    norm_num) true θ0 θT0
  rw [← hb] at h'
  exact ⟨θ, θT, h, h'.mono fun ω h' i => ⟨by simpa [twoBest] using (h' i false 0).1, by simpa [twoBest] using (h' i false 1).1, by simpa [twoBest] using (h' i true 1).2⟩⟩

end Coax.Loop
