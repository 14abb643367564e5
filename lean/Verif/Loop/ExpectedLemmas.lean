import Verif.Loop.Expected
import Verif.Loop.SarsaLemmas

/-! The closed loop with `ExpectedSarsa`: the values are moved towards those of the target policy on the values themselves, with noise that has a convergent sum. -/

namespace Coax.Loop

open Coax.RewardTracing Coax.TD Coax.Core Coax.Values Coax.Pol Coax.Dists Filter Topology MeasureTheory

variable {σ Ω U V : Type _} {n m : Nat} {m0 : MeasurableSpace Ω}

/-! ### Ending up below a bound -/

theorem averaging_under {x a h : ℕ → ℝ} {B C eps : ℝ} (ha0 : ∀ t, 0 ≤ a t) (ha1 : ∀ t, a t ≤ 1) (hs : ¬ Summable a) (hx : ∀ t, x (t + 1) = (1 - a t) * x t + a t * h t) (hC : ∀ t, -C ≤ h t) (hB : ∀ᶠ t in atTop, h t ≤ B) (he : 0 < eps) :
    ∀ᶠ t in atTop, x t ≤ B + eps := by
  have h1 := averaging (x := fun t => x t + (C + |B|)) (h := fun t => h t + (C + |B|)) (B := B + (C + |B|)) ha0 ha1 hs (fun t => by rw [hx]; ring) (hB.mono fun t ht => by
    rw [abs_le]
    have := neg_abs_le B
    constructor <;> linarith [hC t, abs_nonneg B]) he
  filter_upwards [h1] with t ht
  linarith [(abs_le.1 ht).2]

/-- Numbers that are moved, with noise, towards numbers that are at most `gamma` times as far above `fs`, plus `κ`, are in the end at most `κ / (1 - gamma)` above `fs`, up to any margin. -/
theorem settles_below {X : Type _} [Finite X] {f b d m : ℕ → X → ℝ} {fs : X → ℝ} {gamma κ M C : ℝ} (hb0 : ∀ t p, 0 ≤ b t p) (hb1 : ∀ t p, b t p ≤ 1) (hb : ∀ p, ¬ Summable fun t => b t p)
    (hmove : ∀ t p, f (t + 1) p = (1 - b t p) * f t p + b t p * m t p + d t p) (hd : ∀ p, ∃ S, Tendsto (fun t => ∑ k ∈ Finset.range t, d k p) atTop (𝓝 S)) (h0 : 0 ≤ gamma) (h1 : gamma < 1) (hκ : 0 ≤ κ) (hM : ∀ t p, f t p - fs p ≤ M)
    (hC : ∀ t p, -C ≤ m t p - fs p) (hm : ∀ t D, 0 ≤ D → (∀ p, f t p - fs p ≤ D) → ∀ p, m t p - fs p ≤ gamma * D + κ) {δ : ℝ} (hδ : 0 < δ) :
    ∀ᶠ t in atTop, ∀ p, f t p - fs p ≤ κ / (1 - gamma) + δ := by
  have g1 : 0 < 1 - gamma := by linarith
  set c := κ / (1 - gamma) with hc
  have hc0 : 0 ≤ c := by positivity
  have hce : gamma * c + κ = c := by
    have : c * (1 - gamma) = κ := div_mul_cancel₀ _ g1.ne'
    linarith
  have := Fintype.ofFinite X
  have shrink : ∀ D eps, 0 ≤ D → 0 < eps → (∀ᶠ t in atTop, ∀ p, f t p - fs p ≤ D) → ∀ᶠ t in atTop, ∀ p, f t p - fs p ≤ gamma * D + κ + eps := by
    intro D eps hD he hfD
    refine eventually_all.2 fun p => ?_
    obtain ⟨S, hS⟩ := hd p
    have hN := residue_noise hb0 hb1 (hb p) hS
    have hy := averaging_under (x := fun t => f t p - fs p - residue b d p t) (h := fun t => m t p - fs p) (B := gamma * D + κ) (C := C) (eps := eps / 2) (fun t => hb0 t p) (fun t => hb1 t p) (hb p) (fun t => by
      rw [hmove, show residue b d p (t + 1) = (1 - b t p) * residue b d p t + d t p from rfl]
      ring) (fun t => hC t p) (hfD.mono fun t ht => hm t D hD ht p) (by linarith)
    filter_upwards [hy, Metric.tendsto_nhds.1 hN (eps / 2) (by linarith)] with t h2 h3
    rw [Real.dist_eq, sub_zero] at h3
    linarith [(abs_lt.1 h3).2]
  have geo : ∀ k : ℕ, ∀ᶠ t in atTop, ∀ p, f t p - fs p ≤ c + (max M 1) * ((1 + gamma) / 2) ^ k := by
    intro k
    induction k with
    | zero =>
      refine Eventually.of_forall fun t p => ?_
      rw [pow_zero, mul_one]
      linarith [hM t p, le_max_left M 1]
    | succ k ih =>
      have hpos : 0 < max M 1 * ((1 + gamma) / 2) ^ k := mul_pos (lt_of_lt_of_le one_pos (le_max_right _ _)) (pow_pos (by linarith) _)
      have := shrink _ ((1 - gamma) / 2 * (max M 1 * ((1 + gamma) / 2) ^ k)) (by linarith) (mul_pos (by linarith) hpos) ih
      have e : gamma * (c + max M 1 * ((1 + gamma) / 2) ^ k) + κ + (1 - gamma) / 2 * (max M 1 * ((1 + gamma) / 2) ^ k) = c + max M 1 * ((1 + gamma) / 2) ^ (k + 1) := by
        rw [pow_succ]
        linear_combination hce
      rwa [e] at this
  have hz : Tendsto (fun k : ℕ => (max M 1) * ((1 + gamma) / 2) ^ k) atTop (𝓝 0) := by
    simpa using (tendsto_pow_atTop_nhds_zero_of_lt_one (by linarith : 0 ≤ (1 + gamma) / 2) (by linarith)).const_mul (max M 1)
  obtain ⟨k, hk⟩ := (hz.eventually (gt_mem_nhds hδ)).exists
  filter_upwards [geo k] with t h2 p
  linarith [h2 p]

/-- The Boltzmann policy loses at most the temperature times the logarithm of the number of actions. -/
theorem boltzmann_gap (hn : 0 < n) {τ : ℝ} (hτ : 0 < τ) (row : Fin n → ℝ) (a : Fin n) : row a - τ * Real.log n ≤ ∑ b, meanRow (boltzmannLogits τ row) b * row b := by
  classical
  have h1 := softValue_max hn hτ row
  have h2 := (h1.2 (fun b => if b = a then 1 else 0) ⟨fun b => by positivity, by simp⟩).1
  rw [← h1.1] at h2
  unfold softValue at h2
  have h3 := (C49_entropy_bounds hn (boltzmannLogits τ row)).2.1
  have h4 : entropyRow (boltzmannLogits τ row) = ∑ b, -(meanRow (boltzmannLogits τ row) b * Real.log (meanRow (boltzmannLogits τ row) b)) := by
    simp only [entropyRow, meanRow, ← logSoftmax_eq, exp_logSoftmax, mul_neg]
  rw [← h4] at h2
  have h5 := mul_le_mul_of_nonneg_left h3 hτ.le
  have h6 : ∑ b, (if b = a then (1 : ℝ) else 0) * row b + τ * ∑ b, -((if b = a then (1 : ℝ) else 0) * Real.log (if b = a then 1 else 0)) = row a := by
    simp [Finset.sum_ite_eq']
  rw [h6] at h2
  linarith

/-! ### The update -/

/-- The mean of the values of a row under the policy that uses this row. -/
noncomputable def ownMean (logits : (Fin n → ℝ) → Fin n → ℝ) (row : Fin n → ℝ) : ℝ := ∑ a, meanRow (logits row) a * row a

theorem expectedSarsaOf_eq (hn : 0 < n) (logits : (Fin n → ℝ) → Fin n → ℝ) (type1 : Bool) (θQ θT : σ → Fin n → ℝ) (b : TBatch σ (List ℝ)) :
    expectedSarsaOf n logits (tabular type1 θQ) (tabular type1 θT) b = expectedSarsa n (fun S => S.map fun s => (List.finRange n).map (logits (θT s))) (tabular type1 θQ) (tabular type1 θT) b := by
  have h := (C55_agree hn (table_computes type1 θT) b.S_next).1
  unfold expectedSarsaOf
  rw [show functionType2 n ((tabular type1 θT).forward (tabular type1 θT).params) b.S_next = _ from h]
  simp only
  rw [if_neg (by simp)]
  unfold expectedSarsa
  congr 1
  simp only [List.map_map]
  have : (List.map (TD.softmax ∘ (fun row : List ℝ => (List.finRange n).map (logits fun a => row.getD a 0)) ∘ fun s => (List.range n).map (ext θT s)) b.S_next) = List.map (TD.softmax ∘ fun s => (List.finRange n).map (logits (θT s))) b.S_next := by
    refine List.map_congr_left fun s _ => ?_
    simp only [Function.comp]
    congr 3
    funext a
    simp [List.getD, ext]
  rw [this]

variable [DecidableEq σ]

/-- The values after an update of `ExpectedSarsa` with one transition. -/
noncomputable def expectedMove (lr gamma : ℝ) (val : (Fin n → ℝ) → ℝ) (θ : σ → Fin n → ℝ) (s : σ) (a : Fin n) (r : ℝ) (d : Bool) (s' : σ) : σ → Fin n → ℝ :=
  fun p b => θ p b + (if s = p ∧ a = b then lr else 0) * ((r + if d then 0 else gamma * val (θ s')) - θ p b)

theorem expected_update {logits : (Fin n → ℝ) → Fin n → ℝ} (hn : 0 < n) (type1 : Bool) (gamma lr : ℝ) (x y : Step σ (Fin n) ℝ) (d : Bool) (hw : x.w = 1) (θ : σ → Fin n → ℝ) :
    sgdUpdate lr mse1 (expectedSarsaOf n logits) type1 θ θ [rowOf gamma x y d] = .ok (expectedMove lr gamma (ownMean logits) θ x.s x.a x.r d y.s) := by
  obtain ⟨b, hb, ht⟩ := rule_rows (rule_expectedSarsa hn type1 fun s => logits (θ s)) (val := fun s row => ∑ a, meanRow (logits (θ s)) a * row a) (fun s row => rfl) (rows := [rowOf gamma x y d]) (by simp [rowOf]) θ θ
  rw [← expectedSarsaOf_eq hn] at ht
  rw [sgdUpdate_rows mse1_meanOf hn (by simp) hb ht lr]
  congr 1
  funext p c
  have hwt : weight (rowOf gamma x y d) = 1 := by
    simp only [weight, rowOf, hw]
    norm_num
  simp only [List.map_cons, List.map_nil, List.sum_cons, List.sum_nil, add_zero, List.length_singleton, Nat.cast_one, div_one, hwt, one_mul, expectedMove]
  have e1 : (rowOf gamma x y d).Rn + (rowOf gamma x y d).In * ((rowOf gamma x y d).S_next.elim 0 fun s => ∑ a, meanRow (logits (θ s)) a * θ s a) = x.r + if d then 0 else gamma * ownMean logits (θ y.s) := by
    cases d <;> simp [rowOf, ownMean]
  rw [e1]
  by_cases h : x.s = p ∧ x.a = c
  · rw [if_pos (show p = (rowOf gamma x y d).S ∧ c = (rowOf gamma x y d).A from ⟨h.1.symm, h.2.symm⟩), if_pos h]; ring
  · rw [if_neg (show ¬ (p = (rowOf gamma x y d).S ∧ c = (rowOf gamma x y d).A) from fun h' => h ⟨h'.1.symm, h'.2.symm⟩), if_neg h]; ring

omit [DecidableEq σ] m0 in
theorem ownMean_bound (hn : 0 < n) (logits : (Fin n → ℝ) → Fin n → ℝ) {row : Fin n → ℝ} {B : ℝ} (h : ∀ a, |row a| ≤ B) : |ownMean logits row| ≤ B := by
  unfold ownMean
  calc _ ≤ ∑ a, |meanRow (logits row) a * row a| := Finset.abs_sum_le_sum_abs _ _
    _ ≤ ∑ a, meanRow (logits row) a * B := Finset.sum_le_sum fun a _ => by
        rw [abs_mul, abs_of_nonneg ((C49_probabilities _).1 a).le]
        exact mul_le_mul_of_nonneg_left (h _) ((C49_probabilities _).1 a).le
    _ = B := by rw [← Finset.sum_mul, (C49_probabilities _).2 hn, one_mul]

theorem expectedMove_bound {gamma lr : ℝ} (h0 : 0 ≤ gamma) (l0 : 0 ≤ lr) (l1 : lr ≤ 1) {val : (Fin n → ℝ) → ℝ} {θ : σ → Fin n → ℝ} {s : σ} {a : Fin n} {r : ℝ} (d : Bool) (s' : σ) {R B : ℝ} (hR : |r| ≤ R) (hB : R + gamma * B ≤ B) (hθ : ∀ s a, |θ s a| ≤ B)
    (hv : |val (θ s')| ≤ B) (p : σ) (b : Fin n) : |expectedMove lr gamma val θ s a r d s' p b| ≤ B := by
  unfold expectedMove
  split
  · have hT : |r + if d then 0 else gamma * val (θ s')| ≤ B := by
      have hB0 : 0 ≤ B := (abs_nonneg _).trans (hθ s a)
      refine (abs_add_le _ _).trans (le_trans (add_le_add hR ?_) hB)
      split
      · rw [abs_zero]; positivity
      · rw [abs_mul, abs_of_nonneg h0]
        exact mul_le_mul_of_nonneg_left hv h0
    set T := r + if d then 0 else gamma * val (θ s')
    have e : θ p b + lr * (T - θ p b) = (1 - lr) * θ p b + lr * T := by ring
    rw [e]
    refine (abs_add_le _ _).trans ?_
    rw [abs_mul, abs_mul, abs_of_nonneg l0, abs_of_nonneg (sub_nonneg.2 l1)]
    have g1 := mul_le_mul_of_nonneg_left (hθ p b) (sub_nonneg.2 l1)
    have g2 := mul_le_mul_of_nonneg_left hT l0
    linarith
  · simpa using hθ p b

theorem expected_updates {logits : (Fin n → ℝ) → Fin n → ℝ} (hn : 0 < n) (type1 : Bool) {gamma : ℝ} (h0 : 0 ≤ gamma) : Updates (σ := σ) (n := n) (expectedSarsaOf n logits) type1 gamma fun R B => R + gamma * B ≤ B :=
  fun lr x y d hw θ => ⟨_, expected_update hn type1 gamma lr x y d hw θ, fun _ _ l0 l1 hR hB hθ => expectedMove_bound h0 l0 l1 d y.s hR hB hθ (ownMean_bound hn logits (hθ _))⟩

/-- In the closed loop with `ExpectedSarsa` the values `f` are moved towards those of the target policy on the values themselves, plus noise. -/
theorem Play.expected [Fintype σ] [MeasurableSpace U] [MeasurableSpace V] {μ : Measure Ω} [IsProbabilityMeasure μ] {ℋ : Filtration ℕ m0} {νU : Measure U} {νV : Measure V} {u : ℕ → Ω → U} {v : ℕ → Ω → V} (hv : Variates μ ℋ νU νV u v)
    (hn : 0 < n) {e : Mdp σ n m} (he : e.Proper) (hc : e.Connected) {env : Game σ n V} {chance : σ → Fin n → V → Fin m} (hg : env.Is νV e chance) {pi : ℕ → (Fin n → ℝ) → U → Option (Fin n)} (hpi : Tries νU pi) (logits : (Fin n → ℝ) → Fin n → ℝ)
    {gamma : ℝ} (h0 : 0 ≤ gamma) (h1 : gamma < 1) {lr : ℕ → ℝ} (hl : Slow lr) (type1 : Bool)
    (s0 : σ) (θ0 : σ → Fin n → ℝ) :
    ∃ (X : ℕ → Ω → Play σ n) (B : ℝ), (∀ k ω, Play.run lr mse1 (expectedSarsaOf n logits) type1 pi env (Play.init gamma s0 θ0) ((List.range k).map fun t => (u t ω, v t ω)) = .ok (X k ω)) ∧
      (∀ k ω, (X k ω).ep ≤ (X (k + 1) ω).ep) ∧
      ∀ᵐ ω ∂μ, ∃ (f : ℕ → σ → Fin n → ℝ) (b d : ℕ → σ × Fin n → ℝ), (∀ t s a, |f t s a| ≤ B) ∧ (∀ t, (X (t + 1) ω).q = f t ∨ (X (t + 1) ω).q = f (t + 1)) ∧ (∀ t p, 0 ≤ b t p ∧ b t p ≤ 1) ∧ (∀ p, ¬ Summable fun t => b t p) ∧
        (∀ p, Tendsto (fun t => b t p) atTop (𝓝 0)) ∧ (∀ p, ∃ S, Tendsto (fun t => ∑ k ∈ Finset.range t, d k p) atTop (𝓝 S)) ∧
        ∀ t p, f (t + 1) p.1 p.2 = (1 - b t p) * f t p.1 p.2 + b t p * e.back gamma (fun s => ownMean logits (f t s)) p.1 p.2 + d t p := by
  choose A hA using hpi.answers
  obtain ⟨X, xs, out, hrun, hsteps, hs, hnext, ha, hon, hep, hw, hX, hbound⟩ := Play.steps hv (expected_updates hn type1 h0) hg hpi hA h0 h1.le lr s0 θ0
  -- bounds
  obtain ⟨R, hR⟩ := bounded fun p : σ × Fin n × Fin m => e.reward p.1 p.2.1 p.2.2
  obtain ⟨T, hT⟩ := bounded fun p : σ × Fin n => θ0 p.1 p.2
  have g1 : 0 < 1 - gamma := by linarith
  obtain ⟨B, hB1, hB2⟩ : ∃ B, R + gamma * B ≤ B ∧ T ≤ B := by
    refine ⟨max T (R / (1 - gamma)), ?_, le_max_left _ _⟩
    have h2 := (div_le_iff₀ g1).1 (le_max_right T (R / (1 - gamma)))
    linarith
  have hθ0 : ∀ s a, |θ0 s a| ≤ B := fun s a => (hT (s, a)).trans hB2
  have hB0 : 0 ≤ B := (abs_nonneg _).trans (hθ0 s0 ⟨0, hn⟩)
  have hB := hbound R B hl.nonneg hl.le (fun s a j => hR (s, a, j)) hB1 hθ0
  obtain ⟨eps, heps, hexp⟩ := hpi.explores B
  have hx : Explorer e μ ℋ xs out lr := {
    steps := hsteps
    explores := by
      refine ⟨eps, heps, fun t a => ?_⟩
      filter_upwards [ha t a] with ω h4
      rw [h4]
      exact hexp _ _ _ fun b => hB t ω _ b
    connected := hc
    reset := hnext
    schedule := ⟨hl.nonneg, fun t ω => by
      rw [hw]
      have : min (max (1 : ℝ) 0.1) 10 = 1 := by norm_num
      rw [this, mul_one]; exact hl.le t, hl.squares⟩
    infinite := hl.infinite
    slow := hl.slow }
  have hvis := (hx.rates gamma one_pos le_rfl).visits
  -- the values
  let dn : ℕ → Ω → Bool := fun t ω => e.ends (xs t ω).s (xs t ω).a (out t ω)
  let θ : ℕ → Ω → σ → Fin n → ℝ := fun t ω => Nat.rec θ0 (fun t θ => expectedMove (lr t) gamma (ownMean logits) θ (xs t ω).s (xs t ω).a (xs t ω).r (dn t ω) (xs (t + 1) ω).s) t
  have hθs : ∀ t ω, θ (t + 1) ω = expectedMove (lr t) gamma (ownMean logits) (θ t ω) (xs t ω).s (xs t ω).a (xs t ω).r (dn t ω) (xs (t + 1) ω).s := fun _ _ => rfl
  have hθB : ∀ t ω s a, |θ t ω s a| ≤ B := by
    intro t ω
    induction t with
    | zero => exact hθ0
    | succ t ih => exact expectedMove_bound h0 (hl.nonneg t) (hl.le t) _ _ (by rw [hsteps.reward]; exact hR (_, _, _)) hB1 ih (ownMean_bound hn logits (ih _))
  have hq : ∀ t ω, (X (t + 1) ω).q = if dn t ω then θ (t + 1) ω else θ t ω := by
    intro t ω
    have main := onlineS_learn (lr := lr) (L := mse1) (updateRule := expectedSarsaOf n logits) (type1 := type1) (dn := fun t => dn t ω) (xs := fun t => xs t ω) (θ := fun t => θ t ω) h0 h1.le (fun t => hsteps.logp t ω) (fun t => hsteps.w t ω) rfl
      (fun j => expected_update hn type1 gamma (lr j) (xs j ω) (xs (j + 1) ω) (dn j ω) (hw j ω) (θ j ω)) (t + 1)
    have := congrArg (fun p => p.2.1) (Except.ok.inj ((hon (t + 1) ω).symm.trans main))
    simp only at this
    rw [this]
    by_cases h : dn t ω = true <;> simp [h]
  -- what is known
  have ks : ∀ t, Knows (ℋ (2 * t)) fun ω => (xs t ω).s := fun t => ⟨Set.to_countable _, fun s => hsteps.s_known t s⟩
  have ka : ∀ t, Knows (ℋ (2 * t + 1)) fun ω => (xs t ω).a := fun t => ⟨Set.to_countable _, fun a => hsteps.a_known t a⟩
  have ko : ∀ t, Knows (ℋ (2 * t + 2)) fun ω => out t ω := fun t => ⟨Set.to_countable _, fun j => hsteps.out_known t j⟩
  have up : ∀ {i j : ℕ}, i ≤ j → ℋ i ≤ ℋ j := fun h => ℋ.mono h
  have kθ : ∀ t, Knows (ℋ (2 * t + 1)) fun ω => θ t ω := by
    intro t
    induction t with
    | zero => exact Knows.const _ _
    | succ t ih =>
      have h2 := (((ih.mono (up (by omega : 2 * t + 1 ≤ 2 * (t + 1) + 1))).pair (((ks t).mono (up (by omega : 2 * t ≤ 2 * (t + 1) + 1))).pair ((ka t).mono (up (by omega : 2 * t + 1 ≤ 2 * (t + 1) + 1))))).pair
        (((ko t).mono (up (by omega : 2 * t + 2 ≤ 2 * (t + 1) + 1))).pair (((ks (t + 1)).mono (up (by omega : 2 * (t + 1) ≤ 2 * (t + 1) + 1))).pair (ka (t + 1)))))
      have h3 := h2.map fun p => expectedMove (lr t) gamma (ownMean logits) p.1.1 p.1.2.1 p.1.2.2 (e.reward p.1.2.1 p.1.2.2 p.2.1) (e.ends p.1.2.1 p.1.2.2 p.2.1) p.2.2.1
      refine (congrArg (Knows (ℋ (2 * (t + 1) + 1))) (funext fun ω => ?_)).mpr h3
      rw [hθs, hsteps.reward]
  have k1 : ∀ t, Knows (ℋ (2 * t + 1)) fun ω => ((θ t ω, X t ω), ((xs t ω).s, (xs t ω).a)) := fun t =>
    ((kθ t).pair ((hX t).mono (up (by omega)))).pair (((ks t).mono (up (by omega))).pair (ka t))
  -- the noise
  let b : ℕ → σ × Fin n → Ω → ℝ := fun t p ω => if (xs t ω).s = p.1 ∧ (xs t ω).a = p.2 then lr t else 0
  have hb0 : ∀ t p ω, 0 ≤ b t p ω := fun t p ω => by
    simp only [b]; split
    · exact hl.nonneg t
    · exact le_rfl
  have hbl : ∀ t p ω, b t p ω ≤ lr t := fun t p ω => by
    simp only [b]; split
    · exact le_rfl
    · exact hl.nonneg t
  let W : ℕ → Ω → σ → ℝ := fun t ω s => ownMean logits (θ t ω s)
  have hWB : ∀ t ω s, |W t ω s| ≤ B := fun t ω s => ownMean_bound hn logits (hθB t ω s)
  let G : ℕ → Ω → σ × Fin n → Fin m → ℝ := fun t ω p j => e.reward p.1 p.2 j + if e.ends p.1 p.2 j then 0 else gamma * W t ω (e.next p.1 p.2 j)
  have hGB : ∀ t ω p j, |G t ω p j| ≤ B := by
    intro t ω p j
    refine (abs_add_le _ _).trans (le_trans (add_le_add (hR (p.1, p.2, j)) ?_) hB1)
    split
    · rw [abs_zero]; positivity
    · rw [abs_mul, abs_of_nonneg h0]
      exact mul_le_mul_of_nonneg_left (hWB _ _ _) h0
  have n2 : ∀ p, ∀ᵐ ω ∂μ, ∃ S, Tendsto (fun t => ∑ k ∈ Finset.range t, b k p ω * (G k ω p (out k ω) - ∑ j, e.prob p.1 p.2 j * G k ω p j)) atTop (𝓝 S) := by
    intro p
    refine outcome_noise (ℱ := sub2 ℋ 1) (q := e.prob p.1 p.2) (a := fun t => b t p) (Z := fun t ω => G t ω p) (x := out) (c := lr) (he.nonneg _ _) (he.total _ _) (fun t ω => hb0 t p ω) (fun t ω => (hbl t p ω).trans (hl.le t)) (fun t ω => hbl t p ω)
      hl.squares (fun t => ?_) (fun t j => ?_) (fun t ω j => hGB t ω p j) (fun t j => up (by omega) _ (hsteps.out_known t j)) (fun t j => ?_) hB0
    · exact ((k1 t).map fun z => if z.2.1 = p.1 ∧ z.2.2 = p.2 then lr t else 0).measurable
    · exact ((k1 t).map fun z => e.reward p.1 p.2 j + if e.ends p.1 p.2 j then 0 else gamma * ownMean logits (z.1.1 (e.next p.1 p.2 j))).measurable
    · filter_upwards [hsteps.law t j] with ω h2 h3
      have h4 : (xs t ω).s = p.1 ∧ (xs t ω).a = p.2 := by
        by_contra h5
        exact h3 (if_neg h5)
      rw [show (sub2 ℋ 1 : Filtration ℕ m0) t = ℋ (2 * t + 1) from rfl, h2, h4.1, h4.2]
  refine ⟨X, B, hrun, fun k ω => ?_, ?_⟩
  · rw [hep]; split <;> omega
  filter_upwards [ae_all_iff.2 n2, ae_all_iff.2 fun p : σ × Fin n => hvis p.1 p.2] with ω w2 w3
  refine ⟨fun t => θ t ω, fun t p => b t p ω, fun t p => b t p ω * (G t ω p (out t ω) - ∑ j, e.prob p.1 p.2 j * G t ω p j),
    fun t => hθB t ω, fun t => ?_, fun t p => ⟨hb0 t p ω, (hbl t p ω).trans (hl.le t)⟩, fun p => ?_, fun p => ?_, fun p => ?_, fun t p => ?_⟩
  · rw [hq]; split
    · exact .inr rfl
    · exact .inl rfl
  · exact w3 p
  · have h2 : Tendsto lr atTop (𝓝 0) := by
      have h3 := (Real.continuous_sqrt.tendsto 0).comp hl.squares.tendsto_atTop_zero
      rw [Real.sqrt_zero] at h3
      exact h3.congr fun t => Real.sqrt_sq (hl.nonneg t)
    exact squeeze_zero (fun t => hb0 t p ω) (fun t => hbl t p ω) h2
  · exact w2 p
  · beta_reduce
    rw [hθs]
    by_cases h : (xs t ω).s = p.1 ∧ (xs t ω).a = p.2
    · have e1 : b t p ω = lr t := if_pos h
      have e2 : G t ω p (out t ω) = (xs t ω).r + if dn t ω then 0 else gamma * W t ω (xs (t + 1) ω).s := by
        have e3 : dn t ω = e.ends p.1 p.2 (out t ω) := by rw [← h.1, ← h.2]
        rw [e3, hsteps.reward, hnext, h.1, h.2]
      rw [e1, e2]
      unfold expectedMove
      rw [if_pos h]
      unfold Mdp.back
      show _ = (1 - lr t) * θ t ω p.1 p.2 + lr t * (∑ j, e.prob p.1 p.2 j * G t ω p j) + _
      simp only [W]
      split <;> ring
    · have e1 : b t p ω = 0 := if_neg h
      rw [e1]
      unfold expectedMove
      rw [if_neg h]
      ring

end Coax.Loop
