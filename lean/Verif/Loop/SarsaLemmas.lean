import Verif.Loop.ClosedProps
import Verif.Loop.OnlineTargetProps
import Verif.Loop.EvaluateProps

/-! The closed loop with `Sarsa`: the values are moved towards those of the policy that acts, with noise that has a convergent sum. -/

namespace Coax.Loop

open Coax.RewardTracing Coax.TD Coax.Core Coax.Values Coax.Pol Coax.Dists Filter Topology MeasureTheory

variable {σ Ω U V : Type _} {n m : Nat} {m0 : MeasurableSpace Ω}

theorem Knows.measurable {F : MeasurableSpace Ω} {f : Ω → ℝ} (h : Knows F f) : Measurable[F] f := fun B _ => h.preimage B

variable [DecidableEq σ]

/-- The values after an update of `Sarsa` with one transition. -/
def sarsaMove (lr gamma : ℝ) (θ : σ → Fin n → ℝ) (s : σ) (a : Fin n) (r : ℝ) (d : Bool) (s' : σ) (a' : Fin n) : σ → Fin n → ℝ :=
  fun p b => θ p b + (if s = p ∧ a = b then lr else 0) * ((r + if d then 0 else gamma * θ s' a') - θ p b)

theorem sarsa_update (hn : 0 < n) (type1 : Bool) (gamma lr : ℝ) (x y : Step σ (Fin n) ℝ) (d : Bool) (hw : x.w = 1) (θ : σ → Fin n → ℝ) :
    sgdUpdate lr mse1 (sarsa n) type1 θ θ [rowOf gamma x y d] = .ok (sarsaMove lr gamma θ x.s x.a x.r d y.s y.a) := by
  let e : Mdp σ n 1 := ⟨fun _ _ _ => 1, fun _ _ _ => x.r, fun _ _ _ => y.s, fun _ _ _ => d⟩
  obtain ⟨b, hb, ht⟩ := sarsa_row (e := e) (gamma := gamma) (o := rowOf gamma x y d) (j := 0) hn type1 rfl (fun h => by simp only [e] at h; simp [rowOf, h]) (fun h => by simp only [e] at h; simp [rowOf, h, e]) rfl rfl θ θ
  rw [sgdUpdate_rows mse1_meanOf hn (by simp) hb (target := fun _ => e.nextGoal gamma θ (x.s, x.a) (0, if d then none else some y.a)) (by rw [ht]; cases d <;> rfl) lr]
  congr 1
  funext p c
  have hwt : weight (rowOf gamma x y d) = 1 := by
    simp only [weight, rowOf, hw]
    norm_num
  simp only [List.map_cons, List.map_nil, List.sum_cons, List.sum_nil, add_zero, List.length_singleton, Nat.cast_one, div_one, hwt, one_mul, sarsaMove]
  have e1 : e.nextGoal gamma θ (x.s, x.a) (0, if d then none else some y.a) = x.r + if d then 0 else gamma * θ y.s y.a := by
    cases d <;> simp [Mdp.nextGoal, e]
  rw [e1]
  by_cases h : x.s = p ∧ x.a = c
  · rw [if_pos ⟨h.1.symm, h.2.symm⟩, if_pos h]; ring
  · rw [if_neg fun h' => h ⟨h'.1.symm, h'.2.symm⟩, if_neg h]; ring

omit m0 in
theorem sarsaMove_bound {gamma lr : ℝ} (h0 : 0 ≤ gamma) (l0 : 0 ≤ lr) (l1 : lr ≤ 1) {θ : σ → Fin n → ℝ} {s : σ} {a : Fin n} {r : ℝ} (d : Bool) (s' : σ) (a' : Fin n) {R B : ℝ} (hR : |r| ≤ R) (hB : R + gamma * B ≤ B) (hθ : ∀ s a, |θ s a| ≤ B) (p : σ) (b : Fin n) :
    |sarsaMove lr gamma θ s a r d s' a' p b| ≤ B := by
  unfold sarsaMove
  split
  · have hT : |r + if d then 0 else gamma * θ s' a'| ≤ B := by
      have hB0 : 0 ≤ B := (abs_nonneg _).trans (hθ s a)
      refine (abs_add_le _ _).trans (le_trans (add_le_add hR ?_) hB)
      split
      · rw [abs_zero]; positivity
      · rw [abs_mul, abs_of_nonneg h0]
        exact mul_le_mul_of_nonneg_left (hθ _ _) h0
    set T := r + if d then 0 else gamma * θ s' a'
    have e : θ p b + lr * (T - θ p b) = (1 - lr) * θ p b + lr * T := by ring
    rw [e]
    refine (abs_add_le _ _).trans ?_
    rw [abs_mul, abs_mul, abs_of_nonneg l0, abs_of_nonneg (sub_nonneg.2 l1)]
    have g1 := mul_le_mul_of_nonneg_left (hθ p b) (sub_nonneg.2 l1)
    have g2 := mul_le_mul_of_nonneg_left hT l0
    linarith
  · simpa using hθ p b

theorem sarsa_updates (hn : 0 < n) (type1 : Bool) {gamma : ℝ} (h0 : 0 ≤ gamma) : Updates (σ := σ) (n := n) (sarsa n) type1 gamma fun R B => R + gamma * B ≤ B :=
  fun lr x y d hw θ => ⟨_, sarsa_update hn type1 gamma lr x y d hw θ, fun _ _ l0 l1 hR hB hθ => sarsaMove_bound h0 l0 l1 d y.s y.a hR hB hθ⟩

omit [DecidableEq σ] in
theorem back_close {e : Mdp σ n m} (he : e.Proper) {gamma : ℝ} (h0 : 0 ≤ gamma) {v w : σ → ℝ} {M : ℝ} (hM : ∀ s, |v s - w s| ≤ M) (s : σ) (a : Fin n) : |e.back gamma v s a - e.back gamma w s a| ≤ gamma * M := by
  have hM0 : 0 ≤ M := (abs_nonneg _).trans (hM s)
  unfold Mdp.back
  rw [← Finset.sum_sub_distrib]
  calc _ ≤ ∑ j, |e.prob s a j * (e.reward s a j + if e.ends s a j then 0 else gamma * v (e.next s a j)) - e.prob s a j * (e.reward s a j + if e.ends s a j then 0 else gamma * w (e.next s a j))| := Finset.abs_sum_le_sum_abs _ _
    _ ≤ ∑ j, e.prob s a j * (gamma * M) := by
        refine Finset.sum_le_sum fun j _ => ?_
        rw [← mul_sub, abs_mul, abs_of_nonneg (he.nonneg s a j)]
        refine mul_le_mul_of_nonneg_left ?_ (he.nonneg s a j)
        split
        · simp only [add_zero, sub_self, abs_zero]; positivity
        · rw [add_sub_add_left_eq_sub, ← mul_sub, abs_mul, abs_of_nonneg h0]
          exact mul_le_mul_of_nonneg_left (hM _) h0
    _ = gamma * M := by rw [← Finset.sum_mul, he.total, one_mul]

/-- In the closed loop with `Sarsa` the values `f` are moved towards those of the policy that acts, with the values themselves, plus noise. -/
theorem Play.sarsa [Fintype σ] [MeasurableSpace U] [MeasurableSpace V] {μ : Measure Ω} [IsProbabilityMeasure μ] {ℋ : Filtration ℕ m0} {νU : Measure U} {νV : Measure V} {u : ℕ → Ω → U} {v : ℕ → Ω → V} (hv : Variates μ ℋ νU νV u v)
    (hn : 0 < n) {e : Mdp σ n m} (he : e.Proper) (hc : e.Connected) {env : Game σ n V} {chance : σ → Fin n → V → Fin m} (hg : env.Is νV e chance) {pi : ℕ → (Fin n → ℝ) → U → Option (Fin n)} (hpi : Tries νU pi) {prob : ℕ → (Fin n → ℝ) → Fin n → ℝ}
    (hp : ∀ ep row a, νU.real {u | pi ep row u = some a} = prob ep row a) (hp0 : ∀ ep row a, 0 ≤ prob ep row a) (hp1 : ∀ ep row, ∑ a, prob ep row a = 1) {gamma : ℝ} (h0 : 0 ≤ gamma) (h1 : gamma < 1) {lr : ℕ → ℝ} (hl : Slow lr) (type1 : Bool)
    (s0 : σ) (θ0 : σ → Fin n → ℝ) :
    ∃ (X : ℕ → Ω → Play σ n) (B : ℝ), (∀ k ω, Play.run lr mse1 (Coax.TD.sarsa n) type1 pi env (Play.init gamma s0 θ0) ((List.range k).map fun t => (u t ω, v t ω)) = .ok (X k ω)) ∧
      (∀ k ω, (X k ω).ep ≤ (X (k + 1) ω).ep) ∧
      ∀ᵐ ω ∂μ, ∃ (f : ℕ → σ → Fin n → ℝ) (b d : ℕ → σ × Fin n → ℝ), (∀ t s a, |f t s a| ≤ B) ∧ (∀ t, (X (t + 1) ω).q = f t ∨ (X (t + 1) ω).q = f (t + 1)) ∧ (∀ t p, 0 ≤ b t p ∧ b t p ≤ 1) ∧ (∀ p, ¬ Summable fun t => b t p) ∧
        (∀ p, Tendsto (fun t => b t p) atTop (𝓝 0)) ∧ (∀ p, ∃ S, Tendsto (fun t => ∑ k ∈ Finset.range t, d k p) atTop (𝓝 S)) ∧
        ∀ t p, f (t + 1) p.1 p.2 = (1 - b t p) * f t p.1 p.2 + b t p * e.back gamma (fun s => ∑ a, prob (X t ω).ep (f t s) a * f t s a) p.1 p.2 + d t p := by
  choose A hA using hpi.answers
  obtain ⟨X, xs, out, hrun, hsteps, hs, hnext, ha, hon, hep, hw, hX, hbound⟩ := Play.steps hv (sarsa_updates hn type1 h0) hg hpi hA h0 h1.le lr s0 θ0
  -- bounds
  obtain ⟨R, hR⟩ := bounded fun p : σ × Fin n × Fin m => e.reward p.1 p.2.1 p.2.2
  obtain ⟨T, hT⟩ := bounded fun p : σ × Fin n => θ0 p.1 p.2
  have g1 : 0 < 1 - gamma := by linarith
  obtain ⟨B, hB1, hB2⟩ : ∃ B, R + gamma * B ≤ B ∧ T ≤ B := by
    refine ⟨max T (R / (1 - gamma)), ?_, le_max_left _ _⟩
    have h2 := (div_le_iff₀ g1).1 (le_max_right T (R / (1 - gamma)))
    linarith
  have hθ0 : ∀ s a, |θ0 s a| ≤ B := fun s a => (hT (s, a)).trans hB2
  have hB0 : 0 ≤ B := (abs_nonneg _).trans (hθ0 s0 ⟨0, hn⟩)
  have hB := hbound R B hl.nonneg hl.le (fun s a j => hR (s, a, j)) hB1 hθ0
  obtain ⟨eps, heps, hexp⟩ := hpi.explores B
  have hx : Explorer e μ ℋ xs out lr := {
    steps := hsteps
    explores := by
      refine ⟨eps, heps, fun t a => ?_⟩
      filter_upwards [ha t a] with ω h4
      rw [h4]
      exact hexp _ _ _ fun b => hB t ω _ b
    connected := hc
    reset := hnext
    schedule := ⟨hl.nonneg, fun t ω => by
      rw [hw]
      have : min (max (1 : ℝ) 0.1) 10 = 1 := by norm_num
      rw [this, mul_one]; exact hl.le t, hl.squares⟩
    infinite := hl.infinite
    slow := hl.slow }
  have hvis := (hx.rates gamma one_pos le_rfl).visits
  -- the values
  let dn : ℕ → Ω → Bool := fun t ω => e.ends (xs t ω).s (xs t ω).a (out t ω)
  let θ : ℕ → Ω → σ → Fin n → ℝ := fun t ω => Nat.rec θ0 (fun t θ => sarsaMove (lr t) gamma θ (xs t ω).s (xs t ω).a (xs t ω).r (dn t ω) (xs (t + 1) ω).s (xs (t + 1) ω).a) t
  have hθs : ∀ t ω, θ (t + 1) ω = sarsaMove (lr t) gamma (θ t ω) (xs t ω).s (xs t ω).a (xs t ω).r (dn t ω) (xs (t + 1) ω).s (xs (t + 1) ω).a := fun _ _ => rfl
  have hθB : ∀ t ω s a, |θ t ω s a| ≤ B := by
    intro t ω
    induction t with
    | zero => exact hθ0
    | succ t ih => exact sarsaMove_bound h0 (hl.nonneg t) (hl.le t) _ _ _ (by rw [hsteps.reward]; exact hR (_, _, _)) hB1 ih
  have hq : ∀ t ω, (X (t + 1) ω).q = if dn t ω then θ (t + 1) ω else θ t ω := by
    intro t ω
    have main := onlineS_learn (lr := lr) (L := mse1) (updateRule := Coax.TD.sarsa n) (type1 := type1) (dn := fun t => dn t ω) (xs := fun t => xs t ω) (θ := fun t => θ t ω) h0 h1.le (fun t => hsteps.logp t ω) (fun t => hsteps.w t ω) rfl
      (fun j => sarsa_update hn type1 gamma (lr j) (xs j ω) (xs (j + 1) ω) (dn j ω) (hw j ω) (θ j ω)) (t + 1)
    have := congrArg (fun p => p.2.1) (Except.ok.inj ((hon (t + 1) ω).symm.trans main))
    simp only at this
    rw [this]
    by_cases h : dn t ω = true <;> simp [h]
  -- what is known
  have ks : ∀ t, Knows (ℋ (2 * t)) fun ω => (xs t ω).s := fun t => ⟨Set.to_countable _, fun s => hsteps.s_known t s⟩
  have ka : ∀ t, Knows (ℋ (2 * t + 1)) fun ω => (xs t ω).a := fun t => ⟨Set.to_countable _, fun a => hsteps.a_known t a⟩
  have ko : ∀ t, Knows (ℋ (2 * t + 2)) fun ω => out t ω := fun t => ⟨Set.to_countable _, fun j => hsteps.out_known t j⟩
  have up : ∀ {i j : ℕ}, i ≤ j → ℋ i ≤ ℋ j := fun h => ℋ.mono h
  have kθ : ∀ t, Knows (ℋ (2 * t + 1)) fun ω => θ t ω := by
    intro t
    induction t with
    | zero => exact Knows.const _ _
    | succ t ih =>
      have h2 := (((ih.mono (up (by omega : 2 * t + 1 ≤ 2 * (t + 1) + 1))).pair (((ks t).mono (up (by omega : 2 * t ≤ 2 * (t + 1) + 1))).pair ((ka t).mono (up (by omega : 2 * t + 1 ≤ 2 * (t + 1) + 1))))).pair
        (((ko t).mono (up (by omega : 2 * t + 2 ≤ 2 * (t + 1) + 1))).pair (((ks (t + 1)).mono (up (by omega : 2 * (t + 1) ≤ 2 * (t + 1) + 1))).pair (ka (t + 1)))))
      have h3 := h2.map fun p => sarsaMove (lr t) gamma p.1.1 p.1.2.1 p.1.2.2 (e.reward p.1.2.1 p.1.2.2 p.2.1) (e.ends p.1.2.1 p.1.2.2 p.2.1) p.2.2.1 p.2.2.2
      refine (congrArg (Knows (ℋ (2 * (t + 1) + 1))) (funext fun ω => ?_)).mpr h3
      rw [hθs, hsteps.reward]
  have k1 : ∀ t, Knows (ℋ (2 * t + 1)) fun ω => ((θ t ω, X t ω), ((xs t ω).s, (xs t ω).a)) := fun t =>
    ((kθ t).pair ((hX t).mono (up (by omega)))).pair (((ks t).mono (up (by omega))).pair (ka t))
  have k2 : ∀ t, Knows (ℋ (2 * t + 2)) fun ω => (((θ t ω, X t ω), ((xs t ω).s, (xs t ω).a)), (out t ω, (xs (t + 1) ω).s)) := fun t =>
    ((k1 t).mono (up (by omega))).pair ((ko t).pair (ks (t + 1)))
  -- the noise
  let b : ℕ → σ × Fin n → Ω → ℝ := fun t p ω => if (xs t ω).s = p.1 ∧ (xs t ω).a = p.2 then lr t else 0
  have hb0 : ∀ t p ω, 0 ≤ b t p ω := fun t p ω => by
    simp only [b]; split
    · exact hl.nonneg t
    · exact le_rfl
  have hbl : ∀ t p ω, b t p ω ≤ lr t := fun t p ω => by
    simp only [b]; split
    · exact le_rfl
    · exact hl.nonneg t
  let W : ℕ → Ω → σ → ℝ := fun t ω s => ∑ a, prob (X t ω).ep (θ t ω s) a * θ t ω s a
  have hWB : ∀ t ω s, |W t ω s| ≤ B := by
    intro t ω s
    calc _ ≤ ∑ a, |prob (X t ω).ep (θ t ω s) a * θ t ω s a| := Finset.abs_sum_le_sum_abs _ _
      _ ≤ ∑ a, prob (X t ω).ep (θ t ω s) a * B := Finset.sum_le_sum fun a _ => by
          rw [abs_mul, abs_of_nonneg (hp0 _ _ a)]
          exact mul_le_mul_of_nonneg_left (hθB _ _ _ _) (hp0 _ _ a)
      _ = B := by rw [← Finset.sum_mul, hp1, one_mul]
  let G : ℕ → Ω → σ × Fin n → Fin m → ℝ := fun t ω p j => e.reward p.1 p.2 j + if e.ends p.1 p.2 j then 0 else gamma * W t ω (e.next p.1 p.2 j)
  have hGB : ∀ t ω p j, |G t ω p j| ≤ B := by
    intro t ω p j
    refine (abs_add_le _ _).trans (le_trans (add_le_add (hR (p.1, p.2, j)) ?_) hB1)
    split
    · rw [abs_zero]; positivity
    · rw [abs_mul, abs_of_nonneg h0]
      exact mul_le_mul_of_nonneg_left (hWB _ _ _) h0
  have n2 : ∀ p, ∀ᵐ ω ∂μ, ∃ S, Tendsto (fun t => ∑ k ∈ Finset.range t, b k p ω * (G k ω p (out k ω) - ∑ j, e.prob p.1 p.2 j * G k ω p j)) atTop (𝓝 S) := by
    intro p
    refine outcome_noise (ℱ := sub2 ℋ 1) (q := e.prob p.1 p.2) (a := fun t => b t p) (Z := fun t ω => G t ω p) (x := out) (c := lr) (he.nonneg _ _) (he.total _ _) (fun t ω => hb0 t p ω) (fun t ω => (hbl t p ω).trans (hl.le t)) (fun t ω => hbl t p ω)
      hl.squares (fun t => ?_) (fun t j => ?_) (fun t ω j => hGB t ω p j) (fun t j => up (by omega) _ (hsteps.out_known t j)) (fun t j => ?_) hB0
    · exact ((k1 t).map fun z => if z.2.1 = p.1 ∧ z.2.2 = p.2 then lr t else 0).measurable
    · exact ((k1 t).map fun z => e.reward p.1 p.2 j + if e.ends p.1 p.2 j then 0 else gamma * ∑ a, prob z.1.2.ep (z.1.1 (e.next p.1 p.2 j)) a * z.1.1 (e.next p.1 p.2 j) a).measurable
    · filter_upwards [hsteps.law t j] with ω h2 h3
      have h4 : (xs t ω).s = p.1 ∧ (xs t ω).a = p.2 := by
        by_contra h5
        exact h3 (if_neg h5)
      rw [show (sub2 ℋ 1 : Filtration ℕ m0) t = ℋ (2 * t + 1) from rfl, h2, h4.1, h4.2]
  have n1 : ∀ p, ∀ᵐ ω ∂μ, ∃ S, Tendsto (fun t => ∑ k ∈ Finset.range t, (b k p ω * if dn k ω then 0 else gamma) *
      (θ k ω (xs (k + 1) ω).s (xs (k + 1) ω).a - ∑ a, prob (X k ω).ep (θ k ω (xs (k + 1) ω).s) a * θ k ω (xs (k + 1) ω).s a)) atTop (𝓝 S) := by
    intro p
    have hg01 : ∀ t ω, 0 ≤ (if dn t ω then 0 else gamma) ∧ (if dn t ω then 0 else gamma) ≤ 1 := fun t ω => by
      split
      · exact ⟨le_rfl, zero_le_one⟩
      · exact ⟨h0, h1.le⟩
    have hal : ∀ t ω, (b t p ω * if dn t ω then 0 else gamma) ≤ lr t := fun t ω => by
      have := mul_le_mul (hbl t p ω) (hg01 t ω).2 (hg01 t ω).1 (hl.nonneg t)
      rwa [mul_one] at this
    refine outcome_noise_random (ℱ := sub2 ℋ 2) (q := fun t ω => prob (X t ω).ep (θ t ω (xs (t + 1) ω).s)) (a := fun t ω => b t p ω * if dn t ω then 0 else gamma) (Z := fun t ω a => θ t ω (xs (t + 1) ω).s a) (x := fun t ω => (xs (t + 1) ω).a) (c := lr)
      (fun t ω j => hp0 _ _ j) (fun t ω => hp1 _ _) (fun t j => ?_) (fun t ω => mul_nonneg (hb0 t p ω) (hg01 t ω).1) (fun t ω => (hal t ω).trans (hl.le t)) hal hl.squares (fun t => ?_) (fun t j => ?_) (fun t ω j => hθB t ω _ j)
      (fun t j => up (by omega) _ (hsteps.a_known (t + 1) j)) (fun t j => ?_) hB0
    · exact ((k2 t).map fun z => prob z.1.1.2.ep (z.1.1.1 z.2.2) j).measurable
    · exact ((k2 t).map fun z => (if z.1.2.1 = p.1 ∧ z.1.2.2 = p.2 then lr t else 0) * if e.ends z.1.2.1 z.1.2.2 z.2.1 then 0 else gamma).measurable
    · exact ((k2 t).map fun z => z.1.1.1 z.2.2 j).measurable
    · filter_upwards [ha (t + 1) j] with ω h2 h3
      have h4 : dn t ω = false := by
        by_contra h5
        rw [Bool.not_eq_false] at h5
        exact h3 (by rw [h5]; simp)
      have h5 := hq t ω
      rw [h4] at h5
      have h6 := hep t ω
      rw [show e.ends (xs t ω).s (xs t ω).a (out t ω) = false from h4] at h6
      rw [show (sub2 ℋ 2 : Filtration ℕ m0) t = ℋ (2 * (t + 1)) from rfl, h2, hp, h5, h6, hs]
      rfl
  refine ⟨X, B, hrun, fun k ω => ?_, ?_⟩
  · rw [hep]; split <;> omega
  filter_upwards [ae_all_iff.2 n1, ae_all_iff.2 n2, ae_all_iff.2 fun p : σ × Fin n => hvis p.1 p.2] with ω w1 w2 w3
  refine ⟨fun t => θ t ω, fun t p => b t p ω, fun t p => (b t p ω * if dn t ω then 0 else gamma) *
      (θ t ω (xs (t + 1) ω).s (xs (t + 1) ω).a - ∑ a, prob (X t ω).ep (θ t ω (xs (t + 1) ω).s) a * θ t ω (xs (t + 1) ω).s a) + b t p ω * (G t ω p (out t ω) - ∑ j, e.prob p.1 p.2 j * G t ω p j),
    fun t => hθB t ω, fun t => ?_, fun t p => ⟨hb0 t p ω, (hbl t p ω).trans (hl.le t)⟩, fun p => ?_, fun p => ?_, fun p => ?_, fun t p => ?_⟩
  · rw [hq]; split
    · exact .inr rfl
    · exact .inl rfl
  · exact w3 p
  · have h2 : Tendsto lr atTop (𝓝 0) := by
      have h3 := (Real.continuous_sqrt.tendsto 0).comp hl.squares.tendsto_atTop_zero
      rw [Real.sqrt_zero] at h3
      exact h3.congr fun t => Real.sqrt_sq (hl.nonneg t)
    exact squeeze_zero (fun t => hb0 t p ω) (fun t => hbl t p ω) h2
  · obtain ⟨S1, hS1⟩ := w1 p
    obtain ⟨S2, hS2⟩ := w2 p
    refine ⟨S1 + S2, ?_⟩
    simp only [Finset.sum_add_distrib]
    exact hS1.add hS2
  · beta_reduce
    rw [hθs]
    by_cases h : (xs t ω).s = p.1 ∧ (xs t ω).a = p.2
    · have e1 : b t p ω = lr t := if_pos h
      have e2 : G t ω p (out t ω) = (xs t ω).r + if dn t ω then 0 else gamma * W t ω (xs (t + 1) ω).s := by
        have e3 : dn t ω = e.ends p.1 p.2 (out t ω) := by rw [← h.1, ← h.2]
        rw [e3, hsteps.reward, hnext, h.1, h.2]
      rw [e1, e2]
      unfold sarsaMove
      rw [if_pos h]
      unfold Mdp.back
      show _ = (1 - lr t) * θ t ω p.1 p.2 + lr t * (∑ j, e.prob p.1 p.2 j * G t ω p j) + _
      simp only [W]
      split <;> ring
    · have e1 : b t p ω = 0 := if_neg h
      rw [e1]
      unfold sarsaMove
      rw [if_neg h]
      ring

/-- If two sequences are interleaved with delays of at most one, then both have the same limit. -/
theorem either_tendsto {x y : ℕ → ℝ} (h : ∀ t, y (t + 1) = x t ∨ y (t + 1) = x (t + 1)) {l : ℝ} (hx : Tendsto x atTop (𝓝 l)) : Tendsto y atTop (𝓝 l) := by
  rw [← tendsto_add_atTop_iff_nat 1]
  rw [Metric.tendsto_atTop] at hx ⊢
  intro ε hε
  obtain ⟨N, hN⟩ := hx ε hε
  refine ⟨N, fun k hk => ?_⟩
  rcases h k with h | h <;> rw [h]
  · exact hN k hk
  · exact hN (k + 1) (by omega)

end Coax.Loop
