import Verif.Loop.ClimbLemmas

/-! Property C137: `VanillaPG` with Monte-Carlo returns (REINFORCE) climbs the expected return, and ends up where its gradient is zero. -/

namespace Coax.Loop

open Coax.RewardTracing Coax.TD Coax.Core Coax.Values Coax.Pol Coax.Dists Filter Topology MeasureTheory

variable {X σ Ω V : Type _} {n m : Nat} {m0 : MeasurableSpace Ω}

/-! ### Specification -/

/-- Every episode begins in `x0`, and `rank` bounds the number of steps that are left, for example because of a time limit. -/
structure Mdp.Episodic (e : Mdp X n m) (x0 : X) (rank : X → ℕ) : Prop where
  start : ∀ x a j, e.ends x a j = true → e.next x a j = x0
  finite : ∀ x a j, e.ends x a j = false → rank (e.next x a j) < rank x

/-- Learning rates that decrease to zero, but not too fast. -/
structure Decreasing (lr : ℕ → ℝ) : Prop where
  nonneg : ∀ t, 0 ≤ lr t
  antitone : Antitone lr
  squares : Summable fun t => lr t ^ 2
  infinite : ¬ Summable lr

/-! ### The process -/

variable [DecidableEq σ]

theorem Climb.run_append {lr : ℕ → ℝ} {draw : List (Fin n) → Option (Fin n)} {tau : ℝ} {env : Game X n V} {obs : X → σ} {c d : Climb X σ n} {ws : List ((Fin n → ℝ) × V)} (h : Climb.run lr draw tau env obs c ws = .ok d) (w : (Fin n → ℝ) × V) :
    Climb.run lr draw tau env obs c (ws ++ [w]) = Climb.step lr draw tau env obs d w := by
  induction ws generalizing c with
  | nil =>
    cases h
    simp only [List.nil_append, Climb.run]
    split <;> simp_all
  | cons w' ws ih =>
    rw [Climb.run] at h
    rw [List.cons_append, Climb.run]
    split at h
    · cases h
    · exact ih h

/-- The states of the loop, if `A` are the actions that the policy gives. -/
noncomputable def Climb.path (lr : ℕ → ℝ) (e : Mdp X n m) (obs : X → σ) (A : (Fin n → ℝ) → (Fin n → ℝ) → Fin n) (chance : X → Fin n → V → Fin m) (c0 : Climb X σ n) (u : ℕ → Fin n → ℝ) (v : ℕ → V) : ℕ → Climb X σ n
  | 0 => c0
  | t + 1 =>
    let c := Climb.path lr e obs A chance c0 u v t
    c.after lr e obs (A (c.logits (obs c.x)) (u t)) (chance c.x (A (c.logits (obs c.x)) (u t)) (v t))

section process

variable [MeasurableSpace V] {μ : Measure Ω} {ℋ : Filtration ℕ m0} {νV : Measure V} {u : ℕ → Ω → Fin n → ℝ} {v : ℕ → Ω → V} {draw : List (Fin n) → Option (Fin n)} {tau : ℝ} {A : (Fin n → ℝ) → (Fin n → ℝ) → Fin n} {env : Game X n V}
  {e : Mdp X n m} {chance : X → Fin n → V → Fin m} {obs : X → σ} {lr : ℕ → ℝ} {c0 : Climb X σ n}

omit [DecidableEq σ] in
theorem climb_action (hv : Variates μ ℋ (uniforms n) νV u v) (hA : ∀ row u, (policyCall draw tau u row).1 = some (A row u)) {C : Ω → Climb X σ n} {t : ℕ} (hC : Knows (ℋ (2 * t)) C) :
    Knows (ℋ (2 * t + 1)) fun ω => A ((C ω).logits (obs (C ω).x)) (u t ω) := by
  refine ⟨Set.to_countable _, fun a => ?_⟩
  have := hC.draw (ℋ.mono (by omega)) (hv.u_known t) (E := fun c => {u | (policyCall draw tau u (c.logits (obs c.x))).1 = some a}) fun x => call_measurable _ _ _ _
  refine (congrArg (MeasurableSet[ℋ (2 * t + 1)]) ?_).mpr this
  ext ω
  simp [hA]

theorem Climb.knows (hv : Variates μ ℋ (uniforms n) νV u v) (hA : ∀ row u, (policyCall draw tau u row).1 = some (A row u)) (hg : env.Is νV e chance) (t : ℕ) :
    Knows (ℋ (2 * t)) fun ω => Climb.path lr e obs A chance c0 (fun t => u t ω) (fun t => v t ω) t := by
  induction t with
  | zero => exact Knows.const _ _
  | succ t ih =>
    have ha := climb_action (obs := obs) hv hA ih
    have hj := knows_outcome hv hg ((ih.map fun c => c.x).mono (ℋ.mono (by omega : 2 * t ≤ 2 * t + 1))) ha
    exact (((ih.mono (ℋ.mono (by omega : 2 * t ≤ 2 * t + 2))).pair (ha.mono (ℋ.mono (by omega : 2 * t + 1 ≤ 2 * t + 2)))).pair hj).map fun p => Climb.after lr e obs p.1.1 p.1.2 p.2

/-- Quantities that depend on the action and the outcome minus their means, times learning rates, have a convergent sum. -/
theorem Climb.noise [IsProbabilityMeasure μ] (hn : 0 < n) (he : e.Proper) (hv : Variates μ ℋ (uniforms n) νV u v) (hd : Draws draw) (htau : 0 < tau) (hA : ∀ row u, (policyCall draw tau u row).1 = some (A row u)) (hg : env.Is νV e chance) {C : ℕ → Ω → Climb X σ n}
    (hC : ∀ t, Knows (ℋ (2 * t)) (C t)) {α : ℕ → Ω → ℝ} (hα : ∀ t, Measurable[ℋ (2 * t)] (α t)) {c : ℕ → ℝ} (h0 : ∀ t ω, 0 ≤ α t ω) {M : ℝ} (hM : 0 < M) (h1 : ∀ t ω, α t ω ≤ M) (hc : ∀ t ω, α t ω ≤ c t) (hcs : Summable fun t => c t ^ 2)
    (Φ : Climb X σ n → Fin n → Fin m → ℝ) {B : ℝ} (hB : 0 ≤ B) (hΦ : ∀ t ω a j, |Φ (C t ω) a j| ≤ B) :
    ∀ᵐ ω ∂μ, ∃ S, Tendsto (fun k => ∑ t ∈ Finset.range k, α t ω * (Φ (C t ω) (A ((C t ω).logits (obs (C t ω).x)) (u t ω)) (chance (C t ω).x (A ((C t ω).logits (obs (C t ω).x)) (u t ω)) (v t ω)) -
      ∑ a, meanRow ((C t ω).logits (obs (C t ω).x)) a * ∑ j, e.prob (C t ω).x a j * Φ (C t ω) a j)) atTop (𝓝 S) := by
  let F0 : Filtration ℕ m0 := ⟨fun t => ℋ (2 * t), fun a b h => ℋ.mono (by omega), fun t => ℋ.le _⟩
  let F1 : Filtration ℕ m0 := ⟨fun t => ℋ (2 * t + 1), fun a b h => ℋ.mono (by omega), fun t => ℋ.le _⟩
  let ac : ℕ → Ω → Fin n := fun t ω => A ((C t ω).logits (obs (C t ω).x)) (u t ω)
  have hac : ∀ t, Knows (ℋ (2 * t + 1)) (ac t) := fun t => climb_action hv hA (hC t)
  have hC1 : ∀ t, Knows (ℋ (2 * t + 1)) (C t) := fun t => (hC t).mono (ℋ.mono (by omega))
  have hout : ∀ t, Knows (ℋ (2 * t + 2)) fun ω => chance (C t ω).x (ac t ω) (v t ω) := fun t => knows_outcome hv hg ((hC1 t).map fun c => c.x) (hac t)
  have hcs' : Summable fun t => (c t / M) ^ 2 := by
    simp only [div_pow]
    exact hcs.div_const _
  have hα1 : ∀ t ω, α t ω / M ≤ 1 := fun t ω => (div_le_one hM).2 (h1 t ω)
  have hmean : ∀ t ω a, |∑ j, e.prob (C t ω).x a j * Φ (C t ω) a j| ≤ B := by
    intro t ω a
    calc _ ≤ ∑ j, |e.prob (C t ω).x a j * Φ (C t ω) a j| := Finset.abs_sum_le_sum_abs _ _
      _ ≤ ∑ j, e.prob (C t ω).x a j * B := Finset.sum_le_sum fun j _ => by
          rw [abs_mul, abs_of_nonneg (he.nonneg _ _ _)]
          exact mul_le_mul_of_nonneg_left (hΦ _ _ _ _) (he.nonneg _ _ _)
      _ = B := by rw [← Finset.sum_mul, he.total, one_mul]
  have n1 := outcome_noise_random (μ := μ) (ℱ := F1) (q := fun t ω j => e.prob (C t ω).x (ac t ω) j) (a := fun t ω => α t ω / M) (Z := fun t ω j => Φ (C t ω) (ac t ω) j) (x := fun t ω => chance (C t ω).x (ac t ω) (v t ω)) (c := fun t => c t / M) (B := B)
    (fun t ω j => he.nonneg _ _ _) (fun t ω => he.total _ _) (fun t j => (((hC1 t).pair (hac t)).map fun p => e.prob p.1.x p.2 j).measurable) (fun t ω => div_nonneg (h0 t ω) hM.le) hα1 (fun t ω => div_le_div_of_nonneg_right (hc t ω) hM.le) hcs'
    (fun t => ((hα t).mono (ℋ.mono (by omega)) le_rfl).div_const M) (fun t j => (((hC1 t).pair (hac t)).map fun p => Φ p.1 p.2 j).measurable) (fun t ω j => hΦ _ _ _ _) (fun t j => ℋ.mono (by omega) _ ((hout t).fiber j))
    (fun t j => by
      have h2 := freeze (μ := μ) (ℋ.le (2 * t + 1)) ((hC1 t).pair (hac t)) ((hv.v_known t).mono (ℋ.le _) le_rfl) (hv.v_new t) (hv.v_law t) (E := fun p => {v | chance p.1.x p.2 v = j}) fun p => hg.measurable _ _ _
      filter_upwards [h2] with ω h3 _
      exact h3.trans (hg.law _ _ _)) hB
  have n0 := outcome_noise_random (μ := μ) (ℱ := F0) (q := fun t ω a => meanRow ((C t ω).logits (obs (C t ω).x)) a) (a := fun t ω => α t ω / M) (Z := fun t ω a => ∑ j, e.prob (C t ω).x a j * Φ (C t ω) a j) (x := ac) (c := fun t => c t / M) (B := B)
    (fun t ω a => ((C49_probabilities _).1 a).le) (fun t ω => (C49_probabilities _).2 hn) (fun t a => ((hC t).map fun c => meanRow (c.logits (obs c.x)) a).measurable) (fun t ω => div_nonneg (h0 t ω) hM.le) hα1 (fun t ω => div_le_div_of_nonneg_right (hc t ω) hM.le) hcs'
    (fun t => (hα t).div_const M) (fun t a => ((hC t).map fun c => ∑ j, e.prob c.x a j * Φ c a j).measurable) hmean (fun t a => ℋ.mono (by omega) _ ((hac t).fiber a))
    (fun t a => by
      have h2 := freeze (μ := μ) (ℋ.le (2 * t)) (hC t) ((hv.u_known t).mono (ℋ.le _) le_rfl) (hv.u_new t) (hv.u_law t) (E := fun c => {u | (policyCall draw tau u (c.logits (obs c.x))).1 = some a}) fun c => call_measurable _ _ _ _
      have h3 : {ω | ac t ω = a} = {ω | u t ω ∈ {u | (policyCall draw tau u ((C t ω).logits (obs (C t ω).x))).1 = some a}} := by
        ext ω
        simp [hA, ac]
      filter_upwards [h2] with ω h4 _
      rw [h3]
      refine h4.trans ?_
      rw [Measure.real, show uniforms n {u | (policyCall draw tau u ((C t ω).logits (obs (C t ω).x))).1 = some a} = _ from C62_sample_distribution hd htau _ a, ENNReal.toReal_ofReal ((C49_probabilities _).1 a).le]) hB
  filter_upwards [n0, n1] with ω ⟨S0, hS0⟩ ⟨S1, hS1⟩
  refine ⟨M * (S0 + S1), ((hS0.add hS1).const_mul M).congr fun k => ?_⟩
  rw [← Finset.sum_add_distrib, Finset.mul_sum]
  refine Finset.sum_congr rfl fun t _ => ?_
  have : M ≠ 0 := hM.ne'
  field_simp
  ring

end process

/-! ### The gradient -/

theorem setEntry_deriv [Fintype σ] {f : (σ → Fin n → ℝ) → ℝ} {g : (σ → Fin n → ℝ) → σ → Fin n → ℝ} {L : ℝ} (h : Smooth (dot σ n) f g L) (θ : σ → Fin n → ℝ) (s : σ) (a : Fin n) : HasDerivAt (fun y => f (setEntry θ s a y)) (g θ s a) (θ s a) := by
  have h1 : HasDerivAt (fun y => setEntry θ s a y) (fun s' a' => if s' = s ∧ a' = a then 1 else 0) (θ s a) := by
    refine hasDerivAt_pi.2 fun s' => hasDerivAt_pi.2 fun a' => ?_
    unfold setEntry
    split
    · exact hasDerivAt_id _
    · exact hasDerivAt_const _ _
  have h2 : setEntry θ s a (θ s a) = θ := by
    funext s' a'
    unfold setEntry
    split
    · rename_i h; rw [h.1, h.2]
    · rfl
  have h3 := (h.deriv θ).comp_hasDerivAt_of_eq (θ s a) h1 h2.symm
  refine h3.congr_deriv ?_
  rw [dot_apply, Finset.sum_eq_single s, Finset.sum_eq_single a]
  · simp
  · intro b _ hb; simp [hb]
  · simp
  · intro s' _ hs; simp [hs]
  · simp

/-- The loop does not raise, and the params are moved in the direction `way`, up to noise that sums up to something finite. -/
theorem Climb.ascends [Fintype σ] [Finite X] [MeasurableSpace V] (hn : 0 < n) {e : Mdp X n m} (he : e.Proper) {x0 : X} {rank : X → ℕ} (hep : e.Episodic x0 rank) {H : ℕ} (hH : ∀ x, rank x < H) {obs : X → σ} {gamma : ℝ} (h0 : 0 ≤ gamma) (h1 : gamma ≤ 1)
    {νV : Measure V} {env : Game X n V} {chance : X → Fin n → V → Fin m} (hg : env.Is νV e chance) {lr : ℕ → ℝ} (hl : Decreasing lr) {draw : List (Fin n) → Option (Fin n)} (hd : Draws draw) {tau : ℝ} (htau : 0 < tau)
    {μ : Measure Ω} [IsProbabilityMeasure μ] {ℋ : Filtration ℕ m0} {u : ℕ → Ω → Fin n → ℝ} {v : ℕ → Ω → V} (hv : Variates μ ℋ (uniforms n) νV u v) (θ0 : σ → Fin n → ℝ) {G : (σ → Fin n → ℝ) → σ → Fin n → ℝ} {LG : ℝ} (hLG : ∀ θ, ‖G θ‖ ≤ LG) :
    ∃ C : ℕ → Ω → Climb X σ n, (∀ k ω, Climb.run lr draw tau env obs (Climb.init gamma x0 θ0) ((List.range k).map fun t => (u t ω, v t ω)) = .ok (C k ω)) ∧
      ∀ᵐ ω ∂μ, ∃ y ξ rest a b K, 0 ≤ K ∧ ∀ K', K ≤ K' → Ascent (dot σ n) G (fun θ => way e obs gamma 1 H θ x0) (fun k => (C k ω).logits) y ξ rest a b K' := by
  -- constants
  have hr := hep.finite
  obtain ⟨R, hR⟩ := bounded fun p : X × Fin n × Fin m => e.reward p.1 p.2.1 p.2.2
  have hre : ∀ x a j, |e.reward x a j| ≤ |R| := fun x a j => (hR (x, a, j)).trans (le_abs_self R)
  choose L hL using fun x => val_smooth e obs gamma (n := n) (σ := σ) H x
  obtain ⟨Lm, hLm⟩ := bounded L
  have hLx : ∀ x, L x ≤ |Lm| := fun x => (le_abs_self _).trans ((hLm x).trans (le_abs_self _))
  obtain ⟨Kd, hKd⟩ := way_le (obs := obs) (gamma := gamma) he hre 1 H
  have hwayb : ∀ θ x, ‖way e obs gamma 1 H θ x‖ ≤ |Kd| := fun θ x => (hKd θ x).trans (le_abs_self _)
  have hvalb : ∀ θ x, |val e obs gamma H θ x| ≤ |Lm| := fun θ x => ((hL x).le θ).trans (hLx x)
  set K1 : ℝ := H * (|R| * H) + (|Kd| + |Lm| * H) with hK1
  have hK10 : 0 ≤ K1 := by positivity
  -- the path
  have hans : ∀ row u, ∃ a, (policyCall draw tau u row).1 = some a := by
    intro row u
    obtain ⟨a, ha, -⟩ := (C49_sample hd hn htau u row).2.2
    exact ⟨a, ha⟩
  choose A hA using hans
  let C : ℕ → Ω → Climb X σ n := fun t ω => Climb.path lr e obs A chance (Climb.init gamma x0 θ0) (fun t => u t ω) (fun t => v t ω) t
  let ac : ℕ → Ω → Fin n := fun t ω => A ((C t ω).logits (obs (C t ω).x)) (u t ω)
  let out : ℕ → Ω → Fin m := fun t ω => chance (C t ω).x (ac t ω) (v t ω)
  have hC : ∀ t, Knows (ℋ (2 * t)) (C t) := fun t => Climb.knows hv hA hg t
  have hnext : ∀ t ω, C (t + 1) ω = (C t ω).after lr e obs (ac t ω) (out t ω) := fun t ω => rfl
  have hgood : ∀ t ω, (C t ω).Good gamma |R| rank H := by
    intro t ω
    induction t with
    | zero => exact ⟨rfl, fun _ => rfl, fun x hx => absurd hx (by simp [C, Climb.path, Climb.init, MonteCarlo.init, MonteCarlo.reset]), by simpa [C, Climb.path, Climb.init, MonteCarlo.init, MonteCarlo.reset] using hH x0⟩
    | succ t ih => exact (Climb.after_spec (V := V) ih h0 h1 hl.nonneg hl.antitone (abs_nonneg R) hre hr hH (ac t ω) (out t ω)).1
  have hspec := fun t ω => Climb.after_spec (V := V) (obs := obs) (hgood t ω) h0 h1 hl.nonneg hl.antitone (abs_nonneg R) hre hr hH (ac t ω) (out t ω)
  have hlist : ∀ t ω, (C t ω).tracer.list.length + 1 ≤ H := fun t ω => by have := (hgood t ω).short; omega
  have hlen : ∀ t ω, (C t ω).updates + (C t ω).tracer.list.length = t := by
    intro t ω
    induction t with
    | zero => rfl
    | succ t ih =>
      rw [hnext]
      cases hj : e.ends (C t ω).x (ac t ω) (out t ω)
      · obtain ⟨-, g2, g3⟩ := (hspec t ω).2.2.2.1 hj
        rw [g2, g3, List.length_append, List.length_singleton]
        omega
      · obtain ⟨g2, g3, -⟩ := (hspec t ω).2.2.2.2 hj
        rw [g2, g3, List.length_nil]
        omega
  have hrun : ∀ k ω, Climb.run lr draw tau env obs (Climb.init gamma x0 θ0) ((List.range k).map fun t => (u t ω, v t ω)) = .ok (C k ω) := by
    intro k ω
    induction k with
    | zero => rfl
    | succ k ih =>
      rw [List.range_succ, List.map_append, List.map_singleton, Climb.run_append ih]
      exact (hspec k ω).2.2.1 (hA _ _) (hg.reward _ _ _) (hg.ends _ _ _) (hg.next _ _ _)
  -- bounds
  have hthen : ∀ t ω a j, ‖(C t ω).then e obs gamma H a j‖ ≤ K1 := by
    intro t ω a j
    have hst : ∀ x ∈ (C t ω).tracer.list ++ [(C t ω).traced e obs a j], |x.r| ≤ |R| := by
      intro x hx
      rcases List.mem_append.1 hx with h | h
      · exact ((hgood t ω).steps x h).1
      · rw [List.mem_singleton] at h
        subst h
        exact hre _ _ _
    obtain ⟨b1, b2⟩ := eligible_le h0 h1 (C t ω).logits (abs_nonneg R) _ hst
    have b3 : (((C t ω).tracer.list ++ [(C t ω).traced e obs a j]).length : ℝ) ≤ H := by
      rw [List.length_append, List.length_singleton]
      exact_mod_cast hlist t ω
    have b4 := b1.trans (mul_le_mul b3 (mul_le_mul_of_nonneg_left b3 (abs_nonneg R)) (by positivity) (by positivity))
    unfold Climb.then
    refine (norm_add_le _ _).trans (add_le_add b4 ?_)
    split
    · rw [norm_zero]; positivity
    · refine (norm_add_le _ _).trans (add_le_add (hwayb _ _) ?_)
      rw [norm_smul, Real.norm_eq_abs]
      exact mul_le_mul (hvalb _ _) (b2.trans b3) (norm_nonneg _) (abs_nonneg _)
  have hhope : ∀ t ω, ‖(C t ω).hope e obs gamma H‖ ≤ K1 := by
    intro t ω
    obtain ⟨b1, b2⟩ := eligible_le h0 h1 (C t ω).logits (abs_nonneg R) _ fun x hx => ((hgood t ω).steps x hx).1
    have b3 : ((C t ω).tracer.list.length : ℝ) ≤ H := by
      have := hlist t ω
      exact_mod_cast (by omega : (C t ω).tracer.list.length ≤ H)
    have b4 := b1.trans (mul_le_mul b3 (mul_le_mul_of_nonneg_left b3 (abs_nonneg R)) (by positivity) (by positivity))
    have b5 : ‖val e obs gamma H (C t ω).logits (C t ω).x • (eligible gamma (C t ω).logits (C t ω).tracer.list).2‖ ≤ |Lm| * H := by
      rw [norm_smul, Real.norm_eq_abs]
      exact mul_le_mul (hvalb _ _) (b2.trans b3) (norm_nonneg _) (abs_nonneg _)
    unfold Climb.hope
    refine (norm_add_le _ _).trans ((add_le_add (norm_add_le _ _) le_rfl).trans ?_)
    have := hwayb (C t ω).logits (C t ω).x
    linarith
  -- learning rates
  have hrate : ∀ t ω, lr (C t ω).updates ≤ lr (t - H) := fun t ω => hl.antitone (by have := hlen t ω; have := hlist t ω; omega)
  have hsq : Summable fun t => lr (t - H) ^ 2 := by
    refine (summable_nat_add_iff H).1 ?_
    simpa using hl.squares
  have hM : ∀ t, lr t ≤ lr 0 + 1 := fun t => by have := hl.antitone (Nat.zero_le t); linarith
  have hM0 : 0 < lr 0 + 1 := by have := hl.nonneg 0; linarith
  have hαm : ∀ t, Measurable[ℋ (2 * t)] fun ω => lr (C t ω).updates := fun t => ((hC t).map fun c => lr c.updates).measurable
  have noise := fun (Φ : Climb X σ n → Fin n → Fin m → ℝ) (B : ℝ) (hB : 0 ≤ B) (hΦ : ∀ t ω a j, |Φ (C t ω) a j| ≤ B) =>
    Climb.noise (obs := obs) (α := fun t ω => lr (C t ω).updates) (c := fun t => lr (t - H)) hn he hv hd htau hA hg hC hαm (fun t ω => hl.nonneg _) hM0 (fun t ω => hM _) hrate hsq Φ hB hΦ
  have hmean : ∀ c : Climb X σ n, c.hope e obs gamma H = ∑ a, meanRow (c.logits (obs c.x)) a • ∑ j, e.prob c.x a j • c.then e obs gamma H a j := by
    intro c
    funext s b
    rw [Climb.hope_mean hn he hr hH c s b]
    simp only [Finset.sum_apply, Pi.smul_apply, smul_eq_mul]
  let D : (σ → Fin n → ℝ) → σ → Fin n → ℝ := fun θ => way e obs gamma 1 H θ x0
  have hLG0 : 0 ≤ LG := (norm_nonneg _).trans (hLG θ0)
  have noise1 := ae_all_iff.2 fun s => ae_all_iff.2 fun b => noise (fun c a j => c.then e obs gamma H a j s b) K1 hK10 fun t ω a j => (entry_le _ s b).trans (hthen t ω a j)
  have noise2 := noise (fun c a j => dot σ n (G c.logits) (c.then e obs gamma H a j)) (‖dot σ n‖ * LG * K1) (by positivity) fun t ω a j => by
    refine ((dot σ n).le_opNorm₂ _ _).trans ?_
    exact mul_le_mul (mul_le_mul_of_nonneg_left (hLG _) (by positivity)) (hthen t ω a j) (norm_nonneg _) (by positivity)
  refine ⟨C, hrun, ?_⟩
  filter_upwards [noise1, noise2] with ω hn1 hn2
  -- one path
  let a : ℕ → ℝ := fun i => lr (C i ω).updates
  let b : ℕ → ℝ := fun i => if e.ends (C i ω).x (ac i ω) (out i ω) then a i else 0
  let x : ℕ → σ → Fin n → ℝ := fun i => (C i ω).logits
  let y : ℕ → σ → Fin n → ℝ := fun i => x i + a i • ((C i ω).hope e obs gamma H - D (x i))
  let ξ : ℕ → σ → Fin n → ℝ := fun i => (C i ω).then e obs gamma H (ac i ω) (out i ω) - (C i ω).hope e obs gamma H
  let rest : ℕ → σ → Fin n → ℝ := fun i => y (i + 1) - y i - a i • ξ i - b i • D (x i)
  have ha0 : ∀ i, 0 ≤ a i := fun i => hl.nonneg _
  have hrest : ∀ i, ‖rest i‖ ≤ off σ n H |R| (a i) (a (i + 1)) ∧ a (i + 1) ≤ a i := by
    intro i
    have hoff : ∀ {p q : ℝ}, 0 ≤ p → q ≤ p → 0 ≤ off σ n H |R| p q := by
      intro p q hp hq
      have := sub_nonneg.2 hq
      unfold off
      positivity
    cases hj : e.ends (C i ω).x (ac i ω) (out i ω)
    · obtain ⟨g1, g2, g3⟩ := (hspec i ω).2.2.2.1 hj
      rw [← hnext] at g1 g2 g3
      have e1 : a (i + 1) = a i := congrArg lr g2
      have e2 : x (i + 1) = x i := g1
      have e3 : (C (i + 1) ω).hope e obs gamma H = (C i ω).then e obs gamma H (ac i ω) (out i ω) := by
        unfold Climb.hope Climb.then
        rw [hj, g1, g3, show (C (i + 1) ω).x = e.next (C i ω).x (ac i ω) (out i ω) from (hspec i ω).2.1]
        simp only [Bool.false_eq_true, if_false]
        abel
      have e4 : rest i = 0 := by
        simp only [rest, y, ξ, b, hj, e1, e2, e3]
        simp only [Bool.false_eq_true, if_false]
        module
      rw [e4, norm_zero, e1]
      exact ⟨hoff (ha0 i) le_rfl, le_rfl⟩
    · obtain ⟨g1, g2, g3⟩ := (hspec i ω).2.2.2.2 hj
      rw [← hnext] at g1 g2 g3
      have e1 : a (i + 1) ≤ a i := hl.antitone (by rw [g1]; omega)
      have e2 : (C (i + 1) ω).x = x0 := ((hspec i ω).2.1).trans (hep.start _ _ _ hj)
      have e3 : (C (i + 1) ω).hope e obs gamma H = D (x (i + 1)) := by
        unfold Climb.hope
        rw [g2, e2]
        simp [eligible, D, x]
      have e4 : rest i = x (i + 1) - x i - a i • (eligible gamma (x i) ((C i ω).tracer.list ++ [(C i ω).traced e obs (ac i ω) (out i ω)])).1 := by
        have e5 : (C i ω).then e obs gamma H (ac i ω) (out i ω) = (eligible gamma (x i) ((C i ω).tracer.list ++ [(C i ω).traced e obs (ac i ω) (out i ω)])).1 := by
          unfold Climb.then
          rw [hj]
          simp [x]
        simp only [rest, y, ξ, b, hj, e3, e5, if_true]
        module
      rw [e4]
      exact ⟨g3, e1⟩
  have hrests : Summable fun i => ‖rest i‖ := by
    have hasq : Summable fun i => a i ^ 2 := Summable.of_nonneg_of_le (fun i => sq_nonneg _) (fun i => pow_le_pow_left₀ (ha0 i) (hrate i ω) 2) hsq
    have htel : Summable fun i => a i - a (i + 1) := by
      refine summable_of_sum_range_le (c := a 0) (fun i => sub_nonneg.2 (hrest i).2) fun k => ?_
      rw [Finset.sum_range_sub']
      linarith [ha0 k]
    have : Summable fun i => off σ n H |R| (a i) (a (i + 1)) := by
      have h2 := ((htel.mul_right ((H : ℝ) * |R|)).add (hasq.mul_left ((H * |R|) * (‖dot σ n‖ * (H * (H * |R|)))))).mul_left (H : ℝ)
      refine h2.congr fun i => ?_
      unfold off
      ring
    exact Summable.of_nonneg_of_le (fun i => norm_nonneg _) (fun i => (hrest i).1) this
  have hforever : ¬ Summable b := by
    intro hb
    have hbn : ∀ i, 0 ≤ b i := fun i => by simp only [b]; split; exacts [ha0 i, le_rfl]
    have hsum : ∀ i, ∑ k ∈ Finset.range (C i ω).updates, lr k ≤ H * ∑ k ∈ Finset.range i, b k := by
      intro i
      induction i with
      | zero => simp [C, Climb.path, Climb.init]
      | succ i ih =>
        rw [Finset.sum_range_succ, mul_add]
        cases hj : e.ends (C i ω).x (ac i ω) (out i ω)
        · have g2 := ((hspec i ω).2.2.2.1 hj).2.1
          rw [← hnext] at g2
          rw [g2]
          have := mul_nonneg (Nat.cast_nonneg (α := ℝ) H) (hbn i)
          linarith
        · have g1 := ((hspec i ω).2.2.2.2 hj).1
          rw [← hnext] at g1
          rw [g1, Finset.sum_range_add]
          refine add_le_add ih ?_
          have hbi : b i = a i := by simp [b, hj]
          rw [hbi]
          calc ∑ k ∈ Finset.range ((C i ω).tracer.list.length + 1), lr ((C i ω).updates + k) ≤ ∑ k ∈ Finset.range ((C i ω).tracer.list.length + 1), a i := Finset.sum_le_sum fun k _ => hl.antitone (by omega)
            _ = ((C i ω).tracer.list.length + 1 : ℕ) * a i := by rw [Finset.sum_const, Finset.card_range, nsmul_eq_mul]
            _ ≤ H * a i := mul_le_mul_of_nonneg_right (by exact_mod_cast hlist i ω) (ha0 i)
    refine hl.infinite (summable_of_sum_range_le (c := H * ∑' k, b k) hl.nonneg fun N => ?_)
    have h2 : N ≤ (C (N + H) ω).updates := by have := hlen (N + H) ω; have := hlist (N + H) ω; omega
    calc ∑ k ∈ Finset.range N, lr k ≤ ∑ k ∈ Finset.range (C (N + H) ω).updates, lr k := Finset.sum_le_sum_of_subset_of_nonneg (Finset.range_mono h2) fun k _ _ => hl.nonneg k
      _ ≤ H * ∑ k ∈ Finset.range (N + H), b k := hsum _
      _ ≤ _ := mul_le_mul_of_nonneg_left (hb.sum_le_tsum _ fun k _ => hbn k) (by positivity)
  refine ⟨y, ξ, rest, a, b, 2 * K1 + |Kd|, by positivity, fun K' hK' => {
    move := fun i => by simp only [rest]; abel
    near := fun i => by
      have e1 : y i - x i = a i • ((C i ω).hope e obs gamma H - D (x i)) := by simp only [y]; abel
      rw [e1, norm_smul, Real.norm_eq_abs, abs_of_nonneg (ha0 i), mul_comm]
      refine mul_le_mul_of_nonneg_right ((norm_sub_le _ _).trans ?_) (ha0 i)
      have := hhope i ω
      have := hwayb (x i) x0
      simp only [D]
      linarith
    noise_le := fun i => by
      refine (norm_sub_le _ _).trans ?_
      have := hhope i ω
      have := hthen i ω (ac i ω) (out i ω)
      have := abs_nonneg Kd
      linarith
    b_nonneg := fun i => by simp only [b]; split; exacts [ha0 i, le_rfl]
    b_le := fun i => by simp only [b]; split; exacts [le_rfl, ha0 i]
    squares := Summable.of_nonneg_of_le (fun i => sq_nonneg _) (fun i => pow_le_pow_left₀ (ha0 i) (hrate i ω) 2) hsq
    rest := hrests
    forever := hforever
    noise := by
      choose S hS using hn1
      refine ⟨S, tendsto_pi_nhds.2 fun s => tendsto_pi_nhds.2 fun b => (hS s b).congr fun k => ?_⟩
      rw [Finset.sum_apply, Finset.sum_apply]
      refine Finset.sum_congr rfl fun i _ => ?_
      simp only [ξ, Pi.smul_apply, Pi.sub_apply, smul_eq_mul, a, hmean (C i ω), Finset.sum_apply]
      rfl
    noise_grad := by
      obtain ⟨S, hS⟩ := hn2
      refine ⟨S, hS.congr fun k => Finset.sum_congr rfl fun i _ => ?_⟩
      simp only [ξ, a, x]
      rw [map_sub, hmean (C i ω)]
      simp only [map_sum, map_smul, smul_eq_mul]
      rfl }⟩

/-! ### The properties -/

/-- **C137**, the loop of `doc/examples/frozen_lake/reinforce.py` with a table of logits: actions are drawn from the policy that is being learned, and outcomes by an environment with finite episodes, of whose state the policy sees an observation.  Nothing raises.
Almost surely the expected return of the policy converges, and all of its partial derivatives tend to zero; provided (which is what makes it partial) that there is no discounting, or that the policy sees the state (with the time that is left). -/
theorem C137_climbs_partial [Fintype σ] [Finite X] [MeasurableSpace V] (hn : 0 < n) {e : Mdp X n m} (he : e.Proper) {x0 : X} {rank : X → ℕ} (hep : e.Episodic x0 rank) {obs : X → σ} {gamma : ℝ} (hgam : gamma = 1 ∨ 0 < gamma ∧ gamma ≤ 1 ∧ Function.Injective obs)
    {νV : Measure V} {env : Game X n V} {chance : X → Fin n → V → Fin m} (hg : env.Is νV e chance) {lr : ℕ → ℝ} (hl : Decreasing lr) {draw : List (Fin n) → Option (Fin n)} (hd : Draws draw) {tau : ℝ} (htau : 0 < tau)
    {μ : Measure Ω} [IsProbabilityMeasure μ] {ℋ : Filtration ℕ m0} {u : ℕ → Ω → Fin n → ℝ} {v : ℕ → Ω → V} (hv : Variates μ ℋ (uniforms n) νV u v) (θ0 : σ → Fin n → ℝ) :
    ∃ J : (σ → Fin n → ℝ) → ℝ, (∀ θ, e.Worth gamma 0 (calls draw tau fun x => θ (obs x)) x0 (J θ)) ∧
      (∀ θ s a, DifferentiableAt ℝ (fun y => J (setEntry θ s a y)) (θ s a)) ∧
      ∃ C : ℕ → Ω → Climb X σ n, (∀ k ω, Climb.run lr draw tau env obs (Climb.init gamma x0 θ0) ((List.range k).map fun t => (u t ω, v t ω)) = .ok (C k ω)) ∧
        ∀ᵐ ω ∂μ, (∃ l, Tendsto (fun k => J (C k ω).logits) atTop (𝓝 l)) ∧
          ∀ s a, Tendsto (fun k => deriv (fun y => J (setEntry (C k ω).logits s a y)) ((C k ω).logits s a)) atTop (𝓝 0) := by
  have h0 : 0 ≤ gamma := by rcases hgam with h | ⟨h, -, -⟩ <;> linarith
  have h1 : gamma ≤ 1 := by rcases hgam with h | ⟨-, h, -⟩ <;> linarith
  obtain ⟨H, hH⟩ : ∃ H, ∀ x, rank x < H := by
    obtain ⟨H, hH⟩ := (Set.finite_range rank).bddAbove
    exact ⟨H + 1, fun x => Nat.lt_succ_of_le (hH ⟨x, rfl⟩)⟩
  obtain ⟨L, hL⟩ := val_smooth e obs gamma (n := n) (σ := σ) H x0
  obtain ⟨Kd, hKd, hup⟩ := way_up (H := H) he hep.finite hH hgam
  obtain ⟨C, hrun, hC⟩ := Climb.ascends hn he hep hH (obs := obs) h0 h1 hg hl hd htau hv θ0 hL.grad_le
  refine ⟨fun θ => val e obs gamma H θ x0, fun θ => val_worth hep.finite hH hd htau θ x0, fun θ s a => (setEntry_deriv hL θ s a).differentiableAt, C, hrun, ?_⟩
  filter_upwards [hC] with ω ⟨y, ξ, rest, a, b, K, hK, hasc⟩
  obtain ⟨g1, g2⟩ := (hasc (K + Kd) (by linarith)).climbs (by positivity) hL (fun θ => norm_sq_le_dot (hup θ x0).1) fun θ => ((hup θ x0).2).trans (mul_le_mul_of_nonneg_right (by linarith) (norm_nonneg _))
  refine ⟨g1, fun s c => ?_⟩
  have h2 : (fun k => deriv (fun y => val e obs gamma H (setEntry (C k ω).logits s c y) x0) ((C k ω).logits s c)) = fun k => way e obs gamma gamma H (C k ω).logits x0 s c := funext fun k => (setEntry_deriv hL _ s c).deriv
  rw [h2]
  exact (tendsto_pi_nhds.1 ((tendsto_pi_nhds.1 g2) s)) c

/-! ### Episodes with two steps -/

/-- Episodes with two steps; in the first one the first action is rewarded with 1, and in the second one the second action with 3/2. -/
noncomputable def stairs : Mdp Bool 2 1 where
  prob := fun _ _ _ => 1
  reward := fun x a _ => if x then (if a = 1 then 3 / 2 else 0) else (if a = 0 then 1 else 0)
  next := fun x _ _ => !x
  ends := fun x _ _ => x

/-- The same as an environment. -/
noncomputable def stairsEnv : Game Bool 2 Unit where
  step := fun x a _ => (true, if x then (if a = 1 then 3 / 2 else 0) else (if a = 0 then 1 else 0), x)
  reset := fun _ => false

theorem stairs_proper : stairs.Proper := ⟨fun _ _ _ => zero_le_one, fun _ _ => by simp [stairs]⟩

theorem stairs_episodic : stairs.Episodic false fun x => if x then 0 else 1 where
  start x a j h := by
    have : x = true := h
    rw [this]
    rfl
  finite x a j h := by
    have : x = false := h
    rw [this]
    simp [stairs]

theorem stairsEnv_is : stairsEnv.Is (Measure.dirac ()) stairs (fun _ _ _ => 0) where
  measurable _ _ _ := MeasurableSet.of_discrete
  law x a j := by
    have : {v : Unit | (0 : Fin 1) = j} = Set.univ := by
      ext v
      simp [Subsingleton.elim (0 : Fin 1) j]
    rw [this]
    simp [stairs]
  reward _ _ _ := rfl
  ends _ _ _ := rfl
  next x a v := by cases x <;> rfl

theorem stairs_val (gamma : ℝ) (θ : Unit → Fin 2 → ℝ) : val stairs (fun _ => ()) gamma 2 θ false = 1 - meanRow (θ ()) 1 + gamma * (3 / 2 * meanRow (θ ()) 1) := by
  have h := (C49_probabilities (θ ())).2 (by norm_num)
  rw [Fin.sum_univ_two] at h
  simp [val, stairs, Fin.sum_univ_two]
  linear_combination (1 + gamma * meanRow (θ ()) 1 * (3 / 2)) * h

theorem stairs_way (gamma : ℝ) (θ : Unit → Fin 2 → ℝ) : way stairs (fun _ => ()) gamma 1 2 θ false = (1 / 2 : ℝ) • (meanRow (θ ()) 1 • scoreAt θ () 1) := by
  have h := (C49_probabilities (θ ())).2 (by norm_num)
  rw [Fin.sum_univ_two] at h
  funext s b
  have h1 : meanRow (θ ()) 0 = 1 - meanRow (θ ()) 1 := by linarith
  fin_cases b <;> simp [way, act, val, stairs, scoreAt, Fin.sum_univ_two, h1] <;> ring

/-- **C137**, episodes with two steps and a policy that does not see which step it is: with any discount factor, the loop almost surely learns to choose the second action always. -/
theorem C137_two_steps {gamma : ℝ} (h0 : 0 ≤ gamma) (h1 : gamma ≤ 1) {lr : ℕ → ℝ} (hl : Decreasing lr) {draw : List (Fin 2) → Option (Fin 2)} (hd : Draws draw) {tau : ℝ} (htau : 0 < tau)
    {μ : Measure Ω} [IsProbabilityMeasure μ] {ℋ : Filtration ℕ m0} {u : ℕ → Ω → Fin 2 → ℝ} {v : ℕ → Ω → Unit} (hv : Variates μ ℋ (uniforms 2) (Measure.dirac ()) u v) (θ0 : Unit → Fin 2 → ℝ) :
    ∃ C : ℕ → Ω → Climb Bool Unit 2, (∀ k ω, Climb.run lr draw tau stairsEnv (fun _ => ()) (Climb.init gamma false θ0) ((List.range k).map fun t => (u t ω, v t ω)) = .ok (C k ω)) ∧
      ∀ᵐ ω ∂μ, Tendsto (fun k => (uniforms 2 {u | (policyCall draw tau u ((C k ω).logits ())).1 = some 1}).toReal) atTop (𝓝 1) := by
  have hsm := (Smooth.const (dot Unit 2) (1 / 2)).mul (prob_smooth () 1)
  simp only [smul_zero, add_zero] at hsm
  obtain ⟨C, hrun, hC⟩ := Climb.ascends (by norm_num) stairs_proper stairs_episodic (H := 2) (fun x => by cases x <;> simp) (obs := fun _ => ()) h0 h1 stairsEnv_is hl hd htau hv θ0 hsm.grad_le
  refine ⟨C, hrun, ?_⟩
  filter_upwards [hC] with ω ⟨y, ξ, rest, a, b, K, hK, hasc⟩
  simp only [stairs_way] at hasc
  have hA := hasc (K + 1) (by linarith)
  obtain ⟨-, g2⟩ := hA.climbs (by positivity) hsm (fun θ => norm_sq_le_dot fun s a => by rw [pow_two]) fun θ => by
    have := norm_nonneg ((1 / 2 : ℝ) • (meanRow (θ ()) 1 • scoreAt θ () 1))
    nlinarith
  let p : ℕ → ℝ := fun k => meanRow ((C k ω).logits ()) 1
  have hp0 : ∀ k, 0 < p k := fun k => (C49_probabilities _).1 1
  have hp1 : ∀ k, p k ≤ 1 := fun k => prob_le_one _ _
  have hq : ∀ k, meanRow ((C k ω).logits ()) 0 = 1 - p k := fun k => by
    have h := (C49_probabilities ((C k ω).logits ())).2 (by norm_num)
    rw [Fin.sum_univ_two] at h
    simp only [p]
    linarith
  have hz : Tendsto (fun k => p k * (1 - p k)) atTop (𝓝 0) := by
    have h2 := (tendsto_pi_nhds.1 ((tendsto_pi_nhds.1 g2) ())) 1
    have h3 := h2.const_mul 2
    rw [Pi.zero_apply, Pi.zero_apply, mul_zero] at h3
    refine h3.congr fun k => ?_
    simp only [Pi.smul_apply, smul_eq_mul, scoreAt, if_true, p]
    ring
  -- the difference of the logits is bounded below
  obtain ⟨S, hS⟩ := hA.noise
  have hrest := hA.rest
  have hyd : ∀ k, y k () 1 - y k () 0 = (y 0 () 1 - y 0 () 0) + ((∑ i ∈ Finset.range k, a i • ξ i) () 1 - (∑ i ∈ Finset.range k, a i • ξ i) () 0) + ∑ i ∈ Finset.range k, b i * (p i * (1 - p i)) + ∑ i ∈ Finset.range k, (rest i () 1 - rest i () 0) := by
    intro k
    induction k with
    | zero => simp
    | succ k ih =>
      rw [Finset.sum_range_succ, Finset.sum_range_succ, Finset.sum_range_succ, hA.move k]
      simp only [Pi.add_apply, Pi.smul_apply, smul_eq_mul, scoreAt, if_true]
      simp only [show (0 : Fin 2) ≠ 1 by decide, if_false, hq k]
      rw [show meanRow ((C k ω).logits ()) 1 = p k from rfl]
      linear_combination ih
  have hr2 : Summable fun i => rest i () 1 - rest i () 0 := by
    refine Summable.of_norm_bounded (g := fun i => 2 * ‖rest i‖) (hrest.mul_left 2) fun i => ?_
    refine (norm_sub_le _ _).trans ?_
    have g3 := entry_le (rest i) () 1
    have g4 := entry_le (rest i) () 0
    rw [Real.norm_eq_abs, Real.norm_eq_abs]
    linarith
  have hlow : ∃ m, ∀ k, m ≤ y k () 1 - y k () 0 := by
    have t1 := (((tendsto_pi_nhds.1 ((tendsto_pi_nhds.1 hS) ())) 1).sub ((tendsto_pi_nhds.1 ((tendsto_pi_nhds.1 hS) ())) 0)).add hr2.hasSum.tendsto_sum_nat
    obtain ⟨m, hm⟩ := t1.bddBelow_range
    refine ⟨(y 0 () 1 - y 0 () 0) + m, fun k => ?_⟩
    have g3 : m ≤ _ := hm ⟨k, rfl⟩
    have g4 : 0 ≤ ∑ i ∈ Finset.range k, b i * (p i * (1 - p i)) := Finset.sum_nonneg fun i _ => mul_nonneg (hA.b_nonneg i) (mul_nonneg (hp0 i).le (by linarith [hp1 i]))
    rw [hyd k]
    simp only at g3
    linarith
  obtain ⟨m, hm⟩ := hlow
  have hab : ∃ M, ∀ k, a k ≤ M := by
    have h1 := hA.squares.tendsto_atTop_zero.sqrt
    obtain ⟨M, hM⟩ := h1.bddAbove_range
    exact ⟨M, fun k => by
      have : Real.sqrt (a k ^ 2) ≤ M := hM ⟨k, rfl⟩
      rwa [Real.sqrt_sq ((hA.b_nonneg k).trans (hA.b_le k))] at this⟩
  obtain ⟨M, hM⟩ := hab
  have hx : ∀ k, m - 2 * ((K + 1) * M) ≤ (C k ω).logits () 1 - (C k ω).logits () 0 := by
    intro k
    have n1 := (hA.near k).trans (mul_le_mul_of_nonneg_left (hM k) (by linarith))
    have g3 := (abs_le.1 ((entry_le _ () 1).trans n1)).2
    have g4 := (abs_le.1 ((entry_le _ () 0).trans n1)).1
    simp only [Pi.sub_apply] at g3 g4
    have := hm k
    linarith
  set d := m - 2 * ((K + 1) * M) with hdd
  have hpd : ∀ k, Real.exp d / (1 + Real.exp d) ≤ p k := by
    intro k
    have e1 : p k = Real.exp ((C k ω).logits () 1) / (Real.exp ((C k ω).logits () 0) + Real.exp ((C k ω).logits () 1)) := by
      simp only [p, meanRow, Dists.softmax, Fin.sum_univ_two]
    rw [e1, div_le_div_iff₀ (by positivity) (by positivity)]
    have e2 : Real.exp d * Real.exp ((C k ω).logits () 0) ≤ Real.exp ((C k ω).logits () 1) := by
      rw [← Real.exp_add]
      exact Real.exp_le_exp.2 (by linarith [hx k])
    nlinarith
  have hlim : Tendsto p atTop (𝓝 1) := by
    have hpos : 0 < Real.exp d / (1 + Real.exp d) := by positivity
    have h3 : Tendsto (fun k => 1 - p k) atTop (𝓝 0) := by
      refine squeeze_zero (g := fun k => (p k * (1 - p k)) / (Real.exp d / (1 + Real.exp d))) (fun k => by linarith [hp1 k]) (fun k => ?_) (by simpa using hz.div_const (Real.exp d / (1 + Real.exp d)))
      rw [le_div_iff₀ hpos, mul_comm]
      exact mul_le_mul_of_nonneg_right (hpd k) (by linarith [hp1 k])
    simpa using h3.const_sub 1
  refine hlim.congr fun k => ?_
  rw [show uniforms 2 {u | (policyCall draw tau u ((C k ω).logits ())).1 = some 1} = _ from C62_sample_distribution hd htau _ 1, ENNReal.toReal_ofReal ((C49_probabilities _).1 1).le]

/-- **C137** fails with discounting if the policy does not see how much time is left, as with the time limit of `FrozenLake`: here the loop almost surely learns the worst of all policies.  Every table of logits is worth more than the limit, and the one that the loop begins with is worth 7/8.  The code does not weigh the steps of an episode with `gamma ** t`. -/
theorem C137_discounting_counterexample {lr : ℕ → ℝ} (hl : Decreasing lr) {draw : List (Fin 2) → Option (Fin 2)} (hd : Draws draw) {tau : ℝ} (htau : 0 < tau)
    {μ : Measure Ω} [IsProbabilityMeasure μ] {ℋ : Filtration ℕ m0} {u : ℕ → Ω → Fin 2 → ℝ} {v : ℕ → Ω → Unit} (hv : Variates μ ℋ (uniforms 2) (Measure.dirac ()) u v) :
    ∃ J : (Unit → Fin 2 → ℝ) → ℝ, (∀ θ, stairs.Worth (1 / 2) 0 (calls draw tau fun _ => θ ()) false (J θ)) ∧ (∀ θ, 3 / 4 < J θ) ∧ J 0 = 7 / 8 ∧
      ∃ C : ℕ → Ω → Climb Bool Unit 2, (∀ k ω, Climb.run lr draw tau stairsEnv (fun _ => ()) (Climb.init (1 / 2) false 0) ((List.range k).map fun t => (u t ω, v t ω)) = .ok (C k ω)) ∧
        ∀ᵐ ω ∂μ, Tendsto (fun k => J (C k ω).logits) atTop (𝓝 (3 / 4)) := by
  obtain ⟨C, hrun, hC⟩ := C137_two_steps (gamma := 1 / 2) (by norm_num) (by norm_num) hl hd htau hv 0
  refine ⟨fun θ => val stairs (fun _ => ()) (1 / 2) 2 θ false, fun θ => val_worth (rank := fun x => if x then 0 else 1) stairs_episodic.finite (fun x => by cases x <;> simp) hd htau θ false, fun θ => ?_, ?_, C, hrun, ?_⟩
  · have h := (C49_probabilities (θ ())).2 (by norm_num)
    have h0 := (C49_probabilities (θ ())).1 0
    rw [Fin.sum_univ_two] at h
    beta_reduce
    rw [stairs_val]
    linarith
  · have h : meanRow ((0 : Unit → Fin 2 → ℝ) ()) 1 = 1 / 2 := by
      simp [meanRow, Dists.softmax]
    beta_reduce
    rw [stairs_val, h]
    norm_num
  · filter_upwards [hC] with ω hω
    have h : Tendsto (fun k => meanRow ((C k ω).logits ()) 1) atTop (𝓝 1) := hω.congr fun k => by
      rw [show uniforms 2 {u | (policyCall draw tau u ((C k ω).logits ())).1 = some 1} = _ from C62_sample_distribution hd htau _ 1, ENNReal.toReal_ofReal ((C49_probabilities _).1 1).le]
    simp only [stairs_val]
    have h2 := (h.const_sub 1).add ((h.const_mul (3 / 2)).const_mul (1 / 2))
    convert h2 using 2
    norm_num

/-- **C137**, the same episodes without discounting: the loop almost surely learns the best of all policies. -/
theorem C137_undiscounted {lr : ℕ → ℝ} (hl : Decreasing lr) {draw : List (Fin 2) → Option (Fin 2)} (hd : Draws draw) {tau : ℝ} (htau : 0 < tau)
    {μ : Measure Ω} [IsProbabilityMeasure μ] {ℋ : Filtration ℕ m0} {u : ℕ → Ω → Fin 2 → ℝ} {v : ℕ → Ω → Unit} (hv : Variates μ ℋ (uniforms 2) (Measure.dirac ()) u v) (θ0 : Unit → Fin 2 → ℝ) :
    ∃ J : (Unit → Fin 2 → ℝ) → ℝ, (∀ θ, stairs.Worth 1 0 (calls draw tau fun _ => θ ()) false (J θ)) ∧ (∀ θ, J θ < 3 / 2) ∧
      ∃ C : ℕ → Ω → Climb Bool Unit 2, (∀ k ω, Climb.run lr draw tau stairsEnv (fun _ => ()) (Climb.init 1 false θ0) ((List.range k).map fun t => (u t ω, v t ω)) = .ok (C k ω)) ∧
        ∀ᵐ ω ∂μ, Tendsto (fun k => J (C k ω).logits) atTop (𝓝 (3 / 2)) := by
  obtain ⟨C, hrun, hC⟩ := C137_two_steps (gamma := 1) (by norm_num) (by norm_num) hl hd htau hv θ0
  refine ⟨fun θ => val stairs (fun _ => ()) 1 2 θ false, fun θ => val_worth (rank := fun x => if x then 0 else 1) stairs_episodic.finite (fun x => by cases x <;> simp) hd htau θ false, fun θ => ?_, C, hrun, ?_⟩
  · have h := (C49_probabilities (θ ())).2 (by norm_num)
    have h0 := (C49_probabilities (θ ())).1 0
    rw [Fin.sum_univ_two] at h
    beta_reduce
    rw [stairs_val]
    linarith
  · filter_upwards [hC] with ω hω
    have h : Tendsto (fun k => meanRow ((C k ω).logits ()) 1) atTop (𝓝 1) := hω.congr fun k => by
      rw [show uniforms 2 {u | (policyCall draw tau u ((C k ω).logits ())).1 = some 1} = _ from C62_sample_distribution hd htau _ 1, ENNReal.toReal_ofReal ((C49_probabilities _).1 1).le]
    simp only [stairs_val]
    have h2 := (h.const_sub 1).add ((h.const_mul (3 / 2)).const_mul 1)
    convert h2 using 2
    norm_num

/-! ### The hypotheses can be met -/

theorem head_draws : Draws (n := 2) List.head? := by
  intro l hl
  cases l with
  | nil => exact absurd rfl hl
  | cons a l => exact ⟨a, by simp, rfl⟩

theorem decreasing_harmonic : Decreasing fun t => 1 / ((t : ℝ) + 1) where
  nonneg := slow_harmonic.nonneg
  antitone a b h := one_div_le_one_div_of_le (by positivity) (by have : (a : ℝ) ≤ b := Nat.cast_le.2 h; linarith)
  squares := slow_harmonic.squares
  infinite := slow_harmonic.infinite

/-- Variates, learning rates and an environment with which the loop learns the worst policy. -/
example : ∃ (u : ℕ → (ℕ → (Fin 2 → ℝ) × Unit) → Fin 2 → ℝ) (v : ℕ → (ℕ → (Fin 2 → ℝ) × Unit) → Unit) (C : ℕ → (ℕ → (Fin 2 → ℝ) × Unit) → Climb Bool Unit 2),
    (∀ k ω, Climb.run (fun t => 1 / ((t : ℝ) + 1)) List.head? 1 stairsEnv (fun _ => ()) (Climb.init (1 / 2) false 0) ((List.range k).map fun t => (u t ω, v t ω)) = .ok (C k ω)) ∧
      ∀ᵐ ω ∂(Measure.infinitePi fun _ : ℕ => (uniforms 2).prod (Measure.dirac ())), Tendsto (fun k => (uniforms 2 {u | (policyCall List.head? 1 u ((C k ω).logits ())).1 = some 1}).toReal) atTop (𝓝 1) := by
  obtain ⟨ℋ, u, v, hv⟩ := C131_variates (uniforms 2) (Measure.dirac ())
  obtain ⟨C, h⟩ := C137_two_steps (gamma := 1 / 2) (by norm_num) (by norm_num) decreasing_harmonic (draw := List.head?) head_draws one_pos hv 0
  exact ⟨u, v, C, h⟩

/-- A policy that sees the state, with discounting, meets the hypotheses of `C137_climbs_partial`. -/
example : ∃ (J : (Bool → Fin 2 → ℝ) → ℝ) (u : ℕ → (ℕ → (Fin 2 → ℝ) × Unit) → Fin 2 → ℝ) (v : ℕ → (ℕ → (Fin 2 → ℝ) × Unit) → Unit) (C : ℕ → (ℕ → (Fin 2 → ℝ) × Unit) → Climb Bool Bool 2),
    (∀ k ω, Climb.run (fun t => 1 / ((t : ℝ) + 1)) List.head? 1 stairsEnv id (Climb.init (9 / 10) false 0) ((List.range k).map fun t => (u t ω, v t ω)) = .ok (C k ω)) ∧
      (∀ θ, stairs.Worth (9 / 10) 0 (calls List.head? 1 fun x => θ (id x)) false (J θ)) ∧
      ∀ᵐ ω ∂(Measure.infinitePi fun _ : ℕ => (uniforms 2).prod (Measure.dirac ())), (∃ l, Tendsto (fun k => J (C k ω).logits) atTop (𝓝 l)) ∧
        ∀ s a, Tendsto (fun k => deriv (fun y => J (setEntry (C k ω).logits s a y)) ((C k ω).logits s a)) atTop (𝓝 0) := by
  obtain ⟨ℋ, u, v, hv⟩ := C131_variates (uniforms 2) (Measure.dirac ())
  obtain ⟨J, hJ, -, C, h⟩ := C137_climbs_partial (by norm_num) stairs_proper stairs_episodic (obs := id) (gamma := 9 / 10) (.inr ⟨by norm_num, by norm_num, Function.injective_id⟩) stairsEnv_is decreasing_harmonic (draw := List.head?) head_draws one_pos hv 0
  exact ⟨J, u, v, C, h.1, hJ, h.2⟩

end Coax.Loop
