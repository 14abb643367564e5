import Verif.Loop.DqnActingLemmas

/-! Property C142: an agent that acts on the values that it learns from a replay buffer learns the optimal values, if episodes do not end. -/

namespace Coax.Loop

open Coax.RewardTracing Coax.Replay Coax.TD Coax.Core Coax.Values Coax.Pol Coax.Dists Filter Topology MeasureTheory

variable {σ G U V : Type _} {n m : Nat}

/-! ### Specification -/

section

variable {Ω : Type _} {m0 : MeasurableSpace Ω} [MeasurableSpace U] [MeasurableSpace V]

/-- The generator of the replay buffer: it draws distinct positions; it is independent of the random numbers of agent and environment (all draws may be known before these are drawn, and these may all be known before the draws are made); and given
the draws so far the newest transition is drawn with at least some probability. -/
structure Shuffles (draw : G → Nat → Nat → List Nat × G) (cap warm batch : ℕ) (g : Ω → G) (μ : Measure Ω) (ℋ : Filtration ℕ m0) (u : ℕ → Ω → U) (v : ℕ → Ω → V) : Prop where
  distinct : DrawsDistinct draw
  sizes : 1 ≤ batch ∧ batch ≤ warm ∧ warm ≤ cap
  known : ∀ k l, MeasurableSet[ℋ 0] {ω | drawn draw cap warm batch (g ω) k = l}
  newest : ∃ (𝒢 : Filtration ℕ m0) (δ : ℝ), 0 < δ ∧ (∀ k l, MeasurableSet[𝒢 (k + 1)] {ω | drawn draw cap warm batch (g ω) k = l}) ∧ (∀ t, Measurable[𝒢 0] (u t)) ∧ (∀ t, Measurable[𝒢 0] (v t)) ∧
    ∀ k, ∀ᵐ ω ∂μ, δ ≤ (μ[Set.indicator {ω | min cap (warm + k) - 1 ∈ drawn draw cap warm batch (g ω) k} (fun _ => (1 : ℝ)) | 𝒢 k]) ω

end

/-! ### What is known when -/

section known

variable [DecidableEq σ] {Ω : Type _} [MeasurableSpace U] [MeasurableSpace V] {νV : Measure V} {u : ℕ → Ω → U} {v : ℕ → Ω → V} {D : ℕ → Ω → List ℕ}
  {lr : ℕ → ℝ} {tau gamma : ℝ} {updateRule : QFn (σ → Fin n → ℝ) σ (List ℝ) → QFn (σ → Fin n → ℝ) σ (List ℝ) → TBatch σ (List ℝ) → Except Err (List ℝ)} {type1 : Bool} {cap warm : ℕ} {e : Mdp σ n m} {pi : ℕ → (Fin n → ℝ) → U → Option (Fin n)}
  {A : ℕ → (Fin n → ℝ) → U → Fin n} {env : Game σ n V} {chance : σ → Fin n → V → Fin m} {z0 : Seen σ n}

omit [DecidableEq σ] [MeasurableSpace V] in
theorem Seen.knows_action (hA : ∀ t row u, pi t row u = some (A t row u)) (hm : ∀ t row a, MeasurableSet {u | pi t row u = some a}) {F F' : MeasurableSpace Ω} (hF : F ≤ F') {X : Ω → Seen σ n} (hX : Knows F X) {u : Ω → U} (hu : Measurable[F'] u) (t : ℕ) :
    Knows F' fun ω => A t ((X ω).q (X ω).s) (u ω) := by
  refine ⟨Set.to_countable _, fun a => ?_⟩
  have := hX.draw hF hu (E := fun x => {u | pi t (x.q x.s) u = some a}) fun x => hm _ _ _
  refine (congrArg (MeasurableSet[F']) ?_).mpr this
  ext ω
  simp [hA]

theorem Seen.knows (hA : ∀ t row u, pi t row u = some (A t row u)) (hm : ∀ t row a, MeasurableSet {u | pi t row u = some a}) (hg : env.Is νV e chance) {𝒦 : ℕ → MeasurableSpace Ω} (hmono : ∀ t, 𝒦 t ≤ 𝒦 (t + 1))
    (hu : ∀ t, Measurable[𝒦 (t + 1)] (u t)) (hv : ∀ t, Measurable[𝒦 (t + 1)] (v t)) (hD : ∀ t, warm ≤ t → ∀ l, MeasurableSet[𝒦 (t + 1)] {ω | D (t - warm) ω = l}) (t : ℕ) :
    Knows (𝒦 t) fun ω => Seen.path lr tau gamma updateRule type1 cap warm e A chance z0 (fun t => (u t ω, v t ω)) (fun k => D k ω) t := by
  induction t with
  | zero => exact Knows.const _ _
  | succ t ih =>
    have ha := Seen.knows_action hA hm (hmono t) ih (hu t) t
    have ih' := ih.mono (hmono t)
    have hj : Knows (𝒦 (t + 1)) fun ω => Seen.out lr tau gamma updateRule type1 cap warm e A chance z0 (fun t => (u t ω, v t ω)) (fun k => D k ω) t :=
      ⟨Set.to_countable _, fun j => ((ih'.map fun z => z.s).pair ha).draw le_rfl (hv t) (E := fun p => {v | chance p.1 p.2 v = j}) fun p => hg.measurable _ _ _⟩
    have hd : Knows (𝒦 (t + 1)) fun ω => if warm ≤ t then D (t - warm) ω else [] := by
      by_cases ht : warm ≤ t
      · simp only [if_pos ht]
        exact ⟨Set.to_countable _, fun l => hD t ht l⟩
      · simp only [if_neg ht]
        exact Knows.const _ _
    exact (((ih'.pair ha).pair hj).pair hd).map fun p => Seen.next lr tau gamma updateRule type1 cap warm e t p.1.1.1 p.1.1.2 p.1.2 p.2

end known

/-! ### Convergence -/

section

variable [DecidableEq σ]

theorem Pupil.run_append {draw : G → Nat → Nat → List Nat × G} {lr : ℕ → ℝ} {tau : ℝ} {L : LossFn} {updateRule} {type1 : Bool} {warm batch : ℕ} {pi : ℕ → (Fin n → ℝ) → U → Option (Fin n)} {env : Game σ n V} {x y : Pupil σ n G} {ws : List (U × V)}
    (h : Pupil.run draw lr tau L updateRule type1 warm batch pi env x ws = .ok y) (w : U × V) :
    Pupil.run draw lr tau L updateRule type1 warm batch pi env x (ws ++ [w]) = Pupil.step draw lr tau L updateRule type1 warm batch pi env y w := by
  induction ws generalizing x with
  | nil =>
    cases h
    rw [List.nil_append, Pupil.run]
    cases h : Pupil.step draw lr tau L updateRule type1 warm batch pi env y w <;> simp [Pupil.run]
  | cons s ws ih =>
    rw [Pupil.run] at h
    rw [List.cons_append, Pupil.run]
    split at h
    · cases h
    · exact ih h

theorem Pupil.converges {Ω : Type} {m0 : MeasurableSpace Ω} [Fintype σ] [MeasurableSpace U] [MeasurableSpace V] {μ : Measure Ω} [IsProbabilityMeasure μ] {ℋ : Filtration ℕ m0} {νU : Measure U} {νV : Measure V} {u : ℕ → Ω → U} {v : ℕ → Ω → V}
    (hv : Variates μ ℋ νU νV u v) {draw : G → Nat → Nat → List Nat × G} {cap warm batch : ℕ} {g : Ω → G} (hs : Shuffles draw cap warm batch g μ ℋ u v) {updateRule} {type1 : Bool} {boot : σ → (Fin n → ℝ) → ℝ → Prop} (hr : Rule updateRule type1 boot) (hn : 0 < n)
    {e : Mdp σ n m} (he : e.Proper) (hend : e.Endless) (hc : e.Connected) {env : Game σ n V} {chance : σ → Fin n → V → Fin m} (hg : env.Is νV e chance) {pi : ℕ → (Fin n → ℝ) → U → Option (Fin n)} (hpi : Tries νU pi)
    {gamma : ℝ} (h0 : 0 ≤ gamma) (h1 : gamma < 1) {lr : ℕ → ℝ} (hl : Slow lr) (hanti : Antitone lr) {tau : ℝ} (t0 : 0 < tau) (t1 : tau ≤ 1) {best : σ → Fin n → ℝ} (hbest : e.Solves gamma boot best) (s0 : σ) (θ0 θT0 : σ → Fin n → ℝ) :
    ∃ (X : ℕ → Ω → Pupil σ n G) (xs : ℕ → Ω → Step σ (Fin n) ℝ) (out : ℕ → Ω → Fin m), (∀ k ω, Pupil.run draw lr tau mse1 updateRule type1 warm batch pi env (Pupil.init gamma cap (g ω) s0 θ0 θT0) ((List.range k).map fun t => (u t ω, v t ω)) = .ok (X k ω)) ∧
      Steps e μ ℋ xs out ∧
      (∀ k ω, (xs k ω).s = (X k ω).s ∧ (X k ω).T = k ∧ (X k ω).trainee.updates = k - warm) ∧
      (∀ k a, μ[Set.indicator {ω | (xs k ω).a = a} (fun _ => (1 : ℝ)) | ℋ (2 * k)] =ᵐ[μ] fun ω => νU.real {u | pi k ((X k ω).trainee.q (X k ω).s) u = some a}) ∧
      (∀ k ω, Trainee.run draw lr tau mse1 updateRule type1 warm batch ⟨Agent.init 1 gamma cap (g ω), θ0, θT0, 0⟩ ((List.range k).map fun t => (xs t ω, false)) = .ok (X k ω).trainee) ∧
      ∀ᵐ ω ∂μ, ∀ s a, Tendsto (fun k => (X k ω).trainee.q s a) atTop (𝓝 (best s a)) ∧ Tendsto (fun k => (X k ω).trainee.qTarg s a) atTop (𝓝 (best s a)) := by
  choose A hA using hpi.answers
  choose val hval using hr.value
  obtain ⟨b1, b2, b3⟩ := hs.sizes
  set D : ℕ → Ω → List ℕ := fun k ω => drawn draw cap warm batch (g ω) k with hDdef
  have hdr := fun k ω => hs.distinct (generator draw cap warm batch (g ω) k) (min cap (warm + k)) batch (by omega)
  have hne : ∀ k ω, D k ω ≠ [] := fun k ω h => by
    have h2 := (hdr k ω).1
    rw [show (draw (generator draw cap warm batch (g ω) k) (min cap (warm + k)) batch).1 = D k ω from rfl, h] at h2
    simp only [List.length_nil] at h2
    omega
  have hpos : ∀ k ω, ∀ p ∈ D k ω, p < min cap (warm + k) := fun k ω => (hdr k ω).2.2
  -- a bound for the values
  obtain ⟨R, hR⟩ := Coax.Loop.bounded fun p : σ × Fin n × Fin m => e.reward p.1 p.2.1 p.2.2
  obtain ⟨T, hT⟩ := Coax.Loop.bounded fun p : σ × Fin n => θ0 p.1 p.2
  obtain ⟨T', hT'⟩ := Coax.Loop.bounded fun p : σ × Fin n => θT0 p.1 p.2
  obtain ⟨c', hc'⟩ := Coax.Loop.bounded fun s : σ => val s fun _ => 0
  set c : ℝ := max c' 0 with hcdef
  have hcb : ∀ s z, boot s (fun _ => 0) z → |z| ≤ c := fun s z hz => by
    rw [hr.unique hz (hval s fun _ => 0)]
    exact (hc' s).trans (le_max_left _ _)
  have g1 : 0 < 1 - gamma := by linarith
  set B : ℝ := max (max T T') ((R + gamma * c) / (1 - gamma)) with hB
  have hBB : R + gamma * (c + B) ≤ B := by
    have h2 := (div_le_iff₀ g1).1 (le_max_right (max T T') ((R + gamma * c) / (1 - gamma)))
    rw [← hB] at h2
    linarith
  -- the path
  let z0 : Seen σ n := ⟨s0, θ0, θT0, fun _ => ⟨s0, ⟨0, hn⟩, 0, 0, 1⟩⟩
  let ws : Ω → ℕ → U × V := fun ω t => (u t ω, v t ω)
  let Z : ℕ → Ω → Seen σ n := fun t ω => Seen.path lr tau gamma updateRule type1 cap warm e A chance z0 (ws ω) (fun k => D k ω) t
  let xs : ℕ → Ω → Step σ (Fin n) ℝ := fun t ω => Seen.traced lr tau gamma updateRule type1 cap warm e A chance z0 (ws ω) (fun k => D k ω) t
  let out : ℕ → Ω → Fin m := fun t ω => Seen.out lr tau gamma updateRule type1 cap warm e A chance z0 (ws ω) (fun k => D k ω) t
  have hZB : ∀ t ω, ∀ s a, |(Z t ω).q s a| ≤ B := fun t ω => (Seen.bounded lr tau gamma updateRule type1 cap warm e A chance z0 (ws ω) (fun k => D k ω) hr hn h0 hl.nonneg hl.le t0.le t1 (fun k => hne k ω) (fun k => hpos k ω) (fun s a j => hR (s, a, j)) (le_max_right _ _) hcb hBB
    (fun s a => (hT (s, a)).trans ((le_max_left _ _).trans (le_max_left _ _))) (fun s a => (hT' (s, a)).trans ((le_max_right _ _).trans (le_max_left _ _))) t).1
  -- what the outcomes depend on
  have hZ : ∀ t, Knows (ℋ (2 * t)) (Z t) := fun t => Seen.knows (𝒦 := fun t => ℋ (2 * t)) hA hpi.measurable hg (fun t => ℋ.mono (by omega)) (fun t => (hv.u_known t).mono (ℋ.mono (by omega)) le_rfl) (fun t => (hv.v_known t).mono (ℋ.mono (by omega)) le_rfl)
    (fun t _ l => ℋ.mono (Nat.zero_le _) _ (hs.known (t - warm) l)) t
  have hS : ∀ t, Knows (ℋ (2 * t)) fun ω => (xs t ω).s := fun t => (hZ t).map fun x => x.s
  have ha : ∀ t, Knows (ℋ (2 * t + 1)) fun ω => (xs t ω).a := fun t => Seen.knows_action hA hpi.measurable (ℋ.mono (by omega)) (hZ t) (hv.u_known t) t
  have hS' : ∀ t, Knows (ℋ (2 * t + 1)) fun ω => (xs t ω).s := fun t => (hS t).mono (ℋ.mono (by omega))
  have ho : ∀ t, Knows (ℋ (2 * t + 2)) (out t) := fun t => knows_outcome hv hg (hS' t) (ha t)
  obtain ⟨eps, heps, hexp⟩ := hpi.explores B
  have hact : ∀ t a, μ[Set.indicator {ω | (xs t ω).a = a} (fun _ => (1 : ℝ)) | ℋ (2 * t)] =ᵐ[μ] fun ω => νU.real {u | pi t ((Z t ω).q (Z t ω).s) u = some a} := by
    intro t a
    have h2 := freeze (μ := μ) (ℋ.le (2 * t)) (hZ t) ((hv.u_known t).mono (ℋ.le _) le_rfl) (hv.u_new t) (hv.u_law t) (E := fun z => {u | pi t (z.q z.s) u = some a}) fun x => hpi.measurable _ _ _
    have h3 : {ω | (xs t ω).a = a} = {ω | u t ω ∈ {u | pi t ((Z t ω).q (Z t ω).s) u = some a}} := by
      ext ω
      simp only [Set.mem_ofPred_eq, hA, Option.some.injEq]
      rfl
    rw [h3]
    exact h2
  have hx : Explorer e μ ℋ xs out lr := {
    steps := {
      s_known := fun t s => (hS t).fiber s
      a_known := fun t a => (ha t).fiber a
      w_known := fun t => measurable_const
      out_known := fun t j => (ho t).fiber j
      law := fun t j => by
        have h2 := freeze (μ := μ) (ℋ.le (2 * t + 1)) ((hS' t).pair (ha t)) ((hv.v_known t).mono (ℋ.le _) le_rfl) (hv.v_new t) (hv.v_law t) (E := fun p => {v | chance p.1 p.2 v = j}) fun p => hg.measurable _ _ _
        refine h2.trans (Eventually.of_forall fun ω => ?_)
        exact hg.law _ _ _
      reward := fun t ω => rfl
      next := fun t ω _ => rfl
      logp := fun t ω => le_rfl
      w := fun t ω => zero_lt_one }
    explores := by
      refine ⟨eps, heps, fun t a => ?_⟩
      filter_upwards [hact t a] with ω h4
      rw [h4]
      exact hexp _ _ _ fun b => hZB t ω _ b
    connected := hc
    reset := fun t ω => rfl
    schedule := ⟨hl.nonneg, fun t ω => by
      show lr t * min (max (1 : ℝ) 0.1) 10 ≤ 1
      have : min (max (1 : ℝ) 0.1) 10 = 1 := by norm_num
      rw [this, mul_one]; exact hl.le t, hl.squares⟩
    infinite := hl.infinite
    slow := hl.slow }
  -- what the draws do not depend on
  have hdraws : Draws draw cap warm batch g μ ℋ xs := by
    refine ⟨hs.distinct, hs.sizes, hs.known, ?_⟩
    obtain ⟨𝒢, δ, d1, d2, d3, d4, d5⟩ := hs.newest
    refine ⟨𝒢, δ, d1, d2, fun k s a => ?_, d5⟩
    have hZ' : ∀ t, Knows (𝒢 (t - warm)) (Z t) := fun t => Seen.knows (𝒦 := fun t => 𝒢 (t - warm)) hA hpi.measurable hg (fun t => 𝒢.mono (by omega)) (fun t => (d3 t).mono (𝒢.mono (Nat.zero_le _)) le_rfl) (fun t => (d4 t).mono (𝒢.mono (Nat.zero_le _)) le_rfl)
      (fun t ht l => by
        have := d2 (t - warm) l
        rwa [show t - warm + 1 = t + 1 - warm by omega] at this) t
    have hle : 𝒢 (k + (warm - 1) - warm) ≤ 𝒢 k := 𝒢.mono (by omega)
    have h2 : Knows (𝒢 k) fun ω => (xs (k + (warm - 1)) ω).s := ((hZ' _).mono hle).map fun z => z.s
    have h3 : Knows (𝒢 k) fun ω => (xs (k + (warm - 1)) ω).a := Seen.knows_action hA hpi.measurable hle (hZ' _) ((d3 _).mono (𝒢.mono (Nat.zero_le _)) le_rfl) _
    exact (h2.fiber s).inter (h3.fiber a)
  obtain ⟨L, hL, hconv⟩ := Trainee.converges hr hn he hend h0 h1 hx hdraws (fun k t ω => by
    show lr k * min (max (1 : ℝ) 0.1) 10 ≤ 1
    have : min (max (1 : ℝ) 0.1) 10 = 1 := by norm_num
    rw [this, mul_one]; exact hl.le k) hanti t0 t1 hbest θ0 θT0
  have hend' : ∀ s a j, e.ends s a j = false := hend
  have hq : ∀ k ω, (L k ω).q = (Z k ω).q ∧ (L k ω).updates = k - warm := by
    intro k ω
    have early := Seen.early lr tau gamma updateRule type1 cap warm e A chance z0 (ws ω) (fun k => D k ω)
    have later := fun k => Seen.later lr tau gamma updateRule type1 cap warm e A chance z0 (ws ω) (fun k => D k ω) hr hn h0 k (hne k ω) (hpos k ω)
    obtain ⟨a, h2, -⟩ := Trainee.run_endless (θ := fun k => (Z (warm + k) ω).q) (θT := fun k => (Z (warm + k) ω).qTarg) (xs := fun t => xs t ω) (θT0 := θT0) (updateRule := updateRule) (type1 := type1) (L := mse1) (lr := lr) (tau := tau) (gamma := gamma) hs.distinct b1 b2 b3 h0 h1.le
      (fun _ => le_rfl) (fun _ => zero_lt_one) (g ω) (fun k => (later k).1) (fun k => (later k).2) (by
        show (Z warm ω).qTarg = (fun x => softTable tau x (Z warm ω).q)^[warm] θT0
        rw [show (Z warm ω).q = θ0 from (early warm le_rfl).1]
        exact (early warm le_rfl).2) k
    have h3 := hL k ω
    simp only [hend'] at h3
    have h4 : (Z (warm + 0) ω).q = θ0 := (early warm le_rfl).1
    rw [h4, h3] at h2
    have h5 := Except.ok.inj h2
    rw [h5]
    refine ⟨?_, rfl⟩
    show (Z (warm + (k - warm)) ω).q = (Z k ω).q
    by_cases hk : warm ≤ k
    · rw [show warm + (k - warm) = k by omega]
    · rw [show k - warm = 0 by omega, h4]
      exact (early k (by omega)).1.symm
  refine ⟨fun k ω => ⟨k, (Z k ω).s, L k ω⟩, xs, out, fun k ω => ?_, hx.steps, fun k ω => ⟨rfl, rfl, (hq k ω).2⟩, fun k a => ?_, fun k ω => ?_, hconv⟩
  swap
  · simp only [(hq k _).1]
    exact hact k a
  swap
  · have h3 := hL k ω
    simpa only [hend'] using h3
  induction k with
  | zero =>
    have h2 := Except.ok.inj (hL 0 ω)
    beta_reduce
    rw [← h2]
    rfl
  | succ k ih =>
    rw [List.range_succ, List.map_append, List.map_singleton, Pupil.run_append ih]
    have h2 := hL (k + 1) ω
    rw [List.range_succ, List.map_append, List.map_singleton, Trainee.run_append (hL k ω), Trainee.run] at h2
    unfold Pupil.step
    simp only
    rw [(hq k ω).1, hA]
    simp only
    have e1 : (⟨(Z k ω).s, A k ((Z k ω).q (Z k ω).s) (u k ω), (env.step (Z k ω).s (A k ((Z k ω).q (Z k ω).s) (u k ω)) (v k ω)).2.1, 0, 1⟩ : Step σ (Fin n) ℝ) = xs k ω := by
      rw [hg.reward]
      rfl
    have e2 : (env.step (Z k ω).s (A k ((Z k ω).q (Z k ω).s) (u k ω)) (v k ω)).2.2 = e.ends (xs k ω).s (xs k ω).a (out k ω) := hg.ends _ _ _
    have e3 := hg.next (Z k ω).s (A k ((Z k ω).q (Z k ω).s) (u k ω)) (v k ω)
    rw [e1, e3, e2]
    split at h2
    · cases h2
    · rename_i y hy
      rw [hy]
      cases h2
      rfl

/-! ### The properties -/

/-- **C142**, the loop of `doc/examples/cartpole/dqn.py` with a table: actions are drawn from the Boltzmann policy on the values of `q`, which are learned with `QLearning` from mini-batches that are drawn from a replay buffer, and `q_targ` follows `q` with a
constant rate.  The environment is connected, and its episodes do not end.  Nothing raises.  Almost surely the values of `q` and of `q_targ` converge to the solution of the Bellman equation, and from some step on the mode of the policy is optimal. -/
theorem C142_boltzmann_partial {Ω : Type} {m0 : MeasurableSpace Ω} [Fintype σ] [MeasurableSpace V] (hn : 0 < n) {e : Mdp σ n m} (he : e.Proper) (hend : e.Endless) (hc : e.Connected) {gamma : ℝ} (h0 : 0 ≤ gamma) (h1 : gamma < 1) {νV : Measure V} {env : Game σ n V}
    {chance : σ → Fin n → V → Fin m} (hg : env.Is νV e chance) {lr : ℕ → ℝ} (hl : Slow lr) (hanti : Antitone lr) {pick : List (Fin n) → Option (Fin n)} (hd : Dists.Draws pick) {gumbel : ℝ} (hgumbel : 0 < gumbel) {temperature : ℕ → ℝ} {τ : ℝ} (hτ : 0 < τ)
    (ht : ∀ t, τ ≤ temperature t) {tau : ℝ} (t0 : 0 < tau) (t1 : tau ≤ 1) {μ : Measure Ω} [IsProbabilityMeasure μ] {ℋ : Filtration ℕ m0} {u : ℕ → Ω → Fin n → ℝ} {v : ℕ → Ω → V} (hv : Variates μ ℋ (uniforms n) νV u v)
    {draw : G → Nat → Nat → List Nat × G} {cap warm batch : ℕ} {g : Ω → G} (hs : Shuffles draw cap warm batch g μ ℋ u v) (type1 : Bool) (s0 : σ) (θ0 θT0 : σ → Fin n → ℝ) :
    ∃ best, e.Solves gamma Greedy best ∧ ∃ X : ℕ → Ω → Pupil σ n G,
      (∀ k ω, Pupil.run draw lr tau mse1 (qLearning n) type1 warm batch (boltzmannPi pick gumbel temperature) env (Pupil.init gamma cap (g ω) s0 θ0 θT0) ((List.range k).map fun t => (u t ω, v t ω)) = .ok (X k ω)) ∧
      ∀ᵐ ω ∂μ, (∀ s a, Tendsto (fun k => (X k ω).trainee.q s a) atTop (𝓝 (best s a)) ∧ Tendsto (fun k => (X k ω).trainee.qTarg s a) atTop (𝓝 (best s a))) ∧
        ∀ τ', 0 < τ' → ∃ K, ∀ k, K ≤ k → ∀ s, ∃ x, e.Worth gamma 0 (always fun s => policyMode pick gumbel (boltzmannLogits τ' ((X k ω).trainee.q s))) s x ∧ ∀ (pi : Policy σ n m) y, pi.Proper → e.Worth gamma 0 pi s y → y ≤ x := by
  obtain ⟨best, hbest, -⟩ := mdp_solution (rule_qLearning (σ := σ) hn false) he h0 h1
  obtain ⟨X, -, -, hrun, -, -, -, -, hconv⟩ := Pupil.converges hv hs (rule_qLearning hn type1) hn he hend hc hg (tries_boltzmann hn hd hgumbel hτ ht) h0 h1 hl hanti t0 t1 hbest s0 θ0 θT0
  refine ⟨best, hbest, X, hrun, ?_⟩
  filter_upwards [hconv] with ω hω
  refine ⟨hω, fun τ' g0 => ?_⟩
  obtain ⟨K, hK⟩ := Play.eventually_optimal (ε := 0) (X := fun k => Play.init gamma s0 (X k ω).trainee.q) he hn h0 h1 hbest (fun s a => (hω s a).1) hd hgumbel le_rfl zero_lt_one g0
  exact ⟨K, fun k hk s => (hK k hk s).imp fun x h => ⟨h.2.1, h.2.2⟩⟩

/-- **C142** with actions from the epsilon-greedy policy, as in `doc/examples/stubs/dqn.py`, with any schedule of `epsilon`: the policy that acts is in the end worth as much as any other, up to what it explores. -/
theorem C142_epsilon_greedy_partial {Ω : Type} {m0 : MeasurableSpace Ω} [Fintype σ] [MeasurableSpace V] (hn : 0 < n) {e : Mdp σ n m} (he : e.Proper) (hend : e.Endless) (hc : e.Connected) {gamma : ℝ} (h0 : 0 ≤ gamma) (h1 : gamma < 1) {νV : Measure V} {env : Game σ n V}
    {chance : σ → Fin n → V → Fin m} (hg : env.Is νV e chance) {lr : ℕ → ℝ} (hl : Slow lr) (hanti : Antitone lr) {pick : List (Fin n) → Option (Fin n)} (hd : Dists.Draws pick) {gumbel : ℝ} (hgumbel : 0 < gumbel) {epsilon : ℕ → ℝ} (hε0 : ∀ t, 0 ≤ epsilon t)
    (hε1 : ∀ t, epsilon t ≤ 1) {tau : ℝ} (t0 : 0 < tau) (t1 : tau ≤ 1) {μ : Measure Ω} [IsProbabilityMeasure μ] {ℋ : Filtration ℕ m0} {u : ℕ → Ω → Fin n → ℝ} {v : ℕ → Ω → V} (hv : Variates μ ℋ (uniforms n) νV u v)
    {draw : G → Nat → Nat → List Nat × G} {cap warm batch : ℕ} {g : Ω → G} (hs : Shuffles draw cap warm batch g μ ℋ u v) (type1 : Bool) (s0 : σ) (θ0 θT0 : σ → Fin n → ℝ) :
    ∃ best, e.Solves gamma Greedy best ∧ ∃ X : ℕ → Ω → Pupil σ n G,
      (∀ k ω, Pupil.run draw lr tau mse1 (qLearning n) type1 warm batch (epsilonGreedyPi pick gumbel epsilon) env (Pupil.init gamma cap (g ω) s0 θ0 θT0) ((List.range k).map fun t => (u t ω, v t ω)) = .ok (X k ω)) ∧
      ∀ᵐ ω ∂μ, (∀ s a, Tendsto (fun k => (X k ω).trainee.q s a) atTop (𝓝 (best s a)) ∧ Tendsto (fun k => (X k ω).trainee.qTarg s a) atTop (𝓝 (best s a))) ∧
        ∀ δ w, 0 < δ → (∀ s a b, best s a - best s b ≤ w) → ∃ K, ∀ k, K ≤ k → ∀ s, ∃ x, e.Worth gamma 0 (calls pick gumbel fun s => epsilonGreedyLogits (epsilon k) ((X k ω).trainee.q s)) s x ∧
          ∀ (pi : Policy σ n m) y, pi.Proper → e.Worth gamma 0 pi s y → y ≤ x + (2 * δ + (epsilon k + n * 1e-15) * w) / (1 - gamma) := by
  obtain ⟨best, hbest, -⟩ := mdp_solution (rule_qLearning (σ := σ) hn false) he h0 h1
  obtain ⟨X, -, -, hrun, -, -, -, -, hconv⟩ := Pupil.converges hv hs (rule_qLearning hn type1) hn he hend hc hg (tries_epsilon_greedy hn hd hgumbel hε0 hε1) h0 h1 hl hanti t0 t1 hbest s0 θ0 θT0
  refine ⟨best, hbest, X, hrun, ?_⟩
  filter_upwards [hconv] with ω hω
  refine ⟨hω, fun δ w hδ hw => ?_⟩
  have hclose : ∀ᶠ k in atTop, ∀ s a, |(X k ω).trainee.q s a - best s a| ≤ δ := by
    refine eventually_all.2 fun s => eventually_all.2 fun a => ?_
    filter_upwards [Metric.tendsto_nhds.1 (hω s a).1 δ hδ] with k hk
    exact hk.le
  obtain ⟨K, hK⟩ := eventually_atTop.1 hclose
  exact ⟨K, fun k hk s => C121_epsilon_loss he hn h0 h1 hbest (hε0 _) (hε1 _) (hK k hk) hw hd hgumbel s⟩

/-- **C142** for `SoftQLearning`: the values converge to those of which the Boltzmann policy with the temperature of the updater has the largest entropy-regularized worth. -/
theorem C142_soft_q_learning_partial {Ω : Type} {m0 : MeasurableSpace Ω} [Fintype σ] [MeasurableSpace V] (hn : 0 < n) {e : Mdp σ n m} (he : e.Proper) (hend : e.Endless) (hc : e.Connected) {gamma : ℝ} (h0 : 0 ≤ gamma) (h1 : gamma < 1) {temp : ℝ} (htemp : 0 < temp)
    {νV : Measure V} {env : Game σ n V} {chance : σ → Fin n → V → Fin m} (hg : env.Is νV e chance) {lr : ℕ → ℝ} (hl : Slow lr) (hanti : Antitone lr) {pick : List (Fin n) → Option (Fin n)} (hd : Dists.Draws pick) {gumbel : ℝ} (hgumbel : 0 < gumbel)
    {temperature : ℕ → ℝ} {τ : ℝ} (hτ : 0 < τ) (ht : ∀ t, τ ≤ temperature t) {tau : ℝ} (t0 : 0 < tau) (t1 : tau ≤ 1) {μ : Measure Ω} [IsProbabilityMeasure μ] {ℋ : Filtration ℕ m0} {u : ℕ → Ω → Fin n → ℝ} {v : ℕ → Ω → V} (hv : Variates μ ℋ (uniforms n) νV u v)
    {draw : G → Nat → Nat → List Nat × G} {cap warm batch : ℕ} {g : Ω → G} (hs : Shuffles draw cap warm batch g μ ℋ u v) (type1 : Bool) (s0 : σ) (θ0 θT0 : σ → Fin n → ℝ) :
    ∃ best, e.Solves gamma (Soft temp) best ∧ ∃ X : ℕ → Ω → Pupil σ n G,
      (∀ k ω, Pupil.run draw lr tau mse1 (fun q qTarg => softQLearning n temp q qTarg) type1 warm batch (boltzmannPi pick gumbel temperature) env (Pupil.init gamma cap (g ω) s0 θ0 θT0) ((List.range k).map fun t => (u t ω, v t ω)) = .ok (X k ω)) ∧
      (∀ᵐ ω ∂μ, ∀ s a, Tendsto (fun k => (X k ω).trainee.q s a) atTop (𝓝 (best s a)) ∧ Tendsto (fun k => (X k ω).trainee.qTarg s a) atTop (𝓝 (best s a))) ∧
      ∀ s, ∃ x, e.Worth gamma temp (calls pick gumbel fun s => boltzmannLogits temp (best s)) s x ∧ ∀ (pi : Policy σ n m) y, pi.Proper → e.Worth gamma temp pi s y → y ≤ x := by
  obtain ⟨best, hbest, -⟩ := mdp_solution (rule_softQLearning (σ := σ) hn false htemp) he h0 h1
  obtain ⟨X, -, -, hrun, -, -, -, -, hconv⟩ := Pupil.converges hv hs (rule_softQLearning hn type1 htemp) hn he hend hc hg (tries_boltzmann hn hd hgumbel hτ ht) h0 h1 hl hanti t0 t1 hbest s0 θ0 θT0
  exact ⟨best, hbest, X, hrun, hconv, fun s => (C121_soft_optimal he hn h0 h1 htemp hbest hd hgumbel s).imp fun x h => h.2⟩

/-- **C142**, what happens in the loop: its actions and outcomes are steps in the environment, where the action has the probabilities of the policy for the values of `q` (not of `q_targ`) at that time; and tracer, buffer, updater and target network get these
steps. -/
theorem C142_trajectory_partial {Ω : Type} {m0 : MeasurableSpace Ω} [Fintype σ] [MeasurableSpace V] (hn : 0 < n) {e : Mdp σ n m} (he : e.Proper) (hend : e.Endless) (hc : e.Connected) {gamma : ℝ} (h0 : 0 ≤ gamma) (h1 : gamma < 1) {νV : Measure V} {env : Game σ n V}
    {chance : σ → Fin n → V → Fin m} (hg : env.Is νV e chance) {lr : ℕ → ℝ} (hl : Slow lr) (hanti : Antitone lr) {pick : List (Fin n) → Option (Fin n)} (hd : Dists.Draws pick) {gumbel : ℝ} (hgumbel : 0 < gumbel) {epsilon : ℕ → ℝ} (hε0 : ∀ t, 0 ≤ epsilon t)
    (hε1 : ∀ t, epsilon t ≤ 1) {tau : ℝ} (t0 : 0 < tau) (t1 : tau ≤ 1) {μ : Measure Ω} [IsProbabilityMeasure μ] {ℋ : Filtration ℕ m0} {u : ℕ → Ω → Fin n → ℝ} {v : ℕ → Ω → V} (hv : Variates μ ℋ (uniforms n) νV u v)
    {draw : G → Nat → Nat → List Nat × G} {cap warm batch : ℕ} {g : Ω → G} (hs : Shuffles draw cap warm batch g μ ℋ u v) (type1 : Bool) (s0 : σ) (θ0 θT0 : σ → Fin n → ℝ) :
    ∃ (X : ℕ → Ω → Pupil σ n G) (xs : ℕ → Ω → Step σ (Fin n) ℝ) (out : ℕ → Ω → Fin m),
      (∀ k ω, Pupil.run draw lr tau mse1 (qLearning n) type1 warm batch (epsilonGreedyPi pick gumbel epsilon) env (Pupil.init gamma cap (g ω) s0 θ0 θT0) ((List.range k).map fun t => (u t ω, v t ω)) = .ok (X k ω)) ∧
      Steps e μ ℋ xs out ∧
      (∀ ω, (xs 0 ω).s = s0) ∧
      (∀ k ω, (X k ω).T = k ∧ (X k ω).trainee.updates = k - warm) ∧
      (∀ k a, μ[Set.indicator {ω | (xs k ω).a = a} (fun _ => (1 : ℝ)) | ℋ (2 * k)] =ᵐ[μ] fun ω => (epsilonGreedy (epsilon k) ((X k ω).trainee.q (xs k ω).s) a + 1e-15) / (1 + n * 1e-15)) ∧
      ∀ k ω, Trainee.run draw lr tau mse1 (qLearning n) type1 warm batch ⟨Agent.init 1 gamma cap (g ω), θ0, θT0, 0⟩ ((List.range k).map fun t => (xs t ω, false)) = .ok (X k ω).trainee := by
  obtain ⟨best, hbest, -⟩ := mdp_solution (rule_qLearning (σ := σ) hn false) he h0 h1
  obtain ⟨X, xs, out, hrun, hsteps, hX, hact, htr, -⟩ := Pupil.converges hv hs (rule_qLearning hn type1) hn he hend hc hg (tries_epsilon_greedy hn hd hgumbel hε0 hε1) h0 h1 hl hanti t0 t1 hbest s0 θ0 θT0
  refine ⟨X, xs, out, hrun, hsteps, fun ω => ?_, fun k ω => (hX k ω).2, fun k a => ?_, htr⟩
  · have := Except.ok.inj (hrun 0 ω)
    rw [(hX 0 ω).1, ← this]
    rfl
  · refine (hact k a).trans (Eventually.of_forall fun ω => ?_)
    show (uniforms n).real {u | (policyCall pick gumbel u (epsilonGreedyLogits (epsilon k) ((X k ω).trainee.q (X k ω).s))).1 = some a} = _
    have h2 : 0 ≤ epsilonGreedy (epsilon k) ((X k ω).trainee.q (X k ω).s) a := by
      unfold epsilonGreedy
      have h3 := hε0 k
      have h4 : 0 ≤ 1 - epsilon k := by linarith [hε1 k]
      split <;> positivity
    rw [Measure.real, C52_sampled hd hgumbel (hε0 _) (hε1 _), ENNReal.toReal_ofReal (by positivity), ← (hX k ω).1]

end

/-! ### Random draws -/

/-- The first `k` of the positions below `n` in a random order of all positions; one order is used for each draw. -/
def ordered {cap : ℕ} : (ℕ → Equiv.Perm (Fin cap)) → Nat → Nat → List Nat × (ℕ → Equiv.Perm (Fin cap)) := fun g n k =>
  (if n ≤ cap then ((((List.finRange cap).map (g 0)).map Fin.val).filter (· < n)).take k else List.range k, fun i => g (i + 1))

theorem ordered_distinct {cap : ℕ} : DrawsDistinct (ordered (cap := cap)) := by
  intro g n k hk
  unfold ordered
  by_cases h : n ≤ cap
  · simp only [if_pos h]
    have h1 : (((List.finRange cap).map (g 0)).map Fin.val).Perm (List.range cap) := by
      have := (Equiv.Perm.map_finRange_perm (g 0)).map Fin.val
      simpa using this
    have h2 := h1.filter (fun p => decide (p < n))
    have h3 : ((List.range cap).filter fun p => decide (p < n)).length = n := by
      have : ((List.range cap).filter fun p => decide (p < n)).Perm (List.range n) := by
        refine (List.perm_ext_iff_of_nodup (List.Nodup.filter _ List.nodup_range) List.nodup_range).2 fun p => ?_
        simp only [List.mem_filter, List.mem_range, decide_eq_true_eq]
        omega
      rw [this.length_eq, List.length_range]
    refine ⟨?_, ?_, fun p hp => ?_⟩
    · rw [List.length_take, h2.length_eq, h3]
      omega
    · exact (h2.nodup_iff.2 (List.Nodup.filter _ List.nodup_range)).sublist (List.take_sublist _ _)
    · have := List.mem_of_mem_take hp
      simpa using (List.mem_filter.1 this).2
  · simp only [if_neg h]
    exact ⟨by simp, List.nodup_range, fun p hp => (List.mem_range.1 hp).trans_le hk⟩

/-- The positions of draw `k` depend on one of the orders. -/
theorem ordered_drawn {cap warm batch : ℕ} (g : ℕ → Equiv.Perm (Fin cap)) (k : ℕ) : drawn ordered cap warm batch g k = (ordered (fun _ => g k) (min cap (warm + k)) batch).1 := by
  have h : ∀ k, generator ordered cap warm batch g k = fun i => g (i + k) := by
    intro k
    induction k with
    | zero => rfl
    | succ k ih =>
      rw [generator, ih]
      funext i
      simp [ordered, add_assoc, add_comm, add_left_comm]
  rw [drawn, h]
  simp [ordered]

/-- Some order begins with the newest position. -/
theorem ordered_newest {cap N batch : ℕ} (hN : 1 ≤ N) (hc : N ≤ cap) (hb : 1 ≤ batch) : ∃ p : Equiv.Perm (Fin cap), N - 1 ∈ (ordered (fun _ => p) N batch).1 := by
  obtain ⟨c, rfl⟩ : ∃ c, cap = c + 1 := ⟨cap - 1, by omega⟩
  obtain ⟨b, rfl⟩ : ∃ b, batch = b + 1 := ⟨batch - 1, by omega⟩
  refine ⟨Equiv.swap 0 ⟨N - 1, by omega⟩, ?_⟩
  unfold ordered
  simp only [if_pos hc, List.finRange_succ, List.map_cons, Equiv.swap_apply_left]
  rw [List.filter_cons_of_pos (by simp; omega), List.take_succ_cons]
  exact List.mem_cons_self

/-- **C142**, such random numbers and such a generator exist, for all laws and all sizes: with a random order of the positions for each draw, each of the first positions is drawn. -/
theorem C142_shuffles {U V : Type} [MeasurableSpace U] [MeasurableSpace V] (νU : Measure U) [IsProbabilityMeasure νU] (νV : Measure V) [IsProbabilityMeasure νV] {cap warm batch : ℕ} (b1 : 1 ≤ batch) (b2 : batch ≤ warm) (b3 : warm ≤ cap) :
    ∃ (Ω : Type) (m0 : MeasurableSpace Ω) (μ : Measure Ω) (_ : IsProbabilityMeasure μ) (ℋ : Filtration ℕ m0) (u : ℕ → Ω → U) (v : ℕ → Ω → V) (g : Ω → ℕ → Equiv.Perm (Fin cap)), Variates μ ℋ νU νV u v ∧ Shuffles ordered cap warm batch g μ ℋ u v := by
  let _ : MeasurableSpace (Equiv.Perm (Fin cap)) := ⊤
  let νI : Measure (Equiv.Perm (Fin cap)) := (PMF.uniformOfFintype (Equiv.Perm (Fin cap))).toMeasure
  let ν : Measure (U × V × Equiv.Perm (Fin cap)) := νU.prod (νV.prod νI)
  let Ω := ℕ → U × V × Equiv.Perm (Fin cap)
  let μ : Measure Ω := Measure.infinitePi fun _ : ℕ => ν
  let coord : ℕ → MeasurableSpace Ω := fun i => MeasurableSpace.comap (fun ω => ω i) inferInstance
  have hle : ∀ i, coord i ≤ MeasurableSpace.pi := fun i => (measurable_pi_apply i).comap_le
  let upto : (ℕ → Set ℕ) → ℕ → MeasurableSpace Ω := fun S k => ⨆ i ∈ S k, coord i
  let ℋ : Filtration ℕ (MeasurableSpace.pi : MeasurableSpace Ω) := ⟨upto fun k => {i | i % 2 = 0 ∨ i ≤ 2 * k + 1}, fun a b h => biSup_mono fun i (hi : i % 2 = 0 ∨ i ≤ 2 * a + 1) => hi.imp id fun h2 => by omega, fun k => iSup₂_le fun i _ => hle i⟩
  let 𝒢 : Filtration ℕ (MeasurableSpace.pi : MeasurableSpace Ω) := ⟨upto fun k => {i | i % 2 = 1 ∨ i < 2 * k}, fun a b h => biSup_mono fun i (hi : i % 2 = 1 ∨ i < 2 * a) => hi.imp id fun h2 => by omega, fun k => iSup₂_le fun i _ => hle i⟩
  have hind : ProbabilityTheory.iIndep coord μ := ProbabilityTheory.iIndepFun_infinitePi (P := fun _ : ℕ => ν) (X := fun _ x => x) fun _ => measurable_id
  have hnew : ∀ (i : ℕ) (S : Set ℕ), i ∉ S → ProbabilityTheory.Indep (coord i) (⨆ j ∈ S, coord j) μ := by
    intro i S hi
    have := ProbabilityTheory.indep_iSup_of_disjoint hle hind (S := {i}) (T := S) (by rw [Set.disjoint_singleton_left]; exact hi)
    rwa [iSup_singleton] at this
  have hmeas : ∀ (i : ℕ) (S : Set ℕ), i ∈ S → Measurable[⨆ j ∈ S, coord j] fun ω : Ω => ω i := fun i S hi => Measurable.of_comap_le (le_biSup coord hi)
  let u : ℕ → Ω → U := fun t ω => (ω (2 * (2 * t + 1) + 1)).1
  let v : ℕ → Ω → V := fun t ω => (ω (2 * (2 * t + 2) + 1)).2.1
  let g : Ω → ℕ → Equiv.Perm (Fin cap) := fun ω k => (ω (2 * k)).2.2
  have hg : ∀ (k : ℕ) (S : Set ℕ), 2 * k ∈ S → Measurable[⨆ j ∈ S, coord j] fun ω => g ω k := fun k S hi => (hmeas _ S hi).snd.snd
  have hdrawn : ∀ (k : ℕ) (S : Set ℕ), 2 * k ∈ S → ∀ l, MeasurableSet[⨆ j ∈ S, coord j] {ω | drawn ordered cap warm batch (g ω) k = l} := by
    intro k S hi l
    simp only [ordered_drawn]
    exact hg k S hi (show MeasurableSet {p : Equiv.Perm (Fin cap) | (ordered (fun _ => p) (min cap (warm + k)) batch).1 = l} from trivial)
  have hmap : ∀ i, μ.map (fun ω : Ω => ω i) = ν := fun i => Measure.infinitePi_map_eval (fun _ : ℕ => ν) i
  refine ⟨Ω, MeasurableSpace.pi, μ, inferInstance, ℋ, u, v, g, ⟨fun t => (hmeas _ _ (Or.inr le_rfl)).fst, fun t => (hmeas _ _ (Or.inr le_rfl)).snd.fst, fun t => ?_, fun t => ?_, fun t => ?_, fun t => ?_⟩, ⟨ordered_distinct, ⟨b1, b2, b3⟩, fun k l => hdrawn k _ (Or.inl (by omega)) l, ?_⟩⟩
  · refine ProbabilityTheory.indep_of_indep_of_le_left (hnew (2 * (2 * t + 1) + 1) {i | i % 2 = 0 ∨ i ≤ 2 * (2 * t) + 1} (by simp only [Set.mem_ofPred_eq]; omega)) ?_
    exact Measurable.comap_le (m₁ := coord (2 * (2 * t + 1) + 1)) (Measurable.fst (Measurable.of_comap_le le_rfl))
  · refine ProbabilityTheory.indep_of_indep_of_le_left (hnew (2 * (2 * t + 2) + 1) {i | i % 2 = 0 ∨ i ≤ 2 * (2 * t + 1) + 1} (by simp only [Set.mem_ofPred_eq]; omega)) ?_
    exact Measurable.comap_le (m₁ := coord (2 * (2 * t + 2) + 1)) (Measurable.fst (Measurable.snd (Measurable.of_comap_le le_rfl)))
  · rw [show u t = Prod.fst ∘ (fun ω : Ω => ω (2 * (2 * t + 1) + 1)) from rfl, ← Measure.map_map measurable_fst (measurable_pi_apply _), hmap, Measure.map_fst_prod]
    simp
  · rw [show v t = Prod.fst ∘ (Prod.snd ∘ (fun ω : Ω => ω (2 * (2 * t + 2) + 1))) from rfl, ← Measure.map_map measurable_fst (measurable_snd.comp (measurable_pi_apply _)), ← Measure.map_map measurable_snd (measurable_pi_apply _), hmap, Measure.map_snd_prod]
    simp only [measure_univ, one_smul]
    rw [Measure.map_fst_prod]
    simp
  · have hcard : (0 : ℝ) < (Fintype.card (Equiv.Perm (Fin cap)) : ℝ)⁻¹ := by
      rw [inv_pos]
      exact_mod_cast Fintype.card_pos
    refine ⟨𝒢, (Fintype.card (Equiv.Perm (Fin cap)) : ℝ)⁻¹, hcard, fun k l => hdrawn k _ (Or.inr (by omega)) l, fun t => (hmeas _ _ (Or.inl (by omega))).fst, fun t => (hmeas _ _ (Or.inl (by omega))).snd.fst, fun k => ?_⟩
    set E : Set (Equiv.Perm (Fin cap)) := {p | min cap (warm + k) - 1 ∈ (ordered (fun _ => p) (min cap (warm + k)) batch).1} with hE
    have hset : {ω : Ω | min cap (warm + k) - 1 ∈ drawn ordered cap warm batch (g ω) k} = (fun ω => g ω k) ⁻¹' E := by
      ext ω
      simp only [Set.mem_ofPred_eq, ordered_drawn, hE, Set.mem_preimage]
    have hgc : Measurable[coord (2 * k)] fun ω : Ω => g ω k := Measurable.snd (Measurable.snd (Measurable.of_comap_le le_rfl))
    have hEm : MeasurableSet[coord (2 * k)] ((fun ω => g ω k) ⁻¹' E) := hgc (show MeasurableSet E from trivial)
    have h2 : μ[Set.indicator ((fun ω => g ω k) ⁻¹' E) (fun _ => (1 : ℝ)) | 𝒢 k] =ᵐ[μ] fun _ => ∫ ω, Set.indicator ((fun ω => g ω k) ⁻¹' E) (fun _ => (1 : ℝ)) ω ∂μ :=
      condExp_indep_eq (hle (2 * k)) (𝒢.le k) (stronglyMeasurable_const.indicator hEm) (hnew (2 * k) {i | i % 2 = 1 ∨ i < 2 * k} (by simp only [Set.mem_ofPred_eq]; omega))
    have hlaw : μ.map (fun ω => g ω k) = νI := by
      rw [show (fun ω : Ω => g ω k) = Prod.snd ∘ (Prod.snd ∘ (fun ω : Ω => ω (2 * k))) from rfl, ← Measure.map_map measurable_snd (measurable_snd.comp (measurable_pi_apply _)), ← Measure.map_map measurable_snd (measurable_pi_apply _), hmap, Measure.map_snd_prod]
      simp only [measure_univ, one_smul]
      rw [Measure.map_snd_prod]
      simp
    rw [hset]
    filter_upwards [h2] with ω h3
    rw [h3, integral_indicator (hle _ _ hEm)]
    obtain ⟨p, hp⟩ := ordered_newest (cap := cap) (N := min cap (warm + k)) (batch := batch) (by omega) (by omega) b1
    have h4 : (μ.map (fun ω => g ω k)).real E = μ.real ((fun ω => g ω k) ⁻¹' E) := map_measureReal_apply (hgc.mono (hle _) le_rfl) trivial
    have h5 : νI.real {p} = (Fintype.card (Equiv.Perm (Fin cap)) : ℝ)⁻¹ := by
      rw [Measure.real, PMF.toMeasure_apply_singleton _ _ (show MeasurableSet ({p} : Set (Equiv.Perm (Fin cap))) from trivial), PMF.uniformOfFintype_apply]
      simp
    have h6 : νI.real {p} ≤ νI.real E := measureReal_mono (Set.singleton_subset_iff.2 hp)
    rw [hlaw] at h4
    rw [h5, h4] at h6
    simpa using h6

/-! ### A case -/

/-- In the state `true` there is a reward.  With the first action the next state is `false`; with the second action it is `true` if the coin says so, and the same state otherwise. -/
noncomputable def climb2 : Mdp Bool 2 2 where
  prob := fun _ _ _ => 1 / 2
  reward := fun s _ _ => if s then 1 else 0
  next := fun s a j => if a = 0 then false else if j = 0 then true else s
  ends := fun _ _ _ => false

/-- An environment for `climb2`, with a coin. -/
noncomputable def climb2Env : Game Bool 2 Bool where
  step := fun s a coin => (if a = 0 then false else if coin then true else s, if s then 1 else 0, false)
  reset := fun _ => false

theorem climb2Env_is : climb2Env.Is (PMF.uniformOfFintype Bool).toMeasure climb2 (fun _ _ coin => if coin then 0 else 1) where
  measurable _ _ _ := Set.Countable.measurableSet (Set.to_countable _)
  law _ a j := by
    have : {v : Bool | (if v then (0 : Fin 2) else 1) = j} = {j == 0} := by
      ext v
      fin_cases j <;> cases v <;> simp
    rw [this, Measure.real, coin_real]
    simp [climb2]
  reward _ _ _ := rfl
  ends _ _ _ := rfl
  next s a v := by cases v <;> simp [climb2Env, climb2]

theorem climb2_solves : climb2.Solves (1 / 2) Greedy fun s a => if s then (if a = 0 then 4 / 3 else 2) else if a = 0 then 1 / 3 else 2 / 3 := by
  refine ⟨fun s => if s then 2 else 2 / 3, fun s => ⟨⟨1, by cases s <;> simp⟩, ?_⟩, fun s a => ?_⟩
  · rintro _ ⟨a, rfl⟩
    dsimp only
    cases s <;> simp only [Bool.false_eq_true, if_false, if_true] <;> split <;> norm_num
  · cases s <;> fin_cases a <;> norm_num [climb2, Fin.sum_univ_two]

/-- **C142**, a case: the agent with a Boltzmann policy with temperature 1/10, a buffer of 100000 transitions from which 32 are drawn at random as soon as there are 100, and a target network with the rate 1/100, as in the example, learns that it is worth climbing. -/
theorem C142_example {pick : List (Fin 2) → Option (Fin 2)} (hd : Dists.Draws pick) (θ0 : Bool → Fin 2 → ℝ) :
    ∃ (Ω : Type) (m0 : MeasurableSpace Ω) (μ : Measure Ω) (_ : IsProbabilityMeasure μ) (u : ℕ → Ω → Fin 2 → ℝ) (v : ℕ → Ω → Bool) (g : Ω → ℕ → Equiv.Perm (Fin 100000)) (X : ℕ → Ω → Pupil Bool 2 (ℕ → Equiv.Perm (Fin 100000))),
      (∀ k ω, Pupil.run ordered (fun t => 1 / ((t : ℝ) + 1)) (1 / 100) mse1 (qLearning 2) false 100 32 (boltzmannPi pick 1 fun _ => 1 / 10) climb2Env (Pupil.init (1 / 2) 100000 (g ω) false θ0 θ0) ((List.range k).map fun t => (u t ω, v t ω)) = .ok (X k ω)) ∧
      ∀ᵐ ω ∂μ, Tendsto (fun k => (X k ω).trainee.q false 0) atTop (𝓝 (1 / 3)) ∧ Tendsto (fun k => (X k ω).trainee.q false 1) atTop (𝓝 (2 / 3)) ∧ Tendsto (fun k => (X k ω).trainee.qTarg true 0) atTop (𝓝 (4 / 3)) := by
  obtain ⟨Ω, m0, μ, hμ, ℋ, u, v, g, hv, hs⟩ := C142_shuffles (uniforms 2) (PMF.uniformOfFintype Bool).toMeasure (cap := 100000) (warm := 100) (batch := 32) (by norm_num) (by norm_num) (by norm_num)
  have hp : climb2.Proper := ⟨fun _ _ _ => by norm_num [climb2], fun _ _ => by norm_num [climb2]⟩
  have hc : climb2.Connected := by
    intro s s'
    refine .single ⟨if s' then 1 else 0, 0, by norm_num [climb2], ?_⟩
    cases s' <;> simp [climb2]
  have hanti : Antitone fun t : ℕ => 1 / ((t : ℝ) + 1) := fun i j hij => by
    have : (i : ℝ) ≤ j := Nat.cast_le.2 hij
    exact one_div_le_one_div_of_le (by positivity) (by linarith)
  obtain ⟨X, -, -, hrun, -, -, -, -, hconv⟩ := Pupil.converges hv hs (rule_qLearning (by norm_num) false) (by norm_num) hp (fun _ _ _ => rfl) hc climb2Env_is (tries_boltzmann (by norm_num) hd one_pos (temperature := fun _ => 1 / 10) (τ := 1 / 10) (by norm_num) (fun _ => le_rfl))
    (by norm_num) (by norm_num) slow_harmonic hanti (tau := 1 / 100) (by norm_num) (by norm_num) climb2_solves false θ0 θ0
  refine ⟨Ω, m0, μ, hμ, u, v, g, X, hrun, ?_⟩
  filter_upwards [hconv] with ω hω
  exact ⟨by simpa using (hω false 0).1, by simpa using (hω false 1).1, by simpa using (hω true 0).2⟩

end Coax.Loop
