import Verif.Loop.LinearQProps

/-! Property C150: `QLearning` with a q-function that is linear in its params. -/

namespace Coax.Loop

open Coax.RewardTracing Coax.TD Coax.Core Coax.Values Coax.Pol Filter Topology MeasureTheory

variable {σ : Type _} {n d : Nat}

/-- A row with a given target. -/
def fixed (target : Out σ (Fin n) ℝ → ℝ) (o : Out σ (Fin n) ℝ) : Out (σ × Fin n) (Fin n) ℝ :=
  { S := (o.S, o.A), A := o.A, logP := o.logP, Rn := target o, In := 0, S_next := some (o.S, o.A), A_next := o.A_next, logP_next := o.logP_next, W := o.W, idx := o.idx, extraInfo := none }

/-- The update with any update rule. -/
theorem affineUpdateQ_target (lr : ℝ) {updateRule} {type1 : Bool} (base : σ → Fin n → ℝ) (phi : σ → Fin n → Fin d → ℝ) {θT θ : Fin d → ℝ} {rows : List (Out σ (Fin n) ℝ)} (hne : rows ≠ []) {b : TBatch σ (List ℝ)}
    (hb : toTBatch id (fun a : Fin n => oneHot n a) rows = .ok b) {target : Out σ (Fin n) ℝ → ℝ} (ht : updateRule (tabular type1 (linQ base phi θ)) (tabular type1 (linQ base phi θT)) b = .ok (rows.map target)) :
    affineUpdateQ lr mse1 updateRule type1 base phi θT θ rows = .ok fun k => θ k + lr * ((rows.map fun o => min (max o.W 0.1) 10 * ((target o - linQ base phi θ o.S o.A) * phi o.S o.A k)).sum / rows.length) := by
  classical
  have hn := pos_of_rows hne
  have hs : ∀ o ∈ rows.map (fixed target), o.S_next.isSome := by simp [fixed]
  have key : ∀ θ', ∃ x out out', affineLossQ mse1 updateRule type1 base phi rows θT θ θ' = .ok out ∧ out.loss = some x ∧
      affineLoss mse1 (fun p => base p.1 p.2) (fun p => phi p.1 p.2) (rows.map (fixed target)) θT θ θ' = .ok out' ∧ out'.loss = some x := by
    intro θ'
    obtain ⟨out', h3, h4⟩ := affineLoss_eq mse1_meanOf (fun p : σ × Fin n => base p.1 p.2) (fun p => phi p.1 p.2) (θT := θT) (θV := θ) (rows := rows.map (fixed target)) (by simpa using hne) hs θ'
    rw [← affineQ_eq, ← affineQ_eq] at ht
    obtain ⟨out, h1, h2⟩ := tableLoss_eq mse1_meanOf hn hne hb ht (affineQ base phi θ')
    refine ⟨_, out, out', h1, h2, h3, ?_⟩
    rw [h4, List.length_map, List.map_map]
    congr 3
    refine List.map_congr_left fun o ho => ?_
    simp [fixed, weight, affineQ_eq, lin, linQ]
  have hval : ∀ θ', lossValue (affineLossQ mse1 updateRule type1 base phi rows θT θ θ') = lossValue (affineLoss mse1 (fun p => base p.1 p.2) (fun p => phi p.1 p.2) (rows.map (fixed target)) θT θ θ') := by
    intro θ'
    obtain ⟨x, ⟨l, a1, a2, a3⟩, ⟨l', b1, b2, b3⟩, h1, h2, h3, h4⟩ := key θ'
    rw [h1, h3]
    simp only at h2 h4
    subst h2 h4
    rfl
  have e : affineUpdateQ lr mse1 updateRule type1 base phi θT θ rows = affineUpdate lr mse1 (fun p => base p.1 p.2) (fun p => phi p.1 p.2) θT θ (rows.map (fixed target)) := by
    unfold affineUpdateQ affineUpdate
    obtain ⟨x, out, out', h1, h2, h3, h4⟩ := key θ
    rw [h1, h3]
    simp only [h2, h4, Option.isNone_some, Bool.false_eq_true, if_false, hval]
  rw [e, C149_update lr _ _ θT θ (by simpa using hne) hs]
  congr 1
  funext k
  rw [List.length_map, List.map_map]
  congr 4
  refine List.map_congr_left fun o _ => ?_
  simp [fixed, lin, linQ]

/-- Claim C150, the update of `QLearning`: the target has the greatest value in the next state. -/
theorem C150_qlearning_update (lr : ℝ) (type1 : Bool) (base : σ → Fin n → ℝ) (phi : σ → Fin n → Fin d → ℝ) (θT θ : Fin d → ℝ) {rows : List (Out σ (Fin n) ℝ)} (hne : rows ≠ []) (h : ∀ o ∈ rows, o.S_next.isSome ∧ o.A_next.isSome) {top : σ → ℝ}
    (htop : ∀ s, IsGreatest (Set.range (linQ base phi θT s)) (top s)) :
    affineUpdateQ lr mse1 (qLearning n) type1 base phi θT θ rows =
      .ok fun k => θ k + lr * ((rows.map fun o => min (max o.W 0.1) 10 * ((o.Rn + o.In * o.S_next.elim 0 top - linQ base phi θ o.S o.A) * phi o.S o.A k)).sum / rows.length) := by
  have hn := pos_of_rows hne
  have hr := rule_qLearning (σ := σ) hn type1
  choose val hval using hr.value
  obtain ⟨b, hb, ht⟩ := rule_rows hr hval h (linQ base phi θ) (linQ base phi θT)
  have e : ∀ s, val s (linQ base phi θT s) = top s := fun s => (hval s _).unique (htop s)
  simp only [e] at ht
  exact affineUpdateQ_target lr base phi hne hb ht

/-- One feature: it is 1 in the first state, and in the second state it is 2 for the first action and 0 for the second. -/
def tempting (s : Bool) (a : Fin 2) (_ : Fin 1) : ℝ := if s then (if a = 0 then 2 else 0) else 1

/-- Claim C150 is false of `QLearning`: one complete episode of two steps without rewards, in the second of which the second action is taken.  If the value of the first action there is twice the value of the first state, then updates diverge with every
learning rate from all positive params, though zero is the value of both.  (`Sarsa` converges on the same data, by `C150_converges`.) -/
theorem C150_qlearning_counterexample {gamma : ℝ} (hg : 1 / 2 < gamma) (h1 : gamma ≤ 1) {lr : ℝ} (hlr : 0 < lr) (type1 : Bool) {x : ℝ} (hx : 0 < x) :
    ∃ tracer rows k, onlineU (fun _ (acc : List (Out Bool (Fin 2) ℝ)) o => .ok (acc ++ [o])) (NStep.init 1 gamma false, [], 0) [(⟨false, 0, 0, 0, 1⟩, false), (⟨true, 1, 0, 0, 1⟩, true)] = .ok (tracer, rows, k) ∧ EmpiricalQ rows (fun _ _ => 0) ∧
      ∃ θ : ℕ → Fin 1 → ℝ, (∀ t, affineLearnQ (fun _ => lr) mse1 (qLearning 2) type1 (fun _ _ => 0) tempting 0 (fun _ => x) (List.replicate t rows) = .ok (θ t)) ∧ Tendsto (fun t => linQ (fun _ _ => 0) tempting (θ t) false 0) atTop atTop := by
  obtain ⟨xs, dn, T, hsteps, hdT, -, tracer, k, hrun⟩ := episodes_run (σ := Bool) (n := 2) (gamma := gamma) (by linarith) h1 (N := 1) one_pos (steps := [(⟨false, 0, 0, 0, 1⟩, false), (⟨true, 1, 0, 0, 1⟩, true)]) (x := ⟨true, 1, 0, 0, 1⟩) rfl (by simp) (by simp)
  obtain rfl : T = 1 := by
    have := congrArg List.length hsteps
    simpa using this
  simp only [List.range_succ, List.range_zero, List.nil_append, List.map_append, List.map_cons, List.map_nil, List.cons_append, List.cons.injEq, Prod.mk.injEq, and_true] at hsteps hrun
  obtain ⟨⟨e1, e2⟩, e3, e4⟩ := hsteps
  refine ⟨_, _, _, hrun, ?_, ?_⟩
  · intro g
    simp [tdErrQ, rowN, returnN, endsN, e1, e2, e3, e4]
  set rows : List (Out Bool (Fin 2) ℝ) := [rowN gamma 1 xs dn 0, rowN gamma 1 xs dn 1] with hrows
  have hstep : ∀ y : ℝ, 0 < y → affineUpdateQ lr mse1 (qLearning 2) type1 (fun _ _ => 0) tempting (fun _ => y) (fun _ => y) rows = .ok fun _ => y * (1 + lr / 2 * (2 * gamma - 1)) := by
    intro y hy
    rw [C150_qlearning_update lr type1 _ tempting _ _ (by simp [rows]) (by simp [rows, rowN]) (top := fun s => if s then 2 * y else y)]
    · congr 1
      funext k
      simp [rows, rowN, returnN, endsN, e1, e2, e3, e4, linQ, tempting]
      norm_num
      ring
    · intro s
      refine ⟨⟨0, by cases s <;> simp [linQ, tempting]⟩, ?_⟩
      rintro _ ⟨a, rfl⟩
      cases s <;> fin_cases a <;> simp [linQ, tempting, hy.le]
  set r : ℝ := 1 + lr / 2 * (2 * gamma - 1) with hr
  have hr1 : 1 < r := by
    have : 0 < lr / 2 * (2 * gamma - 1) := mul_pos (by linarith) (by linarith)
    linarith
  refine ⟨fun t _ => x * r ^ t, fun t => ?_, ?_⟩
  · generalize 0 = k
    induction t generalizing x k with
    | zero => simp [affineLearnQ]
    | succ t ih =>
      rw [List.replicate_succ, affineLearnQ, hstep x hx]
      simp only
      rw [ih (x := x * r) (mul_pos hx (by linarith)) (k + 1)]
      congr 1
      funext _
      ring
  · simp only [linQ, tempting, Finset.univ_unique, Finset.sum_const, Finset.card_singleton, one_smul, zero_add, Bool.false_eq_true, if_false, one_mul]
    exact (tendsto_pow_atTop_atTop_of_one_lt hr1).const_mul_atTop hx

/-- `Sarsa` on the same episode: the conditions are met with a learning rate of 1/100. -/
example : ∃ (rows : List (Out Bool (Fin 2) ℝ)) (θ : ℕ → Fin 1 → ℝ) (best : Fin 1 → ℝ), (∀ t, affineLearnQ (fun _ => 1 / 100) mse1 (sarsa 2) true (fun _ _ => 0) tempting 0 (fun _ => 1) (List.replicate t rows) = .ok (θ t)) ∧
    Tendsto (fun t => linQ (fun _ _ => 0) tempting (θ t) false 0) atTop (𝓝 (linQ (fun _ _ => 0) tempting best false 0)) := by
  obtain ⟨-, rows, -, -, θ, best, h1, h2, -⟩ := C150_converges (σ := Bool) (n := 2) (gamma := 9 / 10) (by norm_num) (by norm_num) (N := 1) one_pos (steps := [(⟨false, 0, 0, 0, 1⟩, false), (⟨true, 1, 0, 0, 1⟩, true)]) (x := ⟨true, 1, 0, 0, 1⟩) rfl (by simp) (by simp)
    true (fun _ _ => 0) tempting (F := 1) (by simp [tempting]) (lr := 1 / 100) (by norm_num) (by norm_num) fun _ => 1
  exact ⟨rows, θ, best, h1, h2 (⟨false, 0, 0, 0, 1⟩, false) (by simp)⟩

/-- Mini-batches of three transitions of this episode. -/
example : ∃ (rows : List (Out Bool (Fin 2) ℝ)) (Ω : Type) (m0 : MeasurableSpace Ω) (μ : Measure Ω) (_ : IsProbabilityMeasure μ) (I : ℕ → Ω → Fin 3 → Fin rows.length) (best : Fin 1 → ℝ) (θ : ℕ → Ω → Fin 1 → ℝ), rows.length = 2 ∧
    (∀ t ω, affineLearnQ (fun t : ℕ => 1 / ((t : ℝ) + 1)) mse1 (sarsa 2) true (fun _ _ => 0) tempting 0 (fun _ => 1) ((List.range t).map fun k => List.ofFn fun j => rows[I k ω j]) = .ok (θ t ω)) ∧ ∀ᵐ ω ∂μ, Tendsto (fun t => θ t ω) atTop (𝓝 best) := by
  obtain ⟨Ω, m0, μ, hμ, ℱ, I, hI⟩ := C149_draws (N := 2) (B := 3) two_pos
  have hdiv : ¬ Summable fun t : ℕ => 1 / ((t : ℝ) + 1) := by
    have := (summable_nat_add_iff (f := fun t : ℕ => 1 / (t : ℝ)) 1).not.2 Real.not_summable_one_div_natCast
    simpa using this
  have hsq : Summable fun t : ℕ => (1 / ((t : ℝ) + 1)) ^ 2 := by
    have := (summable_nat_add_iff (f := fun t : ℕ => 1 / (t : ℝ) ^ 2) 1).2 (Real.summable_one_div_nat_pow.2 (by norm_num))
    simpa [div_pow] using this
  obtain ⟨-, rows, -, -, hl, h⟩ := C150_minibatches (μ := μ) (ℱ := ℱ) (σ := Bool) (n := 2) (gamma := 9 / 10) (by norm_num) (by norm_num) (N := 1) one_pos (steps := [(⟨false, 0, 0, 0, 1⟩, false), (⟨true, 1, 0, 0, 1⟩, true)]) (x := ⟨true, 1, 0, 0, 1⟩) rfl
    (by simp) (by simp) true (fun _ _ => 0) tempting (fun t : ℕ => (by positivity : (0 : ℝ) ≤ 1 / ((t : ℝ) + 1))) hsq hdiv (B := 3) (by norm_num) fun _ => 1
  obtain ⟨best, θ, h1, h2, -⟩ := h _ (hI.cast hl.symm)
  exact ⟨rows, Ω, m0, μ, hμ, _, best, θ, hl, h1, h2⟩

end Coax.Loop
