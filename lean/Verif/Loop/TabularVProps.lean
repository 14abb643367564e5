import Verif.Loop.TabularV
import Verif.Loop.OnlineTargetProps

/-! Property C128: almost-sure policy evaluation with `SimpleTD`. -/

namespace Coax.Loop

open Coax.RewardTracing Coax.TD Coax.Core Coax.Values Coax.Pol Filter Topology MeasureTheory

variable {σ : Type _} {n m : Nat} {Ω : Type _} {m0 : MeasurableSpace Ω}

/-! ### Specification -/

/-- Transitions whose actions are chosen by the policy `pi` and whose outcomes are those of the environment `e`, given the state.  They need not be consecutive. -/
structure SamplesV (e : Mdp σ n m) (gamma : ℝ) (pi : σ → Fin n → ℝ) (μ : Measure Ω) (ℱ : Filtration ℕ m0) (rows : ℕ → Ω → Out σ (Fin n) ℝ) (out : ℕ → Ω → Fin m) : Prop where
  s_known : ∀ t s, MeasurableSet[ℱ t] {ω | (rows t ω).S = s}
  w_known : ∀ t, Measurable[ℱ t] fun ω => (rows t ω).W
  out_known : ∀ t a j, MeasurableSet[ℱ (t + 1)] {ω | (rows t ω).A = a ∧ out t ω = j}
  law : ∀ t a j, μ[Set.indicator {ω | (rows t ω).A = a ∧ out t ω = j} (fun _ => (1 : ℝ)) | ℱ t] =ᵐ[μ] fun ω => pi (rows t ω).S a * e.prob (rows t ω).S a j
  rn : ∀ t ω, (rows t ω).Rn = e.reward (rows t ω).S (rows t ω).A (out t ω)
  ended : ∀ t ω, e.ends (rows t ω).S (rows t ω).A (out t ω) = true → (rows t ω).In = 0
  goes : ∀ t ω, e.ends (rows t ω).S (rows t ω).A (out t ω) = false → (rows t ω).In = gamma ∧ (rows t ω).S_next = some (e.next (rows t ω).S (rows t ω).A (out t ω))
  s_next : ∀ t ω, (rows t ω).S_next.isSome

/-- The conditions of Robbins and Monro on the learning rates: their squares have a finite sum, but those of the updates of any state do not. -/
structure RatesV [DecidableEq σ] (μ : Measure Ω) (rows : ℕ → Ω → Out σ (Fin n) ℝ) (lr tau : ℕ → ℝ) : Prop where
  nonneg : ∀ t, 0 ≤ lr t
  le : ∀ t ω, lr t * min (max (rows t ω).W 0.1) 10 ≤ 1
  squares : Summable fun t => lr t ^ 2
  visits : ∀ s, ∀ᵐ ω ∂μ, ¬ Summable fun t => if (rows t ω).S = s then lr t else 0
  tau_nonneg : ∀ t, 0 ≤ tau t
  tau_le : ∀ t, tau t ≤ 1
  syncs : ¬ Summable tau

/-! ### A state value function is a q-function with one action -/

/-- A table of state values as a table with one action. -/
def asQ (θ : σ → ℝ) : σ → Fin 1 → ℝ := fun s _ => θ s

/-- The only column of a table with one action. -/
def ofQ (q : σ → Fin 1 → ℝ) : σ → ℝ := fun s => q s 0

theorem asQ_ofQ (q : σ → Fin 1 → ℝ) : asQ (ofQ q) = q := by
  funext s a
  fin_cases a
  rfl

/-- A transition without its actions. -/
def forget (o : Out σ (Fin n) ℝ) : Out σ (Fin 1) ℝ := ⟨o.S, 0, o.logP, o.Rn, o.In, o.S_next, some 0, o.logP_next, o.W, o.idx, none⟩

/-- The target of `SimpleTD` as one for q-functions with one action. -/
noncomputable def simpleRule (q qT : QFn (σ → Fin 1 → ℝ) σ (List ℝ)) (b : TBatch σ (List ℝ)) : Except Err (List ℝ) :=
  simpleTD (tabularV (ofQ q.params)) (tabularV (ofQ qT.params)) b

theorem forget_nexts (rows : List (Out σ (Fin n) ℝ)) : (rows.map forget).mapM (fun o => o.A_next) = some (rows.map fun _ => (0 : Fin 1)) := by
  induction rows with
  | nil => rfl
  | cons o rows ih => simp [List.mapM_cons, ih, forget]

theorem forget_states (rows : List (Out σ (Fin n) ℝ)) : (rows.map forget).mapM (fun o => o.S_next) = rows.mapM fun o => o.S_next := by
  induction rows with
  | nil => rfl
  | cons o rows ih => simp [List.mapM_cons, ih, forget]

theorem asQ_predict (θ : σ → ℝ) (rows : List (Out σ (Fin n) ℝ)) :
    functionType1 1 (table true (asQ θ)) ((rows.map forget).map (·.S)) ((rows.map forget).map fun o => oneHot 1 o.A) = .ok ((rows.map (·.S)).map θ) := by
  unfold functionType1 table
  simp only [if_true]
  congr 1
  induction rows with
  | nil => rfl
  | cons o rows ih =>
    simp only [List.map_cons, List.zipWith_cons_cons, ih]
    congr 1
    rw [show List.finRange 1 = [0] from rfl]
    simp [forget, oneHot, asQ, dot]

theorem tableLossV_eq (L : LossFn) (rows : List (Out σ (Fin n) ℝ)) (θT θV θ : σ → ℝ) : tableLossV L rows θT θV θ = tableLoss L simpleRule true (rows.map forget) (asQ θT) (asQ θV) (asQ θ) := by
  unfold tableLossV tableLoss toVBatch toTBatch
  rw [forget_nexts, forget_states, asQ_predict, asQ_predict]
  cases h : rows.mapM fun o => o.S_next with
  | none => rfl
  | some S =>
    simp only
    have hW : (rows.map forget).map (·.W) = rows.map (·.W) := by simp [forget, Function.comp_def]
    have hR : (rows.map forget).map (·.Rn) = rows.map (·.Rn) := by simp [forget, Function.comp_def]
    have hI : (rows.map forget).map (·.In) = rows.map (·.In) := by simp [forget, Function.comp_def]
    rw [hW, hR, hI, List.map_id]
    rfl

section

variable [DecidableEq σ]

theorem setEntry_asQ (θ : σ → ℝ) (s : σ) (x : ℝ) : setEntry (asQ θ) s 0 x = asQ (setState θ s x) := by
  funext s' a
  fin_cases a
  simp [setEntry, asQ, setState]

theorem sgdUpdateV_eq (lr : ℝ) (L : LossFn) (θT θ : σ → ℝ) (rows : List (Out σ (Fin n) ℝ)) : sgdUpdateV lr L θT θ rows = (sgdUpdate lr L simpleRule true (asQ θT) (asQ θ) (rows.map forget)).map ofQ := by
  unfold sgdUpdateV sgdUpdate
  simp only [tableLossV_eq]
  cases tableLoss L simpleRule true (rows.map forget) (asQ θT) (asQ θ) (asQ θ) with
  | error e => rfl
  | ok out =>
    simp only
    split
    · rfl
    · refine congrArg Except.ok ?_
      funext s
      simp only [ofQ, setEntry_asQ]
      rfl

theorem learnV_eq (lr : ℕ → ℝ) (L : LossFn) (k : ℕ) (θ θT : σ → ℝ) (bs : List (List (Out σ (Fin n) ℝ) × ℝ)) :
    learnV lr L k (θ, θT) bs = (learnS lr L simpleRule true k (asQ θ, asQ θT) (bs.map fun b => (b.1.map forget, b.2))).map fun x => (ofQ x.1, ofQ x.2) := by
  induction bs generalizing k θ θT with
  | nil => rfl
  | cons b bs ih =>
    obtain ⟨rows, tau⟩ := b
    rw [learnV, List.map_cons, learnS, sgdUpdateV_eq]
    cases sgdUpdate (lr k) L simpleRule true (asQ θT) (asQ θ) (rows.map forget) with
    | error e => rfl
    | ok q =>
      have h2 : asQ (softV tau θT (ofQ q)) = softTable tau (asQ θT) q := by
        funext s a
        fin_cases a
        rfl
      show learnV lr L (k + 1) (ofQ q, softV tau θT (ofQ q)) bs = (learnS lr L simpleRule true (k + 1) (q, softTable tau (asQ θT) q) (bs.map fun b => (b.1.map forget, b.2))).map fun x => (ofQ x.1, ofQ x.2)
      rw [← h2, ih, asQ_ofQ]

/-! ### Convergence -/

/-- The target after the action and outcome `x` in state `s`. -/
def Mdp.stateGoal (e : Mdp σ n m) (gamma : ℝ) (θT : σ → Fin 1 → ℝ) (s : σ) (x : Fin n × Fin m) : ℝ := e.reward s x.1 x.2 + if e.ends s x.1 x.2 then 0 else gamma * θT (e.next s x.1 x.2) 0

theorem simple_row {e : Mdp σ n m} {gamma : ℝ} {o : Out σ (Fin n) ℝ} {j : Fin m} (rn : o.Rn = e.reward o.S o.A j) (ended : e.ends o.S o.A j = true → o.In = 0)
    (goes : e.ends o.S o.A j = false → o.In = gamma ∧ o.S_next = some (e.next o.S o.A j)) (hs : o.S_next.isSome) (θ θT : σ → Fin 1 → ℝ) :
    ∃ B, toTBatch id (fun a : Fin 1 => oneHot 1 a) [forget o] = .ok B ∧ simpleRule (tabular true θ) (tabular true θT) B = .ok [e.stateGoal gamma θT o.S (o.A, j)] := by
  obtain ⟨s, hs⟩ := Option.isSome_iff_exists.1 hs
  refine ⟨_, batch_one (o := forget o) (s := s) (a := 0) hs rfl, ?_⟩
  unfold simpleRule simpleTD tabularV backup
  simp only [List.map_cons, List.map_nil]
  rw [if_pos ⟨rfl, rfl⟩]
  simp only [List.zip_cons_cons, List.zip_nil_left, List.zipWith_cons_cons, List.zipWith_nil_left, id]
  congr 2
  unfold Mdp.stateGoal
  show o.Rn + o.In * ofQ θT s = _
  cases hE : e.ends o.S o.A j with
  | true => rw [ended hE, rn]; simp [hE]
  | false =>
    obtain ⟨g1, g2⟩ := goes hE
    rw [hs] at g2
    cases g2
    rw [g1, rn]; simp [ofQ, hE]

/-- **C128** for `SimpleTD`: if the actions are chosen by a policy, then the params of a table of state values, and those of the target network, converge almost surely to the expected returns of this policy. -/
theorem C128_simple_td [Fintype σ] {e : Mdp σ n m} (he : e.Proper) {gamma : ℝ} (h0 : 0 ≤ gamma) (h1 : gamma < 1) {pi : σ → Fin n → ℝ} (hpi : ∀ s, (∀ a, 0 ≤ pi s a) ∧ ∑ a, pi s a = 1) :
    ∃ v : σ → ℝ, (∀ s, e.Worth gamma 0 (stationary pi) s (v s)) ∧
      ∀ {Ω : Type} {m0 : MeasurableSpace Ω} {μ : Measure Ω} [IsProbabilityMeasure μ] {ℱ : Filtration ℕ m0} {lr tau : ℕ → ℝ} {rows : ℕ → Ω → Out σ (Fin n) ℝ} {out : ℕ → Ω → Fin m}, SamplesV e gamma pi μ ℱ rows out → RatesV μ rows lr tau →
        ∀ θ0 θT0, ∃ θ θT : ℕ → Ω → σ → ℝ,
          (∀ k ω, learnV lr mse1 0 (θ0, θT0) ((List.range k).map fun t => ([rows t ω], tau t)) = .ok (θ k ω, θT k ω)) ∧
          ∀ᵐ ω ∂μ, ∀ s, Tendsto (fun k => θ k ω s) atTop (𝓝 (v s)) ∧ Tendsto (fun k => θT k ω s) atTop (𝓝 (v s)) := by
  obtain ⟨v, hv, hvb⟩ := policy_solution he h0 h1 hpi
  refine ⟨v, hv, fun {Ω m0 μ _ ℱ lr tau rows out} hs hl θ0 θT0 => ?_⟩
  obtain ⟨R, hR⟩ := reward_bound e
  have hsum : ∀ (s : σ) (F : Fin n × Fin m → ℝ), ∑ x, pi s x.1 * e.prob s x.1 x.2 * F x = ∑ a, pi s a * ∑ j, e.prob s a j * F (a, j) := by
    intro s F
    rw [Fintype.sum_prod_type]
    refine Finset.sum_congr rfl fun a _ => ?_
    rw [Finset.mul_sum]
    exact Finset.sum_congr rfl fun j _ => by ring
  have hY : OutcomeTargets (fun (p : σ × Fin 1) (x : Fin n × Fin m) => pi p.1 x.1 * e.prob p.1 x.1 x.2) gamma R 0 (fun q p => ∑ a, pi p.1 a * e.back gamma (fun s => q (s, 0)) p.1 a) (fun _ θT p => e.stateGoal gamma θT p.1) := {
    nonneg := fun p x => mul_nonneg ((hpi _).1 _) (he.nonneg _ _ _)
    total := by
      intro p
      have := hsum p.1 fun _ => 1
      simp only [mul_one, he.total, (hpi _).2] at this
      exact this
    bounded := by
      intro θ θT M hθ hθT p x
      have hM : 0 ≤ M := (abs_nonneg _).trans (hθ p.1 p.2)
      unfold Mdp.stateGoal
      refine (abs_add_le _ _).trans (add_le_add (hR _ _ _) ?_)
      split
      · simpa using mul_nonneg h0 hM
      · rw [abs_mul, abs_of_nonneg h0]
        exact mul_le_mul_of_nonneg_left (hθT _ _) h0
    measurable := by
      intro p x
      unfold Mdp.stateGoal
      split
      · exact measurable_const
      · fun_prop
    close := by
      intro θ θT D hD p
      rw [hsum, zero_mul]
      exact le_of_eq (abs_eq_zero.2 (sub_eq_zero.2 rfl)) }
  have hT : Attracts (fun q (p : σ × Fin 1) => ∑ a, pi p.1 a * e.back gamma (fun s => q (s, 0)) p.1 a) (fun p => (asQ v) p.1 p.2) gamma := by
    intro q M hM p
    have hM0 : 0 ≤ M := (abs_nonneg _).trans (hM p)
    show |∑ a, pi p.1 a * e.back gamma (fun s => q (s, 0)) p.1 a - v p.1| ≤ _
    rw [hvb p.1, ← Finset.sum_sub_distrib]
    simp only [← mul_sub]
    refine policy_near (hpi p.1) fun a => ?_
    unfold Mdp.back
    rw [← Finset.sum_sub_distrib]
    simp only [← mul_sub]
    calc _ ≤ ∑ j, |e.prob p.1 a j * _| := Finset.abs_sum_le_sum_abs _ _
      _ ≤ ∑ j, e.prob p.1 a j * (gamma * M) := Finset.sum_le_sum fun j _ => by
          rw [abs_mul, abs_of_nonneg (he.nonneg _ _ _)]
          refine mul_le_mul_of_nonneg_left ?_ (he.nonneg _ _ _)
          split
          · simpa using mul_nonneg h0 hM0
          · rw [add_sub_add_left_eq_sub, ← mul_sub, abs_mul, abs_of_nonneg h0]
            exact mul_le_mul_of_nonneg_left (hM (_, 0)) h0
      _ = gamma * M := by rw [← Finset.sum_mul, he.total, one_mul]
  obtain ⟨θ, θT, h2, h3⟩ := learnS_process (μ := μ) (ℱ := ℱ) (updateRule := simpleRule) (type1 := true) (by norm_num) h0 h1 hY (lr := lr) (tau := tau) (rows := fun t ω => forget (rows t ω)) (ix := fun t ω => ((rows t ω).A, out t ω))
    (fun t s a => by
      have : {ω | (forget (rows t ω)).S = s ∧ (forget (rows t ω)).A = a} = {ω | (rows t ω).S = s} := by
        ext ω
        fin_cases a
        simp [forget]
      rw [this]
      exact hs.s_known t s)
    (fun t => hs.w_known t)
    (fun t x => by
      have : {ω | ((rows t ω).A, out t ω) = x} = {ω | (rows t ω).A = x.1 ∧ out t ω = x.2} := by
        ext ω
        simp [Prod.ext_iff]
      rw [this]
      exact hs.out_known t x.1 x.2)
    (fun t x => by
      have : {ω | ((rows t ω).A, out t ω) = x} = {ω | (rows t ω).A = x.1 ∧ out t ω = x.2} := by
        ext ω
        simp [Prod.ext_iff]
      rw [this]
      exact hs.law t x.1 x.2)
    (fun θ θT t ω => simple_row (hs.rn t ω) (hs.ended t ω) (hs.goes t ω) (hs.s_next t ω) θ θT)
    ⟨hl.nonneg, hl.le, hl.squares, fun s a => (hl.visits s).mono fun ω h hsum => h (hsum.congr fun t => by fin_cases a; simp [forget]), hl.tau_nonneg, hl.tau_le, hl.syncs⟩ (Or.inl rfl) hT (asQ θ0) (asQ θT0)
  refine ⟨fun k ω => ofQ (θ k ω), fun k ω => ofQ (θT k ω), fun k ω => ?_, ?_⟩
  · rw [learnV_eq]
    have := h2 k ω
    simp only [List.map_map, Function.comp_def, List.map_cons, List.map_nil] at this ⊢
    rw [this]
    rfl
  · filter_upwards [h3] with ω h3 s
    exact h3 s 0

end

/-! ### The online loop -/

theorem Steps.samplesV [Finite σ] {pi : σ → Fin n → ℝ} {μ : Measure Ω} [IsProbabilityMeasure μ] {ℋ : Filtration ℕ m0} {e : Mdp σ n m} {xs : ℕ → Ω → Step σ (Fin n) ℝ} {out : ℕ → Ω → Fin m} (h : Steps e μ ℋ xs out) (hpi : Obeys pi μ ℋ xs)
    (hw : ∀ t, Measurable[ℋ (2 * t)] fun ω => (xs t ω).w) (gamma : ℝ) : SamplesV e gamma pi μ (sub2 ℋ 0) (fun t ω => rowOf gamma (xs t ω) (xs (t + 1) ω) (e.ends (xs t ω).s (xs t ω).a (out t ω))) out := by
  have hint : ∀ (S : Set Ω), MeasurableSet S → Integrable (S.indicator fun _ => (1 : ℝ)) μ := fun S hS => (integrable_const _).indicator hS
  have base := h.samples gamma
  refine ⟨fun t s => h.s_known t s, hw, fun t a j => ?_, fun t a j => ?_, base.rn, base.ended, base.goes, base.s_next⟩
  · exact MeasurableSet.inter (ℋ.mono (by omega) _ (h.a_known t a)) (ℋ.mono (by omega) _ (h.out_known t j))
  · show μ[Set.indicator ({ω | (xs t ω).a = a} ∩ {ω | out t ω = j}) (fun _ => (1 : ℝ)) | ℋ (2 * t)] =ᵐ[μ] fun ω => pi (xs t ω).s a * e.prob (xs t ω).s a j
    have ha := h.a_known t a
    have ho : MeasurableSet {ω | out t ω = j} := ℋ.le _ _ (h.out_known t j)
    have hind : Set.indicator ({ω | (xs t ω).a = a} ∩ {ω | out t ω = j}) (fun _ => (1 : ℝ)) = Set.indicator {ω | (xs t ω).a = a} (Set.indicator {ω | out t ω = j} fun _ => (1 : ℝ)) := by
      rw [Set.indicator_indicator]
    rw [hind]
    have inner : μ[Set.indicator {ω | (xs t ω).a = a} (Set.indicator {ω | out t ω = j} fun _ => (1 : ℝ)) | ℋ (2 * t + 1)] =ᵐ[μ] Set.indicator {ω | (xs t ω).a = a} fun ω => e.prob (xs t ω).s a j := by
      refine (condExp_indicator (hint _ ho) ha).trans ?_
      filter_upwards [h.law t j] with ω h3
      by_cases hω : ω ∈ {ω | (xs t ω).a = a}
      · rw [Set.indicator_of_mem hω, Set.indicator_of_mem hω, h3, show (xs t ω).a = a from hω]
      · rw [Set.indicator_of_notMem hω, Set.indicator_of_notMem hω]
    have tower : μ[Set.indicator {ω | (xs t ω).a = a} (Set.indicator {ω | out t ω = j} fun _ => (1 : ℝ)) | ℋ (2 * t)] =ᵐ[μ] μ[Set.indicator {ω | (xs t ω).a = a} (fun ω => e.prob (xs t ω).s a j) | ℋ (2 * t)] :=
      (condExp_condExp_of_le (ℋ.mono (show 2 * t ≤ 2 * t + 1 by omega)) (ℋ.le _)).symm.trans (condExp_congr_ae inner)
    have all : ∀ᵐ ω ∂μ, ∀ s, (xs t ω).s = s → (μ[Set.indicator {ω | (xs t ω).a = a} (fun ω => e.prob (xs t ω).s a j) | ℋ (2 * t)]) ω = pi s a * e.prob s a j := by
      rw [ae_all_iff]
      intro s
      have hi : Integrable (Set.indicator {ω | (xs t ω).a = a} fun ω => e.prob (xs t ω).s a j) μ := integrable_condExp.congr inner
      have hg : Integrable (e.prob s a j • Set.indicator {ω | (xs t ω).a = a} (fun _ => (1 : ℝ))) μ := (hint _ (ℋ.le _ _ ha)).smul _
      have h3 := condExp_local (ℋ.le (2 * t)) hi hg (h.s_known t s) (by
        intro ω hs
        have hs : (xs t ω).s = s := hs
        by_cases hω : ω ∈ {ω | (xs t ω).a = a}
        · rw [Pi.smul_apply, Set.indicator_of_mem hω, Set.indicator_of_mem hω, hs, smul_eq_mul, mul_one]
        · rw [Pi.smul_apply, Set.indicator_of_notMem hω, Set.indicator_of_notMem hω, smul_zero])
      have h5 := condExp_smul (μ := μ) (e.prob s a j) (Set.indicator {ω | (xs t ω).a = a} fun _ => (1 : ℝ)) (ℋ (2 * t))
      filter_upwards [h3, h5, hpi t a] with ω h3 h5 h6 hω
      rw [h3 hω]
      refine Eq.trans h5 ?_
      rw [Pi.smul_apply, h6, hω, smul_eq_mul, mul_comm]
    filter_upwards [tower, all] with ω h3 h4
    exact h3.trans (h4 _ rfl)

section

variable [DecidableEq σ]

/-- **C128** for the online loop with `SimpleTD`, an `NStep` tracer with `n = 1` and a target network with a constant rate: if every action is drawn from a fixed policy that tries all actions, the params converge almost surely to the expected
returns of this policy.  Nothing raises. -/
theorem C128_online_simple_td {Ω : Type} {m0 : MeasurableSpace Ω} [Fintype σ] (hn : 0 < n) {e : Mdp σ n m} (he : e.Proper) {gamma : ℝ} (h0 : 0 ≤ gamma) (h1 : gamma < 1) {pi : σ → Fin n → ℝ} (hpi : ∀ s, (∀ a, 0 ≤ pi s a) ∧ ∑ a, pi s a = 1)
    {μ : Measure Ω} [IsProbabilityMeasure μ] {ℋ : Filtration ℕ m0} {lr : ℕ → ℝ} {xs : ℕ → Ω → Step σ (Fin n) ℝ} {out : ℕ → Ω → Fin m} (hx : Explorer e μ ℋ xs out lr) (hobey : Obeys pi μ ℋ xs) (hw : ∀ t, Measurable[ℋ (2 * t)] fun ω => (xs t ω).w)
    {tau : ℝ} (ht0 : 0 < tau) (ht1 : tau ≤ 1) {v : σ → ℝ} (hv : ∀ s, e.Worth gamma 0 (stationary pi) s (v s)) (θ0 θT0 : σ → ℝ) :
    ∃ θ θT : ℕ → Ω → σ → ℝ,
      (∀ k ω, ∃ t c, onlineV lr tau mse1 (NStep.init 1 gamma false, (θ0, θT0), 0) ((List.range k).map fun t => (xs t ω, e.ends (xs t ω).s (xs t ω).a (out t ω))) = .ok (t, (θ k ω, θT k ω), c)) ∧
      ∀ᵐ ω ∂μ, ∀ s, Tendsto (fun k => θ k ω s) atTop (𝓝 (v s)) ∧ Tendsto (fun k => θT k ω s) atTop (𝓝 (v s)) := by
  obtain ⟨v', hv', H⟩ := C128_simple_td (σ := σ) he h0 h1 hpi
  obtain rfl : v' = v := funext fun s => tendsto_nhds_unique (hv' s) (hv s)
  have hr := hx.rates gamma ht0 ht1
  have hrates : RatesV μ (fun t ω => rowOf gamma (xs t ω) (xs (t + 1) ω) (e.ends (xs t ω).s (xs t ω).a (out t ω))) lr (fun _ => tau) := by
    refine ⟨hr.nonneg, hr.le, hr.squares, fun s => (hr.visits s ⟨0, hn⟩).mono fun ω h2 hsum => h2 ?_, hr.tau_nonneg, hr.tau_le, hr.syncs⟩
    refine Summable.of_nonneg_of_le (fun t => ?_) (fun t => ?_) hsum
    · split
      · exact hr.nonneg t
      · exact le_rfl
    · split
      · rename_i hp
        rw [if_pos hp.1]
      · split
        · exact hr.nonneg t
        · exact le_rfl
  obtain ⟨θ, θT, h2, h3⟩ := H (hx.steps.samplesV hobey hw gamma) hrates θ0 θT0
  set dn : ℕ → Ω → Bool := fun t ω => e.ends (xs t ω).s (xs t ω).a (out t ω) with hdn
  have start : ∀ ω, (θ 0 ω, θT 0 ω) = (θ0, θT0) := fun ω => (Except.ok.inj (h2 0 ω)).symm
  have append : ∀ {s s' : (σ → ℝ) × (σ → ℝ)} {k : ℕ} {bs cs : List (List (Out σ (Fin n) ℝ) × ℝ)}, learnV lr mse1 k s bs = .ok s' → learnV lr mse1 k s (bs ++ cs) = learnV lr mse1 (k + bs.length) s' cs := by
    intro s s' k bs cs h
    induction bs generalizing k s with
    | nil => cases h; rfl
    | cons b bs ih =>
      obtain ⟨θ, θT⟩ := s
      obtain ⟨rows, tau⟩ := b
      rw [learnV] at h
      rw [List.cons_append, learnV]
      split at h
      · cases h
      · rw [ih h, List.length_cons, Nat.add_assoc, Nat.add_comm 1]
  have step : ∀ ω j, updateV lr tau mse1 j (θ j ω, θT j ω) (rowOf gamma (xs j ω) (xs (j + 1) ω) (dn j ω)) = .ok (θ (j + 1) ω, θT (j + 1) ω) := by
    intro ω j
    have h4 := h2 (j + 1) ω
    rw [List.range_succ, List.map_append, append (h2 j ω)] at h4
    simp only [List.map_cons, List.map_nil, List.length_map, List.length_range, Nat.zero_add] at h4
    rw [learnV] at h4
    split at h4
    · cases h4
    · rename_i θ' he
      rw [learnV] at h4
      rw [updateV, he]
      exact h4
  have main := fun ω => onlineU_learn (dn := fun t => dn t ω) (θ := fun t => (θ t ω, θT t ω)) h0 h1.le (fun t => hx.steps.logp t ω) (fun t => hx.steps.w t ω) (step ω)
  refine ⟨fun k ω => match k with | 0 => θ 0 ω | j + 1 => if dn j ω then θ (j + 1) ω else θ j ω, fun k ω => match k with | 0 => θT 0 ω | j + 1 => if dn j ω then θT (j + 1) ω else θT j ω, fun k ω => ?_, ?_⟩
  · rw [← start ω, onlineV, main ω k]
    cases k with
    | zero => exact ⟨_, _, rfl⟩
    | succ j =>
      simp only
      split
      · exact ⟨_, _, rfl⟩
      · exact ⟨_, _, rfl⟩
  · filter_upwards [h3] with ω h3 s
    have e1 := late_tendsto (fun j => dn j ω) (h3 s).1
    have e2 := late_tendsto (fun j => dn j ω) (h3 s).2
    constructor
    · refine e1.congr fun k => ?_
      cases k with
      | zero => rfl
      | succ j => simp only; split <;> rfl
    · refine e2.congr fun k => ?_
      cases k with
      | zero => rfl
      | succ j => simp only; split <;> rfl

end

/-- The hypotheses of C128 are met: an agent that flips coins, with a target network at rate 1/100, learns the state values of this policy. -/
example (θ0 θT0 : Bool → ℝ) : ∃ v : Bool → ℝ, ∃ θ θT : ℕ → (ℕ → Bool) → Bool → ℝ, (∀ s, twoCoins.Worth (1 / 2) 0 (stationary fun _ _ => 1 / 2) s (v s)) ∧
    (∀ k ω, ∃ t c, onlineV (fun t => 1 / ((t : ℝ) + 1)) (1 / 100) mse1 (NStep.init 1 (1 / 2) false, (θ0, θT0), 0)
      ((List.range k).map fun t => (coinSteps t ω, twoCoins.ends (coinSteps t ω).s (coinSteps t ω).a (if ω (2 * t + 2) then 1 else 0))) = .ok (t, (θ k ω, θT k ω), c)) ∧
    ∀ᵐ ω ∂coins, ∀ s, Tendsto (fun k => θ k ω s) atTop (𝓝 (v s)) ∧ Tendsto (fun k => θT k ω s) atTop (𝓝 (v s)) := by
  have hp : twoCoins.Proper := ⟨fun _ _ _ => by norm_num [twoCoins], fun _ _ => by norm_num [twoCoins]⟩
  have hpi : ∀ s : Bool, (∀ a : Fin 2, 0 ≤ (fun _ _ => 1 / 2 : Bool → Fin 2 → ℝ) s a) ∧ ∑ a : Fin 2, (fun _ _ => 1 / 2 : Bool → Fin 2 → ℝ) s a = 1 := fun s => ⟨fun a => by norm_num, by norm_num⟩
  obtain ⟨v, hv, -⟩ := C128_simple_td hp (gamma := 1 / 2) (by norm_num) (by norm_num) hpi
  obtain ⟨θ, θT, h, h'⟩ := C128_online_simple_td (by norm_num) hp (by norm_num) (by norm_num) hpi coin_explorer coin_obeys (fun t => measurable_const) (tau := 1 / 100) (by norm_num) (by norm_num) hv θ0 θT0
  exact ⟨v, θ, θT, hv, h, h'⟩

end Coax.Loop
