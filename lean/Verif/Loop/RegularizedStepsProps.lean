import Verif.Loop.RegularizedStepsLemmas

/-! C147 with an `NStep` tracer that looks any number of steps ahead. -/

namespace Coax.Loop

open Coax.RewardTracing Coax.TD Coax.Core Coax.Values Coax.Pol Coax.Dists Filter Topology MeasureTheory

variable {σ : Type _} {n m : Nat}

/-! ### Specification -/

/-- The expected sum of the discounted rewards of `k` steps from time `i` on, where `f` of the state is added at each time that is a multiple of `N`. -/
noncomputable def Mdp.spaced (e : Mdp σ n m) (gamma : ℝ) (pi : σ → Fin n → ℝ) (f : σ → ℝ) (N : ℕ) : ℕ → ℕ → σ → ℝ
  | 0, _, _ => 0
  | k + 1, i, s => (if i % N = 0 then f s else 0) + ∑ a, pi s a * ∑ j, e.prob s a j * (e.reward s a j + if e.ends s a j then 0 else gamma * e.spaced gamma pi f N k (i + 1) (e.next s a j))

/-- `x` is the expected return from `s` with `beta` times the entropies of the policy at the times `0`, `N`, `2 N`, ... -/
def Mdp.WorthSpaced (e : Mdp σ n m) (gamma beta : ℝ) (pi : σ → Fin n → ℝ) (N : ℕ) (s : σ) (x : ℝ) : Prop := Tendsto (fun k => e.spaced gamma pi (fun s => beta * disorder (pi s)) N k 0 s) atTop (𝓝 x)

/-! ### The mean of several steps -/

/-- The mean of `e.Ahead` for the actions of the policy. -/
def Mdp.aheadV (e : Mdp σ n m) (gamma : ℝ) (pi : σ → Fin n → ℝ) (v : σ → ℝ) (N : ℕ) (s : σ) : ℝ := ∑ a, pi s a * e.Ahead gamma pi v N s a

section

variable {e : Mdp σ n m} {gamma : ℝ} {pi : σ → Fin n → ℝ} (hpi : ∀ s, (∀ a, 0 ≤ pi s a) ∧ ∑ a, pi s a = 1)

include hpi

theorem aheadV_zero (v : σ → ℝ) (s : σ) : e.aheadV gamma pi v 0 s = v s := by
  simp only [Mdp.aheadV, Mdp.Ahead, ← Finset.sum_mul, (hpi s).2, one_mul]

omit hpi in
theorem aheadV_succ (v : σ → ℝ) (N : ℕ) (s : σ) :
    e.aheadV gamma pi v (N + 1) s = ∑ a, pi s a * ∑ j, e.prob s a j * (e.reward s a j + if e.ends s a j then 0 else gamma * e.aheadV gamma pi v N (e.next s a j)) := rfl

theorem chainOp_cells (w : σ × Fin n → ℝ) (N : ℕ) (p : σ × Fin n) :
    (chainOp (e.nextProb pi) e.rewardNext e.stopNext e.cellNext gamma)^[N + 1] w p = e.Ahead gamma pi (fun s => ∑ a, pi s a * w (s, a)) (N + 1) p.1 p.2 := by
  induction N generalizing p with
  | zero =>
    rw [Function.iterate_succ_apply', chainOp_next e gamma hpi, Mdp.Ahead]
    simp only [Function.iterate_zero, id, Mdp.Ahead, ← Finset.sum_mul, (hpi _).2, one_mul]
  | succ N ih =>
    rw [Function.iterate_succ_apply', chainOp_next e gamma hpi, Mdp.Ahead]
    simp only [ih]

/-- The mean of one step from a state. -/
noncomputable def Mdp.stateOp (e : Mdp σ n m) (gamma : ℝ) (pi : σ → Fin n → ℝ) : (σ × Fin 1 → ℝ) → σ × Fin 1 → ℝ :=
  chainOp (fun (p : σ × Fin 1) (x : Fin n × Fin m) => pi p.1 x.1 * e.prob p.1 x.1 x.2) (fun p x => e.reward p.1 x.1 x.2) (fun p x => e.ends p.1 x.1 x.2) (fun p x => (e.next p.1 x.1 x.2, 0)) gamma

omit hpi in
theorem sum_pairs (s : σ) (F : Fin n × Fin m → ℝ) : ∑ x : Fin n × Fin m, pi s x.1 * e.prob s x.1 x.2 * F x = ∑ a, pi s a * ∑ j, e.prob s a j * F (a, j) := by
  rw [Fintype.sum_prod_type]
  refine Finset.sum_congr rfl fun a _ => ?_
  rw [Finset.mul_sum]
  exact Finset.sum_congr rfl fun j _ => by ring

theorem stateOp_ahead (w : σ × Fin 1 → ℝ) (N : ℕ) (p : σ × Fin 1) : (e.stateOp gamma pi)^[N] w p = e.aheadV gamma pi (fun s => w (s, 0)) N p.1 := by
  induction N generalizing p with
  | zero =>
    rw [aheadV_zero hpi]
    exact congrArg w (Prod.ext rfl (Subsingleton.elim _ _))
  | succ N ih =>
    rw [Function.iterate_succ_apply', aheadV_succ, Mdp.stateOp, chainOp, sum_pairs]
    refine Finset.sum_congr rfl fun a _ => congrArg _ (Finset.sum_congr rfl fun j _ => ?_)
    rw [show chainOp (fun (p : σ × Fin 1) (x : Fin n × Fin m) => pi p.1 x.1 * e.prob p.1 x.1 x.2) (fun p x => e.reward p.1 x.1 x.2) (fun p x => e.ends p.1 x.1 x.2) (fun p x => (e.next p.1 x.1 x.2, 0)) gamma = e.stateOp gamma pi from rfl, ih]

theorem pairs_nonneg (he : e.Proper) (p : σ × Fin 1) (x : Fin n × Fin m) : 0 ≤ pi p.1 x.1 * e.prob p.1 x.1 x.2 := mul_nonneg ((hpi _).1 _) (he.nonneg _ _ _)

theorem pairs_total (he : e.Proper) (p : σ × Fin 1) : ∑ x : Fin n × Fin m, pi p.1 x.1 * e.prob p.1 x.1 x.2 = 1 := by
  have := sum_pairs (e := e) (pi := pi) p.1 fun _ => 1
  simp only [mul_one, he.total, (hpi _).2] at this
  exact this

theorem aheadV_close (he : e.Proper) (h0 : 0 ≤ gamma) {v v' : σ → ℝ} {M : ℝ} (hM : ∀ s, |v s - v' s| ≤ M) (N : ℕ) (s : σ) : |e.aheadV gamma pi v N s - e.aheadV gamma pi v' N s| ≤ gamma ^ N * M := by
  have h := chainOp_iterate_close (rew := fun p x => e.reward p.1 x.1 x.2) (stop := fun p x => e.ends p.1 x.1 x.2) (next := fun p x => (e.next p.1 x.1 x.2, 0)) h0 (pairs_nonneg hpi he) (pairs_total hpi he) (v := fun p => v p.1) (v' := fun p => v' p.1)
    (fun p => hM p.1) N (s, 0)
  have h2 := stateOp_ahead (e := e) (gamma := gamma) hpi (fun p : σ × Fin 1 => v p.1) N (s, 0)
  have h3 := stateOp_ahead (e := e) (gamma := gamma) hpi (fun p : σ × Fin 1 => v' p.1) N (s, 0)
  rw [Mdp.stateOp] at h2 h3
  rw [h2, h3] at h
  exact h

/-- The equation for `N` steps has a solution. -/
theorem spaced_solution [Fintype σ] (he : e.Proper) (h0 : 0 ≤ gamma) (h1 : gamma < 1) {N : ℕ} (hN : 0 < N) (f : σ → ℝ) : ∃ v : σ → ℝ, ∀ s, v s = f s + e.aheadV gamma pi v N s := by
  have hgN : gamma ^ N ≤ gamma := pow_le_of_le_one h0 h1.le hN.ne'
  have hc : ContractingWith ⟨gamma, h0⟩ fun (v : σ → ℝ) s => f s + e.aheadV gamma pi v N s := by
    refine ⟨by exact_mod_cast h1, LipschitzWith.of_dist_le_mul fun v v' => ?_⟩
    refine (dist_pi_le_iff (mul_nonneg h0 dist_nonneg)).2 fun s => ?_
    rw [Real.dist_eq, add_sub_add_left_eq_sub]
    exact (aheadV_close hpi he h0 (M := dist v v') (fun s => by rw [← Real.dist_eq]; exact dist_le_pi_dist v v' s) N s).trans (mul_le_mul_of_nonneg_right hgN dist_nonneg)
  exact ⟨ContractingWith.fixedPoint _ hc, fun s => (congrFun hc.fixedPoint_isFixedPt s).symm⟩

/-- The values of a solution at all times. -/
theorem spaced_close (he : e.Proper) (h0 : 0 ≤ gamma) {N : ℕ} (hN : 0 < N) (f : σ → ℝ) {v : σ → ℝ} (hv : ∀ s, v s = f s + e.aheadV gamma pi v N s) {B : ℝ} (hB : ∀ c ≤ N, ∀ s, |(if c = N then f s else 0) + e.aheadV gamma pi v c s| ≤ B) (k i : ℕ) (s : σ) :
    |e.spaced gamma pi f N k i s - ((if i % N = 0 then f s else 0) + e.aheadV gamma pi v (N - i % N) s)| ≤ gamma ^ k * B := by
  induction k generalizing i s with
  | zero =>
    have hlt := Nat.mod_lt i hN
    have := hB (N - i % N) (by omega) s
    rw [Mdp.spaced, zero_sub, abs_neg, pow_zero, one_mul]
    by_cases h : i % N = 0
    · rw [if_pos h]
      rwa [if_pos (by omega)] at this
    · rw [if_neg h]
      rwa [if_neg (by omega)] at this
  | succ k ih =>
    have hlt := Nat.mod_lt i hN
    obtain ⟨c, hc⟩ : ∃ c, N - i % N = c + 1 := ⟨N - i % N - 1, by omega⟩
    have hnext : ∀ s, (if (i + 1) % N = 0 then f s else 0) + e.aheadV gamma pi v (N - (i + 1) % N) s = e.aheadV gamma pi v c s := by
      intro s
      rw [Nat.add_mod]
      rcases Nat.eq_or_lt_of_le (show 1 ≤ N by omega) with rfl | h2
      · have : c = 0 := by omega
        simp only [Nat.mod_one, if_true, Nat.sub_zero]
        rw [this, aheadV_zero hpi, ← hv]
      · rw [Nat.mod_eq_of_lt h2]
        by_cases h3 : i % N + 1 = N
        · have : c = 0 := by omega
          rw [h3, Nat.mod_self, if_pos rfl, Nat.sub_zero, this, aheadV_zero hpi, ← hv]
        · rw [Nat.mod_eq_of_lt (by omega), if_neg (by omega), zero_add]
          congr 1
          omega
    rw [Mdp.spaced, hc, aheadV_succ, add_sub_add_left_eq_sub, ← Finset.sum_sub_distrib]
    have hB0 : 0 ≤ gamma ^ (k + 1) * B := mul_nonneg (pow_nonneg h0 _) ((abs_nonneg _).trans (hB 0 (by omega) s))
    refine (Finset.abs_sum_le_sum_abs _ _).trans ?_
    calc _ ≤ ∑ a, pi s a * (gamma ^ (k + 1) * B) := Finset.sum_le_sum fun a _ => ?_
      _ = gamma ^ (k + 1) * B := by rw [← Finset.sum_mul, (hpi s).2, one_mul]
    rw [← mul_sub, abs_mul, abs_of_nonneg ((hpi s).1 a), ← Finset.sum_sub_distrib]
    refine mul_le_mul_of_nonneg_left ?_ ((hpi s).1 a)
    refine (Finset.abs_sum_le_sum_abs _ _).trans ?_
    calc _ ≤ ∑ j, e.prob s a j * (gamma ^ (k + 1) * B) := Finset.sum_le_sum fun j _ => ?_
      _ = gamma ^ (k + 1) * B := by rw [← Finset.sum_mul, he.total, one_mul]
    rw [← mul_sub, abs_mul, abs_of_nonneg (he.nonneg _ _ _), add_sub_add_left_eq_sub]
    refine mul_le_mul_of_nonneg_left ?_ (he.nonneg _ _ _)
    split
    · simpa using hB0
    · rw [← mul_sub, abs_mul, abs_of_nonneg h0, ← hnext, pow_succ', mul_assoc]
      exact mul_le_mul_of_nonneg_left (ih (i + 1) _) h0

theorem spaced_tends [Finite σ] (he : e.Proper) (h0 : 0 ≤ gamma) (h1 : gamma < 1) {N : ℕ} (hN : 0 < N) {f : σ → ℝ} {v : σ → ℝ} (hv : ∀ s, v s = f s + e.aheadV gamma pi v N s) (s : σ) : Tendsto (fun k => e.spaced gamma pi f N k 0 s) atTop (𝓝 (v s)) := by
  obtain ⟨B, hB⟩ : ∃ B, ∀ c ≤ N, ∀ s, |(if c = N then f s else 0) + e.aheadV gamma pi v c s| ≤ B := by
    have := fun c => bounded fun s => (if c = N then f s else 0) + e.aheadV gamma pi v c s
    choose B hB using this
    refine ⟨∑ c ∈ Finset.range (N + 1), |B c|, fun c hc s => (hB c s).trans ((le_abs_self _).trans ?_)⟩
    exact Finset.single_le_sum (f := fun c => |B c|) (fun c _ => abs_nonneg _) (Finset.mem_range.2 (by omega))
  have hz : Tendsto (fun k => gamma ^ k * B) atTop (𝓝 0) := by
    have := (tendsto_pow_atTop_nhds_zero_of_lt_one h0 h1).mul_const B
    rwa [zero_mul] at this
  rw [tendsto_iff_dist_tendsto_zero]
  refine squeeze_zero (fun k => dist_nonneg) (fun k => ?_) hz
  have := spaced_close hpi he h0 hN f hv hB k 0 s
  rw [Nat.zero_mod, if_pos rfl, Nat.sub_zero, ← hv] at this
  rwa [Real.dist_eq]

theorem worthSpaced_fixed [Fintype σ] (he : e.Proper) (h0 : 0 ≤ gamma) (h1 : gamma < 1) {N : ℕ} (hN : 0 < N) {beta : ℝ} {v : σ → ℝ} (hv : ∀ s, e.WorthSpaced gamma beta pi N s (v s)) (s : σ) :
    v s = beta * disorder (pi s) + ∑ a, pi s a * e.Ahead gamma pi v N s a := by
  obtain ⟨v', hv'⟩ := spaced_solution hpi he h0 h1 hN fun s => beta * disorder (pi s)
  obtain rfl : v' = v := funext fun s => tendsto_nhds_unique (spaced_tends hpi he h0 h1 hN hv' s) (hv s)
  exact hv' s

end

/-- **C147**, several steps: the expected return with the entropies at the times `0`, `N`, `2 N`, ... exists, and is the only solution of the equation for `N` steps in which `beta` times the entropy of the first state is added. -/
theorem C147_nstep_exists [Fintype σ] {e : Mdp σ n m} (he : e.Proper) {gamma : ℝ} (h0 : 0 ≤ gamma) (h1 : gamma < 1) {N : ℕ} (hN : 0 < N) (beta : ℝ) {pi : σ → Fin n → ℝ} (hpi : ∀ s, (∀ a, 0 ≤ pi s a) ∧ ∑ a, pi s a = 1) :
    ∃ v : σ → ℝ, (∀ s, e.WorthSpaced gamma beta pi N s (v s)) ∧ ∀ v', (∀ s, v' s = beta * disorder (pi s) + ∑ a, pi s a * e.Ahead gamma pi v' N s a) ↔ v' = v := by
  obtain ⟨v, hv⟩ := spaced_solution hpi he h0 h1 hN fun s => beta * disorder (pi s)
  refine ⟨v, spaced_tends hpi he h0 h1 hN hv, fun v' => ⟨fun h => ?_, ?_⟩⟩
  · exact funext fun s => tendsto_nhds_unique (spaced_tends hpi he h0 h1 hN h s) (spaced_tends hpi he h0 h1 hN hv s)
  · rintro rfl
    exact hv

/-- **C147**, several steps: with one step these are the returns with all the entropies. -/
theorem C147_nstep_one (e : Mdp σ n m) (gamma beta : ℝ) (pi : σ → Fin n → ℝ) (s : σ) (x : ℝ) : e.WorthSpaced gamma beta pi 1 s x ↔ e.Worth gamma beta (stationary pi) s x := by
  have h : ∀ k i (h : History σ n m) s, e.spaced gamma pi (fun s => beta * disorder (pi s)) 1 k i s = e.ret gamma beta (stationary pi) k h s := by
    intro k
    induction k with
    | zero => intros; rfl
    | succ k ih =>
      intro i h s
      rw [Mdp.spaced, Mdp.ret, if_pos (Nat.mod_one i), add_comm]
      congr 1
      exact Finset.sum_congr rfl fun a _ => congrArg _ (Finset.sum_congr rfl fun j _ => by rw [ih (i + 1) (h ++ [(s, a, j)])])
  unfold Mdp.WorthSpaced Mdp.Worth
  simp only [h _ 0 []]

/-! ### What is learned -/

section

variable [DecidableEq σ] [Fintype σ] {Ω : Type _} {m0 : MeasurableSpace Ω}

/-- **C147** for `SimpleTD` with several steps: with `EntropyRegularizer(pi, beta)` and an `NStep` tracer that looks `N` steps ahead, where `pi` chooses the actions, the params converge almost surely to the expected sum of the discounted rewards and of
`beta` times the entropies at the times `0`, `N`, `2 N`, ...  Nothing raises. -/
theorem C147_nstep_simple_td (hn : 0 < n) {e : Mdp σ n m} (he : e.Proper) {gamma : ℝ} (h0 : 0 ≤ gamma) (h1 : gamma < 1) {N : ℕ} (hN : 0 < N) (logits : σ → Fin n → ℝ) (beta : ℝ) {μ : Measure Ω} [IsProbabilityMeasure μ] {ℋ : Filtration ℕ m0}
    {lr : ℕ → ℝ} {xs : ℕ → Ω → Step σ (Fin n) ℝ} {out : ℕ → Ω → Fin m} (hx : Explorer e μ ℋ xs out lr) (hanti : Antitone lr) (hobey : Obeys (chances logits) μ ℋ xs) (hw : ∀ t, Measurable[ℋ (2 * t)] fun ω => (xs t ω).w) {tau : ℝ} (ht0 : 0 < tau)
    (ht1 : tau ≤ 1) {v : σ → ℝ} (hv : ∀ s, e.WorthSpaced gamma beta (chances logits) N s (v s)) (θ0 θT0 : σ → ℝ) :
    ∃ θ θT : ℕ → Ω → σ → ℝ,
      (∀ k ω, ∃ t c, onlineVReg lr tau mse1 (regBatch logits (entropyReg n beta)) (NStep.init N gamma false, (θ0, θT0), 0) ((List.range k).map fun t => (xs t ω, e.ends (xs t ω).s (xs t ω).a (out t ω))) = .ok (t, (θ k ω, θT k ω), c)) ∧
      ∀ᵐ ω ∂μ, ∀ s, Tendsto (fun k => θ k ω s) atTop (𝓝 (v s)) ∧ Tendsto (fun k => θT k ω s) atTop (𝓝 (v s)) := by
  have hpi := chances_policy hn logits
  have hfix := worthSpaced_fixed hpi he h0 h1 hN hv
  have hr := hx.rates gamma ht0 ht1
  have hs := hx.steps.samplesV hobey hw gamma
  refine onlineVReg_of_rowN (dn := fun t ω => e.ends (xs t ω).s (xs t ω).a (out t ω)) h0 h1.le hN (pays_entropy logits beta) hx.steps.logp hx.steps.w ?_
  have hc : Chain μ (sub2 ℋ 0) (fun (p : σ × Fin 1) (x : Fin n × Fin m) => chances logits p.1 x.1 * e.prob p.1 x.1 x.2) (fun p x => e.ends p.1 x.1 x.2) (fun p x => (e.next p.1 x.1 x.2, 0))
      (fun t ω => ((xs t ω).s, (0 : Fin 1))) (fun t ω => ((xs t ω).a, out t ω)) := by
    refine ⟨fun t p => ?_, fun t x => ?_, fun t x => ?_, fun t ω h => Prod.ext (hx.steps.next t ω h) rfl⟩
    · have : {ω | ((xs t ω).s, (0 : Fin 1)) = p} = {ω | (xs t ω).s = p.1} := by
        ext ω
        simp [Prod.ext_iff, Subsingleton.elim p.2 0]
      rw [this]
      exact hs.s_known t p.1
    · have : {ω | ((xs t ω).a, out t ω) = x} = {ω | (xs t ω).a = x.1 ∧ out t ω = x.2} := by
        ext ω
        simp [Prod.ext_iff]
      rw [this]
      exact hs.out_known t x.1 x.2
    · have : {ω | ((xs t ω).a, out t ω) = x} = {ω | (xs t ω).a = x.1 ∧ out t ω = x.2} := by
        ext ω
        simp [Prod.ext_iff]
      rw [this]
      exact hs.law t x.1 x.2
  have hrates : Rates μ (fun t ω => forget (rowN gamma N (fun t => xs t ω) (fun t => e.ends (xs t ω).s (xs t ω).a (out t ω)) t)) lr (fun _ => tau) := by
    refine ⟨hr.nonneg, hr.le, hr.squares, fun s a0 => (hr.visits s ⟨0, hn⟩).mono fun ω h2 hsum => h2 ?_, hr.tau_nonneg, hr.tau_le, hr.syncs⟩
    refine Summable.of_nonneg_of_le (fun t => ?_) (fun t => ?_) hsum
    · split
      · exact hr.nonneg t
      · exact le_rfl
    · split
      · rename_i hp
        rw [if_pos ⟨hp.1, Subsingleton.elim _ _⟩]
      · split
        · exact hr.nonneg t
        · exact le_rfl
  obtain ⟨θ, θT, h2, h3⟩ := learnS_lookahead_pay (updateRule := simpleRule) additive_simple (type1 := true) (rows := fun t ω => forget (rowN gamma N (fun t => xs t ω) (fun t => e.ends (xs t ω).s (xs t ω).a (out t ω)) t)) (boot := fun q => q)
    (best := asQ v) (by norm_num) h0 h1 hN (fun s => beta * disorder (chances logits s)) (pairs_nonneg hpi he) (pairs_total hpi he) hc hw (fun q1 q2 M hM p => hM p) (rew := fun p x => e.reward p.1 x.1 x.2) (fun θ θT t ω => by
        obtain ⟨B, h2, h3⟩ := simple_rowN gamma N (fun t => xs t ω) (fun t => e.ends (xs t ω).s (xs t ω).a (out t ω)) t θ θT
        refine ⟨B, h2, h3.trans ?_⟩
        have := pathRet_rowN (gamma := gamma) (rew := fun (p : σ × Fin 1) (x : Fin n × Fin m) => e.reward p.1 x.1 x.2) (stop := fun p x => e.ends p.1 x.1 x.2) (z := fun t => ((xs t ω).s, (0 : Fin 1))) (x := fun t => ((xs t ω).a, out t ω))
          (xs := fun t => xs t ω) (dn := fun t => e.ends (xs t ω).s (xs t ω).a (out t ω)) (fun t => hx.steps.reward t ω) (fun t => rfl) (fun p => θT p.1 p.2) N t
        rw [← this]
        rfl) hrates hanti (fun p => by
        have h2 := stateOp_ahead (e := e) (gamma := gamma) hpi (fun p : σ × Fin 1 => asQ v p.1 p.2) N p
        rw [Mdp.stateOp] at h2
        rw [h2]
        exact (hfix p.1).symm) (asQ θ0) (asQ θT0)
  refine ⟨fun k ω => ofQ (θ k ω), fun k ω => ofQ (θT k ω), fun k ω => ?_, ?_⟩
  · rw [learnV_eq]
    have := h2 k ω
    simp only [List.map_map, Function.comp_def, List.map_cons, List.map_nil] at this ⊢
    have e1 : ∀ o : Out σ (Fin n) ℝ, forget (payRow (fun s => beta * disorder (chances logits s)) o) = payRow (fun s => beta * disorder (chances logits s)) (forget o) := fun o => rfl
    simp only [e1]
    rw [this]
    rfl
  · filter_upwards [h3] with ω h3 s
    exact h3 s 0

/-- **C147** for `Sarsa` with several steps: under the same conditions the params converge almost surely to `beta` times the entropy in the first state, plus the expected rewards of `N` steps, plus the value of the state that is then reached, in which the
entropies at the times `0`, `N`, `2 N`, ... count.  Nothing raises. -/
theorem C147_nstep_sarsa (hn : 0 < n) {e : Mdp σ n m} (he : e.Proper) {gamma : ℝ} (h0 : 0 ≤ gamma) (h1 : gamma < 1) {N : ℕ} (hN : 0 < N) (logits : σ → Fin n → ℝ) (beta : ℝ) {μ : Measure Ω} [IsProbabilityMeasure μ] {ℋ : Filtration ℕ m0}
    {lr : ℕ → ℝ} {xs : ℕ → Ω → Step σ (Fin n) ℝ} {out : ℕ → Ω → Fin m} (hx : Explorer e μ ℋ xs out lr) (hanti : Antitone lr) (hobey : Obeys (chances logits) μ ℋ xs) {tau : ℝ} (ht0 : 0 < tau) (ht1 : tau ≤ 1) {v : σ → ℝ}
    (hv : ∀ s, e.WorthSpaced gamma beta (chances logits) N s (v s)) (type1 : Bool) (θ0 θT0 : σ → Fin n → ℝ) :
    ∃ θ θT : ℕ → Ω → σ → Fin n → ℝ,
      (∀ k ω, ∃ t c, onlineTReg lr tau mse1 (regBatch logits (entropyReg n beta)) (sarsa n) type1 (NStep.init N gamma false, (θ0, θT0), 0) ((List.range k).map fun t => (xs t ω, e.ends (xs t ω).s (xs t ω).a (out t ω))) = .ok (t, (θ k ω, θT k ω), c)) ∧
      ∀ᵐ ω ∂μ, ∀ s a, Tendsto (fun k => θ k ω s a) atTop (𝓝 (beta * disorder (chances logits s) + e.Ahead gamma (chances logits) v N s a)) ∧
        Tendsto (fun k => θT k ω s a) atTop (𝓝 (beta * disorder (chances logits s) + e.Ahead gamma (chances logits) v N s a)) := by
  have hpi := chances_policy hn logits
  have hfix := worthSpaced_fixed hpi he h0 h1 hN hv
  have hrates := hx.rates gamma ht0 ht1
  refine onlineTReg_of_rowN (best := fun s a => beta * disorder (chances logits s) + e.Ahead gamma (chances logits) v N s a) (dn := fun t ω => e.ends (xs t ω).s (xs t ω).a (out t ω)) h0 h1.le hN (pays_entropy logits beta) additive_sarsa
    hx.steps.logp hx.steps.w ?_
  refine learnS_lookahead_pay additive_sarsa (rows := fun t ω => rowN gamma N (fun t => xs t ω) (fun t => e.ends (xs t ω).s (xs t ω).a (out t ω)) t) (boot := fun q => q) hn h0 h1 hN (fun s => beta * disorder (chances logits s))
    (nextProb_nonneg he hpi) (nextProb_total he hpi) (hx.steps.chain hobey gamma) hx.steps.w_known (fun q1 q2 M hM p => hM p) (rew := e.rewardNext) (fun θ θT t ω => ?_)
    ⟨hrates.nonneg, hrates.le, hrates.squares, hrates.visits, hrates.tau_nonneg, hrates.tau_le, hrates.syncs⟩ hanti (fun p => ?_) θ0 θT0
  · obtain ⟨B, h2, h3⟩ := sarsa_rowN hn type1 gamma N (fun t => xs t ω) (fun t => e.ends (xs t ω).s (xs t ω).a (out t ω)) t θ θT
    refine ⟨B, h2, h3.trans ?_⟩
    have := pathRet_rowN (gamma := gamma) (rew := e.rewardNext) (stop := e.stopNext) (z := fun t => ((xs t ω).s, (xs t ω).a)) (x := fun t => e.outNext (fun t ω => rowOf gamma (xs t ω) (xs (t + 1) ω) (e.ends (xs t ω).s (xs t ω).a (out t ω))) out t ω)
      (xs := fun t => xs t ω) (dn := fun t => e.ends (xs t ω).s (xs t ω).a (out t ω)) (fun t => hx.steps.reward t ω) (fun t => rfl) (fun p => θT p.1 p.2) N t
    rw [← this]
    rfl
  · obtain ⟨M, rfl⟩ : ∃ M, N = M + 1 := ⟨N - 1, by omega⟩
    rw [chainOp_cells hpi]
    have : (fun s => ∑ a, chances logits s a * (beta * disorder (chances logits s) + e.Ahead gamma (chances logits) v (M + 1) s a)) = v := by
      funext s
      rw [hfix s]
      simp only [mul_add, Finset.sum_add_distrib, ← Finset.sum_mul, (hpi s).2, one_mul]
    dsimp only
    rw [this]

/-- An update rule of which the targets bootstrap with `boot`. -/
theorem onlineTReg_ahead (hn : 0 < n) {updateRule} (ha : Additive updateRule) {type1 : Bool} {boot : σ → (Fin n → ℝ) → ℝ → Prop} (hr : Rule updateRule type1 boot) {e : Mdp σ n m} (he : e.Proper) {gamma : ℝ} (h0 : 0 ≤ gamma) (h1 : gamma < 1) {N : ℕ}
    (hN : 0 < N) {pi : σ → Fin n → ℝ} (hpi : ∀ s, (∀ a, 0 ≤ pi s a) ∧ ∑ a, pi s a = 1) {reg : List (Out σ (Fin n) ℝ) → Except Err (List ℝ)} {f : σ → ℝ} (hreg : Pays reg f) {μ : Measure Ω} [IsProbabilityMeasure μ] {ℋ : Filtration ℕ m0} {lr : ℕ → ℝ}
    {xs : ℕ → Ω → Step σ (Fin n) ℝ} {out : ℕ → Ω → Fin m} (hx : Explorer e μ ℋ xs out lr) (hanti : Antitone lr) (hobey : Obeys pi μ ℋ xs) {tau : ℝ} (ht0 : 0 < tau) (ht1 : tau ≤ 1) {best : σ → Fin n → ℝ} {v : σ → ℝ} (hv : ∀ s, boot s (best s) (v s))
    (hb : ∀ s a, best s a = f s + e.Ahead gamma pi v N s a) (θ0 θT0 : σ → Fin n → ℝ) :
    ∃ θ θT : ℕ → Ω → σ → Fin n → ℝ,
      (∀ k ω, ∃ t c, onlineTReg lr tau mse1 reg updateRule type1 (NStep.init N gamma false, (θ0, θT0), 0) ((List.range k).map fun t => (xs t ω, e.ends (xs t ω).s (xs t ω).a (out t ω))) = .ok (t, (θ k ω, θT k ω), c)) ∧
      ∀ᵐ ω ∂μ, ∀ s a, Tendsto (fun k => θ k ω s a) atTop (𝓝 (best s a)) ∧ Tendsto (fun k => θT k ω s a) atTop (𝓝 (best s a)) := by
  choose val hval using hr.value
  have hv' : v = fun s => val s (best s) := funext fun s => hr.unique (hv s) (hval _ _)
  have hrates := hx.rates gamma ht0 ht1
  refine onlineTReg_of_rowN (dn := fun t ω => e.ends (xs t ω).s (xs t ω).a (out t ω)) h0 h1.le hN hreg ha hx.steps.logp hx.steps.w ?_
  refine learnS_lookahead_pay ha (rows := fun t ω => rowN gamma N (fun t => xs t ω) (fun t => e.ends (xs t ω).s (xs t ω).a (out t ω)) t) (boot := fun q p => val p.1 fun b => q (p.1, b)) hn h0 h1 hN f (nextProb_nonneg he hpi) (nextProb_total he hpi)
    (hx.steps.chain hobey gamma) hx.steps.w_known (fun q1 q2 M hM p => hr.close p.1 _ _ _ _ M (hval _ _) (hval _ _) fun a => hM _) (rew := e.rewardNext) (fun θ θT t ω => ?_)
    ⟨hrates.nonneg, hrates.le, hrates.squares, hrates.visits, hrates.tau_nonneg, hrates.tau_le, hrates.syncs⟩ hanti (fun p => ?_) θ0 θT0
  · obtain ⟨B, h2, h3⟩ := rowN_rule hr hval gamma N (fun t => xs t ω) (fun t => e.ends (xs t ω).s (xs t ω).a (out t ω)) t θ θT
    refine ⟨B, h2, h3.trans ?_⟩
    have := pathRet_rowN (gamma := gamma) (rew := e.rewardNext) (stop := e.stopNext) (z := fun t => ((xs t ω).s, (xs t ω).a)) (x := fun t => e.outNext (fun t ω => rowOf gamma (xs t ω) (xs (t + 1) ω) (e.ends (xs t ω).s (xs t ω).a (out t ω))) out t ω)
      (xs := fun t => xs t ω) (dn := fun t => e.ends (xs t ω).s (xs t ω).a (out t ω)) (fun t => hx.steps.reward t ω) (fun t => rfl) (fun p => val p.1 (θT p.1)) N t
    rw [← this]
    rfl
  · have := chainOp_ahead e gamma hpi v N p
    rw [hb, ← this, hv']

/-- **C147** for `ExpectedSarsa` with several steps and the policy of the regularizer: the same limit. -/
theorem C147_nstep_expected_sarsa (hn : 0 < n) {e : Mdp σ n m} (he : e.Proper) {gamma : ℝ} (h0 : 0 ≤ gamma) (h1 : gamma < 1) {N : ℕ} (hN : 0 < N) (logits : σ → Fin n → ℝ) (beta : ℝ) {μ : Measure Ω} [IsProbabilityMeasure μ] {ℋ : Filtration ℕ m0}
    {lr : ℕ → ℝ} {xs : ℕ → Ω → Step σ (Fin n) ℝ} {out : ℕ → Ω → Fin m} (hx : Explorer e μ ℋ xs out lr) (hanti : Antitone lr) (hobey : Obeys (chances logits) μ ℋ xs) {tau : ℝ} (ht0 : 0 < tau) (ht1 : tau ≤ 1) {v : σ → ℝ}
    (hv : ∀ s, e.WorthSpaced gamma beta (chances logits) N s (v s)) (type1 : Bool) (θ0 θT0 : σ → Fin n → ℝ) :
    ∃ θ θT : ℕ → Ω → σ → Fin n → ℝ,
      (∀ k ω, ∃ t c, onlineTReg lr tau mse1 (regBatch logits (entropyReg n beta)) (fun q qTarg => expectedSarsa n (fun S => S.map fun s => (List.finRange n).map (logits s)) q qTarg) type1 (NStep.init N gamma false, (θ0, θT0), 0)
        ((List.range k).map fun t => (xs t ω, e.ends (xs t ω).s (xs t ω).a (out t ω))) = .ok (t, (θ k ω, θT k ω), c)) ∧
      ∀ᵐ ω ∂μ, ∀ s a, Tendsto (fun k => θ k ω s a) atTop (𝓝 (beta * disorder (chances logits s) + e.Ahead gamma (chances logits) v N s a)) ∧
        Tendsto (fun k => θT k ω s a) atTop (𝓝 (beta * disorder (chances logits s) + e.Ahead gamma (chances logits) v N s a)) := by
  have hpi := chances_policy hn logits
  have hfix := worthSpaced_fixed hpi he h0 h1 hN hv
  refine onlineTReg_ahead (best := fun s a => beta * disorder (chances logits s) + e.Ahead gamma (chances logits) v N s a) (v := v) hn (additive_expectedSarsa _) (rule_expectedSarsa hn type1 logits) he h0 h1 hN hpi (pays_entropy logits beta) hx hanti hobey
    ht0 ht1 (fun s => ?_) (fun s a => rfl) θ0 θT0
  refine (hfix s).trans ?_
  have : probs logits s = chances logits s := rfl
  simp only [this, mul_add, Finset.sum_add_distrib, ← Finset.sum_mul, (hpi s).2, one_mul]

/-- **C147** for `QLearning` with several steps, any policy that chooses the actions and any policy of the regularizer: the equation for `N` steps in which `beta` times the entropy of the first state is added, and the largest value of the state that is
then reached, has a solution, and the params converge almost surely to it.  Nothing raises. -/
theorem C147_nstep_q_learning (hn : 0 < n) {e : Mdp σ n m} (he : e.Proper) {gamma : ℝ} (h0 : 0 ≤ gamma) (h1 : gamma < 1) {N : ℕ} (hN : 0 < N) {pi : σ → Fin n → ℝ} (hpi : ∀ s, (∀ a, 0 ≤ pi s a) ∧ ∑ a, pi s a = 1) (logits : σ → Fin n → ℝ)
    (beta : ℝ) : ∃ (best : σ → Fin n → ℝ) (v : σ → ℝ), (∀ s, IsGreatest (Set.range (best s)) (v s)) ∧ (∀ s a, best s a = beta * disorder (chances logits s) + e.Ahead gamma pi v N s a) ∧
      ∀ {Ω : Type} {m0 : MeasurableSpace Ω} {μ : Measure Ω} [IsProbabilityMeasure μ] {ℋ : Filtration ℕ m0} {lr : ℕ → ℝ} {xs : ℕ → Ω → Step σ (Fin n) ℝ} {out : ℕ → Ω → Fin m}, Explorer e μ ℋ xs out lr → Antitone lr → Obeys pi μ ℋ xs →
        ∀ {tau : ℝ}, 0 < tau → tau ≤ 1 → ∀ type1 θ0 θT0, ∃ θ θT : ℕ → Ω → σ → Fin n → ℝ,
          (∀ k ω, ∃ t c, onlineTReg lr tau mse1 (regBatch logits (entropyReg n beta)) (qLearning n) type1 (NStep.init N gamma false, (θ0, θT0), 0) ((List.range k).map fun t => (xs t ω, e.ends (xs t ω).s (xs t ω).a (out t ω))) =
            .ok (t, (θ k ω, θT k ω), c)) ∧
          ∀ᵐ ω ∂μ, ∀ s a, Tendsto (fun k => θ k ω s a) atTop (𝓝 (best s a)) ∧ Tendsto (fun k => θT k ω s a) atTop (𝓝 (best s a)) := by
  have hr := rule_qLearning (σ := σ) hn false
  choose val hval using hr.value
  let f : σ → ℝ := fun s => beta * disorder (chances logits s)
  let T : (σ × Fin n → ℝ) → σ × Fin n → ℝ := fun q p => f p.1 + (chainOp (e.nextProb pi) e.rewardNext e.stopNext e.cellNext gamma)^[N] (fun p => val p.1 fun b => q (p.1, b)) p
  have hgN : gamma ^ N ≤ gamma := pow_le_of_le_one h0 h1.le hN.ne'
  have hc : ContractingWith ⟨gamma, h0⟩ T := by
    refine ⟨by exact_mod_cast h1, LipschitzWith.of_dist_le_mul fun q1 q2 => ?_⟩
    refine (dist_pi_le_iff (mul_nonneg h0 dist_nonneg)).2 fun p => ?_
    rw [Real.dist_eq, add_sub_add_left_eq_sub]
    refine (chainOp_iterate_close (M := dist q1 q2) h0 (nextProb_nonneg he hpi) (nextProb_total he hpi) (fun p => ?_) N p).trans (mul_le_mul_of_nonneg_right hgN dist_nonneg)
    exact hr.close p.1 _ _ _ _ _ (hval _ _) (hval _ _) fun a => by rw [← Real.dist_eq]; exact dist_le_pi_dist q1 q2 _
  let q0 := ContractingWith.fixedPoint _ hc
  have hq0 : ∀ s a, q0 (s, a) = f s + e.Ahead gamma pi (fun s => val s fun b => q0 (s, b)) N s a := fun s a =>
    (congrFun hc.fixedPoint_isFixedPt (s, a)).symm.trans (congrArg (f s + ·) (chainOp_ahead e gamma hpi (fun s => val s fun b => q0 (s, b)) N (s, a)))
  refine ⟨fun s a => q0 (s, a), fun s => val s fun b => q0 (s, b), fun s => hval _ _, hq0, ?_⟩
  intro Ω m0 μ _ ℋ lr xs out hx hanti hobey tau ht0 ht1 type1 θ0 θT0
  exact onlineTReg_ahead hn additive_qLearning (rule_qLearning hn type1) he h0 h1 hN hpi (pays_entropy logits beta) hx hanti hobey ht0 ht1 (fun s => hval s _) hq0 θ0 θT0

end

/-! ### An example -/

/-- The hypotheses are met: an agent that flips coins, and two steps. -/
example (beta : ℝ) (θ0 θT0 : Bool → Fin 2 → ℝ) (η0 ηT0 : Bool → ℝ) : ∃ v : Bool → ℝ, (∀ s, twoCoins.WorthSpaced (1 / 2) beta (chances fun _ _ => 0) 2 s (v s)) ∧
    (∃ θ θT : ℕ → (ℕ → Bool) → Bool → Fin 2 → ℝ, (∀ k ω, ∃ t c, onlineTReg (fun t => 1 / ((t : ℝ) + 1)) (1 / 10) mse1 (regBatch (fun _ _ => 0) (entropyReg 2 beta)) (sarsa 2) true (NStep.init 2 (1 / 2) false, (θ0, θT0), 0)
      ((List.range k).map fun t => (coinSteps t ω, twoCoins.ends (coinSteps t ω).s (coinSteps t ω).a (if ω (2 * t + 2) then 1 else 0))) = .ok (t, (θ k ω, θT k ω), c)) ∧
      ∀ᵐ ω ∂coins, Tendsto (fun k => θ k ω false 1) atTop (𝓝 (beta * disorder (chances (fun _ _ => 0 : Bool → Fin 2 → ℝ) false) + twoCoins.Ahead (1 / 2) (chances fun _ _ => 0) v 2 false 1))) ∧
    ∃ η ηT : ℕ → (ℕ → Bool) → Bool → ℝ, (∀ k ω, ∃ t c, onlineVReg (fun t => 1 / ((t : ℝ) + 1)) (1 / 10) mse1 (regBatch (fun _ _ => 0) (entropyReg 2 beta)) (NStep.init 2 (1 / 2) false, (η0, ηT0), 0)
      ((List.range k).map fun t => (coinSteps t ω, twoCoins.ends (coinSteps t ω).s (coinSteps t ω).a (if ω (2 * t + 2) then 1 else 0))) = .ok (t, (η k ω, ηT k ω), c)) ∧ ∀ᵐ ω ∂coins, Tendsto (fun k => η k ω false) atTop (𝓝 (v false)) := by
  have hp : twoCoins.Proper := ⟨fun _ _ _ => by norm_num [twoCoins], fun _ _ => by norm_num [twoCoins]⟩
  have hz : chances (fun _ _ => 0 : Bool → Fin 2 → ℝ) = fun _ _ => 1 / 2 := by funext s a; norm_num [chances]
  have hpol := chances_policy (by norm_num : 0 < 2) (fun _ _ => 0 : Bool → Fin 2 → ℝ)
  have hanti : Antitone fun t : ℕ => 1 / ((t : ℝ) + 1) := fun a b h => one_div_le_one_div_of_le (by positivity) (by exact_mod_cast Nat.succ_le_succ h)
  obtain ⟨v, hv, -⟩ := C147_nstep_exists hp (gamma := 1 / 2) (by norm_num) (by norm_num) (N := 2) (by norm_num) beta hpol
  have hobey : Obeys (chances fun _ _ => 0) coins flips coinSteps := by rw [hz]; exact coin_obeys
  obtain ⟨θ, θT, h, h'⟩ := C147_nstep_sarsa (by norm_num) hp (by norm_num) (by norm_num) (by norm_num) (fun _ _ => 0) beta coin_explorer hanti hobey (tau := 1 / 10) (by norm_num) (by norm_num) hv true θ0 θT0
  obtain ⟨η, ηT, g, g'⟩ := C147_nstep_simple_td (by norm_num) hp (by norm_num) (by norm_num) (by norm_num) (fun _ _ => 0) beta coin_explorer hanti hobey (fun t => measurable_const) (tau := 1 / 10) (by norm_num) (by norm_num) hv η0 ηT0
  exact ⟨v, hv, ⟨θ, θT, h, h'.mono fun ω h' => (h' false 1).1⟩, η, ηT, g, g'.mono fun ω g' => (g' false).1⟩

end Coax.Loop
