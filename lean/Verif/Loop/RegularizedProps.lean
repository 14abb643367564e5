import Verif.Loop.RegularizedLemmas

/-! C147: what value functions learn with a policy regularizer. -/

namespace Coax.Loop

open Coax.RewardTracing Coax.TD Coax.Core Coax.Values Coax.Pol Coax.Dists Filter Topology MeasureTheory

variable {σ : Type _} {n m : Nat}

/-! ### Specification -/

/-- The probabilities of a policy with these logits. -/
noncomputable def chances (logits : σ → Fin n → ℝ) (s : σ) (a : Fin n) : ℝ := Real.exp (logits s a) / ∑ b, Real.exp (logits s b)

/-- The entropy of a probability distribution. -/
noncomputable def disorder (p : Fin n → ℝ) : ℝ := ∑ a, -(p a * Real.log (p a))

/-! ### The values of the regularizers -/

theorem checkShape_rows (l : List (Fin n → ℝ)) : checkShape n (l.map fun z => (List.finRange n).map z) = .ok l := by
  obtain ⟨zs, h1, h2, h3⟩ := checkShape_ok (n := n) (Z := l.map fun z => (List.finRange n).map z) (by simp)
  rw [h1]
  congr 1
  apply List.ext_getElem
  · simpa using h2
  · intro i hi hi'
    funext k
    have := h3 i ((List.finRange n).map l[i]) zs[i] (by simp [hi']) (by simp [hi]) k
    simpa using this.symm

theorem entropyRow_eq (z : σ → Fin n → ℝ) (s : σ) : entropyRow (z s) = disorder (chances z s) := by
  unfold entropyRow disorder
  refine Finset.sum_congr rfl fun k _ => ?_
  rw [exp_logSoftmax, logSoftmax_eq]
  show Dists.softmax (z s) k * -Real.log (Dists.softmax (z s) k) = -(Dists.softmax (z s) k * Real.log (Dists.softmax (z s) k))
  ring

theorem pays_entropy (logits : σ → Fin n → ℝ) (beta : ℝ) : Pays (regBatch logits (entropyReg n beta)) fun s => beta * disorder (chances logits s) := by
  intro rows
  have := checkShape_rows (rows.map fun o => logits o.S)
  rw [List.map_map] at this
  unfold regBatch baseBatchEval entropyReg Dists.entropy batch1
  simp only [Function.comp_def] at this
  dsimp only
  rw [this]
  simp only [List.map_map, Function.comp_def, entropyRow_eq logits]
  congr 1
  refine List.map_congr_left fun o _ => by ring

theorem pays_kl (logits : σ → Fin n → ℝ) (hn : 0 < n) (beta : ℝ) : Pays (regBatch logits fun Z => klReg n beta Z none) fun s => beta * (disorder (chances logits s) - Real.log n) := by
  intro rows
  have h1 := checkShape_rows (rows.map fun o => logits o.S)
  have h2 := checkShape_rows [fun _ : Fin n => (0 : ℝ)]
  have e2 : (List.finRange n).map (fun _ => (0 : ℝ)) = List.replicate n 0 := by simp
  rw [List.map_map] at h1
  simp only [Function.comp_def] at h1
  rw [List.map_singleton, e2] at h2
  have hrow : ∀ s, klRow (logits s) (fun _ => 0) = Real.log n - disorder (chances logits s) := by
    intro s
    rw [C49_kl_eq, entropyRow_eq]
    congr 1
    have : ∀ k : Fin n, logSoftmax (fun _ : Fin n => (0 : ℝ)) k = -Real.log n := by intro k; simp [logSoftmax]
    unfold crossEntropyRow
    simp only [this, neg_neg, ← Finset.sum_mul]
    rw [show ∑ k, Dists.softmax (logits s) k = 1 from (C49_probabilities (logits s)).2 hn, one_mul]
  unfold regBatch baseBatchEval klReg klDivergence batch2 defaultPriors
  dsimp only [Option.getD]
  rw [h1, h2]
  have hall : List.map (fun z => klRow z fun _ => (0 : ℝ)) (rows.map fun o => logits o.S) = rows.map fun o => Real.log n - disorder (chances logits o.S) := by
    rw [List.map_map]
    exact List.map_congr_left fun o _ => hrow o.S
  have fin : List.map (fun k => beta * k) (rows.map fun o => Real.log n - disorder (chances logits o.S)) = rows.map fun o => -(beta * (disorder (chances logits o.S) - Real.log n)) := by
    rw [List.map_map]
    exact List.map_congr_left fun o _ => by simp only [Function.comp]; ring
  dsimp only
  split_ifs with hl
  · have hz : List.zipWith klRow (rows.map fun o => logits o.S) [fun _ => (0 : ℝ)] = List.map (fun z => klRow z fun _ => (0 : ℝ)) (rows.map fun o => logits o.S) := by
      obtain ⟨o, rfl⟩ : ∃ o, rows = [o] := List.length_eq_one_iff.1 (by simpa using hl)
      rfl
    rw [hz, hall]
    exact congrArg Except.ok fin
  · rw [hall]
    exact congrArg Except.ok fin

/-! ### The same updates without the regularizer -/

section

variable [DecidableEq σ]

theorem onlineV_pay {reg : List (Out σ (Fin n) ℝ) → Except Err (List ℝ)} {f : σ → ℝ} (hreg : Pays reg f) (lr : ℕ → ℝ) (tau : ℝ) (L : LossFn) (gamma : ℝ) (θ : (σ → ℝ) × (σ → ℝ)) (k : ℕ) (xs : List (Step σ (Fin n) ℝ × Bool)) :
    onlineV lr tau L (NStep.init 1 gamma false, θ, k) (xs.map fun x => (payStep f x.1, x.2)) = (onlineVReg lr tau L reg (NStep.init 1 gamma false, θ, k) xs).map fun r => (payTracer f r.1, r.2) := by
  refine onlineU_pay (update := updateVReg lr tau L reg) (update' := updateV lr tau L) (fun k θ o => ?_) xs (oneStep_init gamma) (θ, k)
  unfold updateVReg updateV
  rw [sgdUpdateV_pay hreg]
  rfl

theorem onlineT_pay {reg : List (Out σ (Fin n) ℝ) → Except Err (List ℝ)} {f : σ → ℝ} (hreg : Pays reg f) {updateRule} (ha : Additive updateRule) (lr : ℕ → ℝ) (tau : ℝ) (L : LossFn) (type1 : Bool) (gamma : ℝ) (θ : (σ → Fin n → ℝ) × (σ → Fin n → ℝ))
    (k : ℕ) (xs : List (Step σ (Fin n) ℝ × Bool)) :
    onlineT lr tau L updateRule type1 (NStep.init 1 gamma false, θ, k) (xs.map fun x => (payStep f x.1, x.2)) = (onlineTReg lr tau L reg updateRule type1 (NStep.init 1 gamma false, θ, k) xs).map fun r => (payTracer f r.1, r.2) := by
  refine onlineU_pay (update := updateTReg lr tau L reg updateRule type1) (update' := updateT lr tau L updateRule type1) (fun k θ o => ?_) xs (oneStep_init gamma) (θ, k)
  unfold updateTReg updateT
  rw [sgdUpdate_pay hreg ha]
  rfl

/-- **C147**: for any batch, an update with `EntropyRegularizer(pi, beta)` changes the params, or raises, as an update without it in which `beta` times the entropy of the policy in the state `S` is added to the partial return `Rn`. -/
theorem C147_same_update (logits : σ → Fin n → ℝ) (beta lr : ℝ) (L : LossFn) (rows : List (Out σ (Fin n) ℝ)) :
    (∀ θT θ, sgdUpdateVReg lr L (regBatch logits (entropyReg n beta)) θT θ rows = sgdUpdateV lr L θT θ (rows.map fun o => { o with Rn := o.Rn + beta * disorder (chances logits o.S) })) ∧
    ∀ type1 θT θ,
      sgdUpdateReg lr L (regBatch logits (entropyReg n beta)) (sarsa n) type1 θT θ rows = sgdUpdate lr L (sarsa n) type1 θT θ (rows.map fun o => { o with Rn := o.Rn + beta * disorder (chances logits o.S) }) ∧
      sgdUpdateReg lr L (regBatch logits (entropyReg n beta)) (qLearning n) type1 θT θ rows = sgdUpdate lr L (qLearning n) type1 θT θ (rows.map fun o => { o with Rn := o.Rn + beta * disorder (chances logits o.S) }) ∧
      sgdUpdateReg lr L (regBatch logits (entropyReg n beta)) (doubleQLearning n) type1 θT θ rows = sgdUpdate lr L (doubleQLearning n) type1 θT θ (rows.map fun o => { o with Rn := o.Rn + beta * disorder (chances logits o.S) }) ∧
      ∀ pol, sgdUpdateReg lr L (regBatch logits (entropyReg n beta)) (fun q qTarg => expectedSarsa n pol q qTarg) type1 θT θ rows =
        sgdUpdate lr L (fun q qTarg => expectedSarsa n pol q qTarg) type1 θT θ (rows.map fun o => { o with Rn := o.Rn + beta * disorder (chances logits o.S) }) :=
  have h := pays_entropy logits beta
  ⟨fun _ _ => sgdUpdateV_pay h _ _ _ _ _, fun _ _ _ => ⟨sgdUpdate_pay h additive_sarsa _ _ _ _ _ _, sgdUpdate_pay h additive_qLearning _ _ _ _ _ _, sgdUpdate_pay h additive_doubleQLearning _ _ _ _ _ _,
    fun pol => sgdUpdate_pay h (additive_expectedSarsa pol) _ _ _ _ _ _⟩⟩

/-- **C147**, the same for `KLDivRegularizer` with the default priors: `beta` times the difference of the entropy and the largest entropy is added. -/
theorem C147_same_update_kl (hn : 0 < n) (logits : σ → Fin n → ℝ) (beta lr : ℝ) (L : LossFn) (rows : List (Out σ (Fin n) ℝ)) :
    (∀ θT θ, sgdUpdateVReg lr L (regBatch logits fun Z => klReg n beta Z none) θT θ rows = sgdUpdateV lr L θT θ (rows.map fun o => { o with Rn := o.Rn + beta * (disorder (chances logits o.S) - Real.log n) })) ∧
    ∀ type1 θT θ, sgdUpdateReg lr L (regBatch logits fun Z => klReg n beta Z none) (sarsa n) type1 θT θ rows = sgdUpdate lr L (sarsa n) type1 θT θ (rows.map fun o => { o with Rn := o.Rn + beta * (disorder (chances logits o.S) - Real.log n) }) :=
  have h := pays_kl logits hn beta
  ⟨fun _ _ => sgdUpdateV_pay h _ _ _ _ _, fun _ _ _ => sgdUpdate_pay h additive_sarsa _ _ _ _ _ _⟩

/-- **C147**: the loop with `EntropyRegularizer(pi, beta)` and an `NStep` tracer with `n = 1` learns, or raises, as the loop without it in which `beta` times the entropy of the policy is added to each reward. -/
theorem C147_same_loop (logits : σ → Fin n → ℝ) (beta : ℝ) (lr : ℕ → ℝ) (tau : ℝ) (L : LossFn) (gamma : ℝ) (xs : List (Step σ (Fin n) ℝ × Bool)) :
    (∀ θ, (onlineVReg lr tau L (regBatch logits (entropyReg n beta)) (NStep.init 1 gamma false, θ, 0) xs).map (·.2) =
      (onlineV lr tau L (NStep.init 1 gamma false, θ, 0) (xs.map fun x => ({ x.1 with r := x.1.r + beta * disorder (chances logits x.1.s) }, x.2))).map (·.2)) ∧
    ∀ type1 θ,
      (onlineTReg lr tau L (regBatch logits (entropyReg n beta)) (sarsa n) type1 (NStep.init 1 gamma false, θ, 0) xs).map (·.2) =
        (onlineT lr tau L (sarsa n) type1 (NStep.init 1 gamma false, θ, 0) (xs.map fun x => ({ x.1 with r := x.1.r + beta * disorder (chances logits x.1.s) }, x.2))).map (·.2) ∧
      (onlineTReg lr tau L (regBatch logits (entropyReg n beta)) (qLearning n) type1 (NStep.init 1 gamma false, θ, 0) xs).map (·.2) =
        (onlineT lr tau L (qLearning n) type1 (NStep.init 1 gamma false, θ, 0) (xs.map fun x => ({ x.1 with r := x.1.r + beta * disorder (chances logits x.1.s) }, x.2))).map (·.2) := by
  have h := pays_entropy logits beta
  have hm : ∀ {Θ : Type _} (r : Except Err (NStep σ (Fin n) ℝ × Θ)) (f : σ → ℝ), r.map (·.2) = (r.map fun r => (payTracer f r.1, r.2)).map (·.2) := by
    intro Θ r f
    cases r <;> rfl
  refine ⟨fun θ => ?_, fun type1 θ => ⟨?_, ?_⟩⟩
  · rw [hm _ fun s => beta * disorder (chances logits s), ← onlineV_pay h]
    rfl
  · rw [hm _ fun s => beta * disorder (chances logits s), ← onlineT_pay h additive_sarsa]
    rfl
  · rw [hm _ fun s => beta * disorder (chances logits s), ← onlineT_pay h additive_qLearning]
    rfl

end

/-! ### The environment with other rewards -/

/-- The same environment with something added to the rewards. -/
def Mdp.bonus (e : Mdp σ n m) (f : σ → ℝ) : Mdp σ n m := { e with reward := fun s a j => e.reward s a j + f s }

theorem Mdp.Proper.bonus {e : Mdp σ n m} (he : e.Proper) (f : σ → ℝ) : (e.bonus f).Proper := ⟨he.nonneg, he.total⟩

theorem Explorer.bonus {Ω : Type _} {m0 : MeasurableSpace Ω} {e : Mdp σ n m} {μ : Measure Ω} {ℋ : Filtration ℕ m0} {lr : ℕ → ℝ} {xs : ℕ → Ω → Step σ (Fin n) ℝ} {out : ℕ → Ω → Fin m} (hx : Explorer e μ ℋ xs out lr) (f : σ → ℝ) :
    Explorer (e.bonus f) μ ℋ (fun t ω => payStep f (xs t ω)) out lr where
  steps := ⟨hx.steps.s_known, hx.steps.a_known, hx.steps.w_known, hx.steps.out_known, hx.steps.law, fun t ω => congrArg (· + f (xs t ω).s) (hx.steps.reward t ω), hx.steps.next, hx.steps.logp, hx.steps.w⟩
  explores := hx.explores
  connected := hx.connected
  reset := hx.reset
  schedule := ⟨hx.schedule.nonneg, hx.schedule.le, hx.schedule.squares⟩
  infinite := hx.infinite
  slow := hx.slow

theorem back_bonus {e : Mdp σ n m} (he : e.Proper) (f : σ → ℝ) (s : σ) (a : Fin n) (x : Fin m → ℝ) : ∑ j, e.prob s a j * (e.reward s a j + f s + x j) = f s + ∑ j, e.prob s a j * (e.reward s a j + x j) := by
  have : ∀ j, e.prob s a j * (e.reward s a j + f s + x j) = e.prob s a j * f s + e.prob s a j * (e.reward s a j + x j) := fun j => by ring
  simp only [this, Finset.sum_add_distrib, ← Finset.sum_mul, he.total, one_mul]

theorem ret_bonus {e : Mdp σ n m} (he : e.Proper) {p : σ → Fin n → ℝ} (hp : ∀ s, ∑ a, p s a = 1) (gamma beta : ℝ) (k : ℕ) (h : History σ n m) (s : σ) :
    (e.bonus fun s => beta * disorder (p s)).ret gamma 0 (stationary p) k h s = e.ret gamma beta (stationary p) k h s := by
  induction k generalizing h s with
  | zero => rfl
  | succ k ih =>
    rw [Mdp.ret, Mdp.ret]
    simp only [ih]
    have := fun a => back_bonus he (fun s => beta * disorder (p s)) s a fun j => if e.ends s a j then 0 else gamma * e.ret gamma beta (stationary p) k (h ++ [(s, a, j)]) (e.next s a j)
    have hmean : ∀ (c : ℝ) (x : Fin n → ℝ), ∑ a, p s a * (c + x a) = ∑ a, p s a * x a + c := by
      intro c x
      simp only [mul_add, Finset.sum_add_distrib, ← Finset.sum_mul, hp s, one_mul]
      ring
    rw [zero_mul, add_zero]
    exact (Finset.sum_congr rfl fun a _ => congrArg (p s a * ·) (this a)).trans (hmean _ _)

theorem worth_bonus {e : Mdp σ n m} (he : e.Proper) {p : σ → Fin n → ℝ} (hp : ∀ s, ∑ a, p s a = 1) (gamma beta : ℝ) (s : σ) (x : ℝ) :
    (e.bonus fun s => beta * disorder (p s)).Worth gamma 0 (stationary p) s x ↔ e.Worth gamma beta (stationary p) s x := by
  unfold Mdp.Worth
  simp only [ret_bonus he hp]

theorem chances_policy (hn : 0 < n) (logits : σ → Fin n → ℝ) (s : σ) : (∀ a, 0 ≤ chances logits s a) ∧ ∑ a, chances logits s a = 1 := by
  have hpos : 0 < ∑ b, Real.exp (logits s b) := Finset.sum_pos (fun b _ => Real.exp_pos _) ⟨⟨0, hn⟩, Finset.mem_univ _⟩
  exact ⟨fun a => div_nonneg (Real.exp_pos _).le hpos.le, by simp only [chances, ← Finset.sum_div]; exact div_self hpos.ne'⟩

/-! ### What is learned with one step -/

section

variable [DecidableEq σ] [Fintype σ] {Ω : Type} {m0 : MeasurableSpace Ω}

theorem unpay {S : Type _} {Θ : Type _} {f : σ → ℝ} {r : Except Err (NStep σ (Fin n) ℝ × Θ × S)} {θ : Θ} (h : ∃ t c, (r.map fun r => (payTracer f r.1, r.2)) = .ok (t, θ, c)) : ∃ t c, r = .ok (t, θ, c) := by
  obtain ⟨t, c, h⟩ := h
  cases r with
  | error e => cases h
  | ok r =>
    obtain ⟨t', θ', c'⟩ := r
    obtain ⟨-, rfl, -⟩ : payTracer f t' = t ∧ θ' = θ ∧ c' = c := by simpa [Except.map] using h
    exact ⟨_, _, rfl⟩

/-- **C147** for `SimpleTD`: with `EntropyRegularizer(pi, beta)` and an `NStep` tracer with `n = 1`, where `pi` chooses the actions, the params converge almost surely to the expected sum of the discounted rewards and of `beta` times the entropies of the
policy.  Nothing raises. -/
theorem C147_simple_td (hn : 0 < n) {e : Mdp σ n m} (he : e.Proper) {gamma : ℝ} (h0 : 0 ≤ gamma) (h1 : gamma < 1) (logits : σ → Fin n → ℝ) (beta : ℝ) {μ : Measure Ω} [IsProbabilityMeasure μ] {ℋ : Filtration ℕ m0} {lr : ℕ → ℝ}
    {xs : ℕ → Ω → Step σ (Fin n) ℝ} {out : ℕ → Ω → Fin m} (hx : Explorer e μ ℋ xs out lr) (hobey : Obeys (chances logits) μ ℋ xs) (hw : ∀ t, Measurable[ℋ (2 * t)] fun ω => (xs t ω).w) {tau : ℝ} (ht0 : 0 < tau) (ht1 : tau ≤ 1) {v : σ → ℝ}
    (hv : ∀ s, e.Worth gamma beta (stationary (chances logits)) s (v s)) (θ0 θT0 : σ → ℝ) :
    ∃ θ θT : ℕ → Ω → σ → ℝ,
      (∀ k ω, ∃ t c, onlineVReg lr tau mse1 (regBatch logits (entropyReg n beta)) (NStep.init 1 gamma false, (θ0, θT0), 0) ((List.range k).map fun t => (xs t ω, e.ends (xs t ω).s (xs t ω).a (out t ω))) = .ok (t, (θ k ω, θT k ω), c)) ∧
      ∀ᵐ ω ∂μ, ∀ s, Tendsto (fun k => θ k ω s) atTop (𝓝 (v s)) ∧ Tendsto (fun k => θT k ω s) atTop (𝓝 (v s)) := by
  have hp := chances_policy hn logits
  obtain ⟨θ, θT, h, h'⟩ := C128_online_simple_td hn (he.bonus fun s => beta * disorder (chances logits s)) h0 h1 hp (hx.bonus _) hobey hw ht0 ht1 (fun s => (worth_bonus he (fun s => (hp s).2) gamma beta s (v s)).2 (hv s)) θ0 θT0
  refine ⟨θ, θT, fun k ω => unpay (f := fun s => beta * disorder (chances logits s)) ?_, h'⟩
  obtain ⟨t, c, h⟩ := h k ω
  refine ⟨t, c, ?_⟩
  rw [← onlineV_pay (pays_entropy logits beta), List.map_map]
  exact h

/-- **C147** for `Sarsa`: under the same conditions the params converge almost surely to the expected reward plus the discounted value of the next state, with entropies, plus `beta` times the entropy in the first state, which is the same for all
actions.  Nothing raises. -/
theorem C147_sarsa (hn : 0 < n) {e : Mdp σ n m} (he : e.Proper) {gamma : ℝ} (h0 : 0 ≤ gamma) (h1 : gamma < 1) (logits : σ → Fin n → ℝ) (beta : ℝ) {μ : Measure Ω} [IsProbabilityMeasure μ] {ℋ : Filtration ℕ m0} {lr : ℕ → ℝ}
    {xs : ℕ → Ω → Step σ (Fin n) ℝ} {out : ℕ → Ω → Fin m} (hx : Explorer e μ ℋ xs out lr) (hobey : Obeys (chances logits) μ ℋ xs) {tau : ℝ} (ht0 : 0 < tau) (ht1 : tau ≤ 1) {v : σ → ℝ}
    (hv : ∀ s, e.Worth gamma beta (stationary (chances logits)) s (v s)) (type1 : Bool) (θ0 θT0 : σ → Fin n → ℝ) :
    ∃ θ θT : ℕ → Ω → σ → Fin n → ℝ,
      (∀ k ω, ∃ t c, onlineTReg lr tau mse1 (regBatch logits (entropyReg n beta)) (sarsa n) type1 (NStep.init 1 gamma false, (θ0, θT0), 0) ((List.range k).map fun t => (xs t ω, e.ends (xs t ω).s (xs t ω).a (out t ω))) = .ok (t, (θ k ω, θT k ω), c)) ∧
      ∀ᵐ ω ∂μ, ∀ s a, Tendsto (fun k => θ k ω s a) atTop (𝓝 (beta * disorder (chances logits s) + ∑ j, e.prob s a j * (e.reward s a j + if e.ends s a j then 0 else gamma * v (e.next s a j)))) ∧
        Tendsto (fun k => θT k ω s a) atTop (𝓝 (beta * disorder (chances logits s) + ∑ j, e.prob s a j * (e.reward s a j + if e.ends s a j then 0 else gamma * v (e.next s a j)))) := by
  have hp := chances_policy hn logits
  obtain ⟨θ, θT, h, h'⟩ := C127_online_sarsa hn (he.bonus fun s => beta * disorder (chances logits s)) h0 h1 hp (hx.bonus _) hobey ht0 ht1 (fun s => (worth_bonus he (fun s => (hp s).2) gamma beta s (v s)).2 (hv s)) type1 θ0 θT0
  refine ⟨θ, θT, fun k ω => unpay (f := fun s => beta * disorder (chances logits s)) ?_, h'.mono fun ω h' s a => ?_⟩
  · obtain ⟨t, c, h⟩ := h k ω
    refine ⟨t, c, ?_⟩
    rw [← onlineT_pay (pays_entropy logits beta) additive_sarsa, List.map_map]
    exact h
  · have h2 := h' s a
    rw [← back_bonus he (fun s => beta * disorder (chances logits s)) s a]
    exact h2

/-- **C147** for `ExpectedSarsa` with the policy of the regularizer. -/
theorem C147_expected_sarsa (hn : 0 < n) {e : Mdp σ n m} (he : e.Proper) {gamma : ℝ} (h0 : 0 ≤ gamma) (h1 : gamma < 1) (logits : σ → Fin n → ℝ) (beta : ℝ) {μ : Measure Ω} [IsProbabilityMeasure μ] {ℋ : Filtration ℕ m0} {lr : ℕ → ℝ}
    {xs : ℕ → Ω → Step σ (Fin n) ℝ} {out : ℕ → Ω → Fin m} (hx : Explorer e μ ℋ xs out lr) (hanti : Antitone lr) (hobey : Obeys (chances logits) μ ℋ xs) {tau : ℝ} (ht0 : 0 < tau) (ht1 : tau ≤ 1) {v : σ → ℝ}
    (hv : ∀ s, e.Worth gamma beta (stationary (chances logits)) s (v s)) (type1 : Bool) (θ0 θT0 : σ → Fin n → ℝ) :
    ∃ θ θT : ℕ → Ω → σ → Fin n → ℝ,
      (∀ k ω, ∃ t c, onlineTReg lr tau mse1 (regBatch logits (entropyReg n beta)) (fun q qTarg => expectedSarsa n (fun S => S.map fun s => (List.finRange n).map (logits s)) q qTarg) type1 (NStep.init 1 gamma false, (θ0, θT0), 0)
        ((List.range k).map fun t => (xs t ω, e.ends (xs t ω).s (xs t ω).a (out t ω))) = .ok (t, (θ k ω, θT k ω), c)) ∧
      ∀ᵐ ω ∂μ, ∀ s a, Tendsto (fun k => θ k ω s a) atTop (𝓝 (beta * disorder (chances logits s) + ∑ j, e.prob s a j * (e.reward s a j + if e.ends s a j then 0 else gamma * v (e.next s a j)))) ∧
        Tendsto (fun k => θT k ω s a) atTop (𝓝 (beta * disorder (chances logits s) + ∑ j, e.prob s a j * (e.reward s a j + if e.ends s a j then 0 else gamma * v (e.next s a j)))) := by
  have hp := chances_policy hn logits
  obtain ⟨θ, θT, h, h'⟩ := C134_expected_sarsa (N := 1) hn (he.bonus fun s => beta * disorder (chances logits s)) h0 h1 one_pos logits (hx.bonus _) hanti hobey ht0 ht1 (fun s => (worth_bonus he (fun s => (hp s).2) gamma beta s (v s)).2 (hv s)) type1 θ0 θT0
  refine ⟨θ, θT, fun k ω => unpay (f := fun s => beta * disorder (chances logits s)) ?_, h'.mono fun ω h' s a => ?_⟩
  · obtain ⟨t, c, h⟩ := h k ω
    refine ⟨t, c, ?_⟩
    rw [← onlineT_pay (pays_entropy logits beta) (additive_expectedSarsa _), List.map_map]
    exact h
  · have h2 := h' s a
    rw [← back_bonus he (fun s => beta * disorder (chances logits s)) s a]
    exact h2

end

/-- **C147**: the limit of `Sarsa` and `ExpectedSarsa` improves the policy: `BoltzmannPolicy` with these values and temperature `beta` has, in every state, at least the sum of return and entropies of the policy that was evaluated. -/
theorem C147_improvement [Fintype σ] {e : Mdp σ n m} (he : e.Proper) (hn : 0 < n) {gamma : ℝ} (h0 : 0 ≤ gamma) (h1 : gamma < 1) (logits : σ → Fin n → ℝ) {beta : ℝ} (hb : 0 < beta) {v : σ → ℝ}
    (hv : ∀ s, e.Worth gamma beta (stationary (chances logits)) s (v s)) {q : σ → Fin n → ℝ} (hq : ∀ s a, q s a = beta * disorder (chances logits s) + ∑ j, e.prob s a j * (e.reward s a j + if e.ends s a j then 0 else gamma * v (e.next s a j)))
    {draw : List (Fin n) → Option (Fin n)} (hd : Draws draw) {tau : ℝ} (htau : 0 < tau) (s : σ) :
    ∃ new, e.Worth gamma beta (calls draw tau fun s => boltzmannLogits beta (q s)) s new ∧ v s ≤ new := by
  have hp := chances_policy hn logits
  obtain ⟨v', hv', hvb⟩ := policy_solution (he.bonus fun s => beta * disorder (chances logits s)) h0 h1 hp
  obtain rfl : v' = v := funext fun s => tendsto_nhds_unique ((worth_bonus he (fun s => (hp s).2) gamma beta s _).1 (hv' s)) (hv s)
  have hback : ∀ s a, (e.bonus fun s => beta * disorder (chances logits s)).back gamma v' s a = beta * disorder (chances logits s) + e.back gamma v' s a := fun s a =>
    back_bonus he (fun s => beta * disorder (chances logits s)) s a fun j => if e.ends s a j then 0 else gamma * v' (e.next s a j)
  have hsolves : e.Solves gamma (fun s row x => x = softValue beta row (chances logits s)) (e.back gamma v') := by
    refine ⟨v', fun s => ?_, fun s a => rfl⟩
    rw [hvb s]
    simp only [hback, mul_add, Finset.sum_add_distrib, ← Finset.sum_mul, (hp s).2, one_mul]
    rw [add_comm]
    rfl
  obtain ⟨old, new, ho, hnew, hle⟩ := C121_soft_improvement he hn h0 h1 hb (fun s => ⟨(hp s).1, (hp s).2⟩) hsolves hd htau s
  obtain rfl : old = v' s := tendsto_nhds_unique ho (hv s)
  refine ⟨new, ?_, hle⟩
  have : calls (m := m) draw tau (fun s => boltzmannLogits beta (q s)) = calls draw tau fun s => boltzmannLogits beta (e.back gamma v' s) := by
    rw [calls_eq hd htau, calls_eq hd htau]
    congr 1
    funext s a
    have hs : ∀ b, Real.exp (boltzmannLogits beta (q s) b) = Real.exp (disorder (chances logits s)) * Real.exp (boltzmannLogits beta (e.back gamma v' s) b) := by
      intro b
      rw [← Real.exp_add]
      congr 1
      unfold boltzmannLogits
      rw [hq, add_div, mul_div_cancel_left₀ _ hb.ne']
      rfl
    unfold meanRow Dists.softmax
    simp only [hs, ← Finset.mul_sum]
    exact mul_div_mul_left _ _ (Real.exp_pos _).ne'
  rw [this]
  exact hnew

/-! ### More steps -/

/-- One state, two actions, no rewards and no end. -/
def idle : Mdp Unit 2 1 := ⟨fun _ _ _ => 1, fun _ _ _ => 0, fun _ _ _ => (), fun _ _ _ => false⟩

/-- **C147**, the negative part: with an `NStep` tracer that looks `N` steps ahead the entropies of the states in between are left out, and what is learned is not the sum of rewards and entropies.  In an environment without rewards and with a policy that
chooses from two actions at random, `SimpleTD` converges to `beta * log 2 / (1 - gamma ^ N)`, but the expected sum of the entropies is `beta * log 2 / (1 - gamma)`; these differ if `N` is more than 1.  The steps do not depend on chance here. -/
theorem C147_nstep_counterexample {gamma beta lr : ℝ} (h0 : 0 < gamma) (h1 : gamma < 1) (hb : beta ≠ 0) (hl0 : 0 < lr) (hl1 : lr ≤ 1) {N : ℕ} (hN : 2 ≤ N) (act : ℕ → Fin 2) (x0 : ℝ) :
    ∃ θ : ℕ → Unit → ℝ,
      (∀ k, ∃ t c, onlineVReg (fun _ => lr) 1 mse1 (regBatch (fun _ _ => 0) (entropyReg 2 beta)) (NStep.init N gamma false, (fun _ => x0, fun _ => x0), 0) ((List.range k).map fun t => (⟨(), act t, 0, Real.log (1 / 2), 1⟩, false)) = .ok (t, (θ k, θ k), c)) ∧
      Tendsto (fun k => θ k ()) atTop (𝓝 (beta * Real.log 2 / (1 - gamma ^ N))) ∧
      idle.Worth gamma beta (stationary fun _ _ => 1 / 2) () (beta * Real.log 2 / (1 - gamma)) ∧ beta * Real.log 2 / (1 - gamma ^ N) ≠ beta * Real.log 2 / (1 - gamma) := by
  have hgN : gamma ^ N < gamma := by
    calc gamma ^ N ≤ gamma ^ 2 := pow_le_pow_of_le_one h0.le h1.le hN
      _ < gamma := by nlinarith
  have hgN0 : 0 < gamma ^ N := pow_pos h0 N
  have hlog : Real.log 2 ≠ 0 := (Real.log_pos (by norm_num)).ne'
  have hdis : ∀ s : Unit, beta * disorder (chances (fun _ _ => 0 : Unit → Fin 2 → ℝ) s) = beta * Real.log 2 := by
    intro s
    have : ∀ a : Fin 2, chances (fun _ _ => 0 : Unit → Fin 2 → ℝ) s a = 1 / 2 := by intro a; norm_num [chances]
    unfold disorder
    simp only [this, Fin.sum_univ_two, one_div, Real.log_inv]
    ring
  set b := beta * Real.log 2 with hbdef
  set g := gamma ^ N with hg
  set xs : ℕ → Step Unit (Fin 2) ℝ := fun t => ⟨(), act t, 0, Real.log (1 / 2), 1⟩ with hxs
  let ρ := 1 - lr * (1 - g)
  let c := b / (1 - g)
  let θ : ℕ → Unit → ℝ := fun j _ => c + ρ ^ j * (x0 - c)
  have hc : c * (1 - g) = b := div_mul_cancel₀ _ (by linarith)
  have hends : ∀ N t, endsN (fun _ => false) N t = false := by
    intro N
    induction N with
    | zero => intro t; rfl
    | succ N ih => intro t; simp [endsN, ih]
  have hret : ∀ N t, returnN gamma xs (fun _ => false) N t = 0 := by
    intro N
    induction N with
    | zero => intro t; rfl
    | succ N ih =>
      intro t
      rw [returnN, ih]
      simp [hxs]
  have step : ∀ j, updateVReg (fun _ => lr) 1 mse1 (regBatch (fun _ _ => 0) (entropyReg 2 beta)) j (θ j, θ j) (rowN gamma N xs (fun _ => false) j) = .ok (θ (j + 1), θ (j + 1)) := by
    intro j
    unfold updateVReg
    rw [sgdUpdateV_pay (pays_entropy _ beta)]
    have hrow : forget (payRow (fun s => beta * disorder (chances (fun _ _ => 0 : Unit → Fin 2 → ℝ) s)) (rowN gamma N xs (fun _ => false) j)) = forget (rowN g 1 (fun t => { xs t with r := b }) (fun _ => false) j) := by
      simp only [forget, payRow, rowN, hends, hret, hdis, returnN]
      simp [hxs, ← hg]
    simp only [List.map_cons, List.map_nil]
    rw [sgdUpdateV_eq, List.map_cons, List.map_nil, hrow]
    obtain ⟨B, h2, h3⟩ := simple_rowN g 1 (fun t => { xs t with r := b }) (fun _ => false) j (asQ (θ j)) (asQ (θ j))
    have h4 := sgdUpdate_eq (updateRule := simpleRule) (type1 := true) (θT := asQ (θ j)) (θ := asQ (θ j)) mse1_meanOf gentle_mse (by norm_num) (by simp) h2 (T := fun _ _ => b + g * θ j ()) (by rw [h3]; simp [returnN, endsN, asQ]) lr
    rw [h4]
    have hsh : share [forget (rowN g 1 (fun t => { xs t with r := b }) (fun _ => false) j)] () 0 = 1 := by
      simp [share, weight, forget, rowN, hxs]
      norm_num
    have hnew : ofQ (fun s a => asQ (θ j) s a + lr * share [forget (rowN g 1 (fun t => { xs t with r := b }) (fun _ => false) j)] s a * (fun _ => 1) (b + g * θ j () - asQ (θ j) s a) * (b + g * θ j () - asQ (θ j) s a)) = θ (j + 1) := by
      funext s
      simp only [ofQ, asQ]
      rw [hsh]
      show c + ρ ^ j * (x0 - c) + lr * 1 * 1 * (b + g * (c + ρ ^ j * (x0 - c)) - (c + ρ ^ j * (x0 - c))) = c + ρ ^ (j + 1) * (x0 - c)
      rw [pow_succ, ← hc]
      ring
    simp only [Except.map]
    rw [hnew]
    congr 2
    funext s
    simp [softV]
  refine ⟨fun k => θ (poppedN (fun _ => false) N k), fun k => ?_, ?_, ?_, ?_⟩
  · obtain ⟨d, -, h⟩ := onlineU_lookahead (update := updateVReg (fun _ => lr) 1 mse1 (regBatch (fun _ _ => 0) (entropyReg 2 beta))) (θ := fun j => (θ j, θ j)) h0.le h1.le (by omega) (xs := xs) (dn := fun _ => false)
      (fun t => Real.log_nonpos (by norm_num) (by norm_num)) (fun t => one_pos) step k
    have hst : θ 0 = fun _ => x0 := by funext s; simp [θ]
    simp only [hst] at h
    exact ⟨_, _, h⟩
  · have hρ : Tendsto (fun j : ℕ => c + ρ ^ j * (x0 - c)) atTop (𝓝 (c + 0 * (x0 - c))) := by
      refine ((tendsto_pow_atTop_nhds_zero_of_lt_one ?_ ?_).mul_const _).const_add _
      · show 0 ≤ 1 - lr * (1 - g)
        nlinarith
      · show 1 - lr * (1 - g) < 1
        nlinarith
    rw [zero_mul, add_zero] at hρ
    exact hρ.comp (poppedN_tendsto _ (by omega))
  · refine worth_eq (v := fun _ => b / (1 - gamma)) ⟨fun _ _ _ => by norm_num [idle], fun _ _ => by norm_num [idle]⟩ h0.le h1 (fun _ s => ⟨fun a => by norm_num [stationary], by norm_num [stationary]⟩) (fun h s => ?_) ()
    simp only [softValue, stationary, Mdp.back, idle, Fin.sum_univ_two, one_div, Real.log_inv, Finset.univ_unique, Finset.sum_singleton]
    have : 1 - gamma ≠ 0 := by linarith
    have hfix : b / (1 - gamma) = gamma * (b / (1 - gamma)) + b := by field_simp; ring
    simp only [Bool.false_eq_true, if_false]
    rw [hbdef] at hfix ⊢
    linarith
  · intro h
    rw [div_eq_div_iff (by linarith) (by linarith)] at h
    have := mul_left_cancel₀ (mul_ne_zero hb hlog) h
    linarith

/-! ### An example -/

/-- The hypotheses of C147 are met: an agent that flips coins learns the returns with entropies. -/
example (beta : ℝ) (θ0 θT0 : Bool → Fin 2 → ℝ) (η0 ηT0 : Bool → ℝ) : ∃ v : Bool → ℝ, (∀ s, twoCoins.Worth (1 / 2) beta (stationary (chances fun _ _ => 0)) s (v s)) ∧
    (∃ θ θT : ℕ → (ℕ → Bool) → Bool → Fin 2 → ℝ, (∀ k ω, ∃ t c, onlineTReg (fun t => 1 / ((t : ℝ) + 1)) (1 / 10) mse1 (regBatch (fun _ _ => 0) (entropyReg 2 beta)) (sarsa 2) true (NStep.init 1 (1 / 2) false, (θ0, θT0), 0)
      ((List.range k).map fun t => (coinSteps t ω, twoCoins.ends (coinSteps t ω).s (coinSteps t ω).a (if ω (2 * t + 2) then 1 else 0))) = .ok (t, (θ k ω, θT k ω), c)) ∧ ∀ᵐ ω ∂coins, Tendsto (fun k => θ k ω false 1) atTop (𝓝 (beta * Real.log 2 + 1 / 2 * v true))) ∧
    ∃ η ηT : ℕ → (ℕ → Bool) → Bool → ℝ, (∀ k ω, ∃ t c, onlineVReg (fun t => 1 / ((t : ℝ) + 1)) (1 / 10) mse1 (regBatch (fun _ _ => 0) (entropyReg 2 beta)) (NStep.init 1 (1 / 2) false, (η0, ηT0), 0)
      ((List.range k).map fun t => (coinSteps t ω, twoCoins.ends (coinSteps t ω).s (coinSteps t ω).a (if ω (2 * t + 2) then 1 else 0))) = .ok (t, (η k ω, ηT k ω), c)) ∧ ∀ᵐ ω ∂coins, Tendsto (fun k => η k ω false) atTop (𝓝 (v false)) := by
  have hp : twoCoins.Proper := ⟨fun _ _ _ => by norm_num [twoCoins], fun _ _ => by norm_num [twoCoins]⟩
  have hz : chances (fun _ _ => 0 : Bool → Fin 2 → ℝ) = fun _ _ => 1 / 2 := by funext s a; norm_num [chances]
  have hpol := chances_policy (by norm_num : 0 < 2) (fun _ _ => 0 : Bool → Fin 2 → ℝ)
  obtain ⟨v, hv, -⟩ := policy_solution (hp.bonus fun s => beta * disorder (chances (fun _ _ => 0 : Bool → Fin 2 → ℝ) s)) (gamma := 1 / 2) (by norm_num) (by norm_num) hpol
  have hv' := fun s => (worth_bonus hp (fun s => (hpol s).2) (1 / 2) beta s (v s)).1 (hv s)
  have hobey : Obeys (chances fun _ _ => 0) coins flips coinSteps := by rw [hz]; exact coin_obeys
  obtain ⟨θ, θT, h, h'⟩ := C147_sarsa (by norm_num) hp (by norm_num) (by norm_num) (fun _ _ => 0) beta coin_explorer hobey (tau := 1 / 10) (by norm_num) (by norm_num) hv' true θ0 θT0
  obtain ⟨η, ηT, g, g'⟩ := C147_simple_td (by norm_num) hp (by norm_num) (by norm_num) (fun _ _ => 0) beta coin_explorer hobey (fun t => measurable_const) (tau := 1 / 10) (by norm_num) (by norm_num) hv' η0 ηT0
  refine ⟨v, hv', ⟨θ, θT, h, h'.mono fun ω h' => ?_⟩, η, ηT, g, g'.mono fun ω g' => (g' false).1⟩
  have h2 := (h' false 1).1
  have h3 : (∑ j, twoCoins.prob false 1 j * (twoCoins.reward false 1 j + if twoCoins.ends false 1 j then 0 else 1 / 2 * v (twoCoins.next false 1 j))) = 1 / 2 * v true := by
    simp [twoCoins]
  have h4 : disorder (chances (fun _ _ => 0 : Bool → Fin 2 → ℝ) false) = Real.log 2 := by
    rw [hz]
    simp only [disorder, Fin.sum_univ_two, one_div, Real.log_inv]
    ring
  rwa [h3, h4] at h2

end Coax.Loop
