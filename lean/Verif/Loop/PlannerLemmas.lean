import Verif.Loop.Planner
import Verif.Loop.ActingLemmas
import Verif.Loop.SarsaLemmas
import Verif.Loop.TabularVProps
import Verif.Core.SuccessorProps

/-! The loop with a policy that looks one step ahead: what the policy sees, and how the values are moved. -/

namespace Coax.Loop

open Coax.RewardTracing Coax.TD Coax.Core Coax.Values Coax.Pol Coax.Dists Filter Topology MeasureTheory

variable {σ κ Ω U V : Type _} {n m : Nat} {m0 : MeasurableSpace Ω}

/-! ### The updates -/

/-- The values after an update of `SimpleTD` with one transition. -/
def simpleMove {τ : Type _} [DecidableEq τ] (lr gamma : ℝ) (θ : τ → ℝ) (s : τ) (r : ℝ) (d : Bool) (s' : τ) : τ → ℝ :=
  fun p => θ p + (if s = p then lr else 0) * ((r + if d then 0 else gamma * θ s') - θ p)

theorem simple_update {τ : Type _} [DecidableEq τ] (gamma lr : ℝ) (x y : Step τ (Fin n) ℝ) (d : Bool) (hw : x.w = 1) (θ : τ → ℝ) :
    sgdUpdateV lr mse1 θ θ [rowOf gamma x y d] = .ok (simpleMove lr gamma θ x.s x.r d y.s) := by
  let e : Mdp τ n 1 := ⟨fun _ _ _ => 1, fun _ _ _ => x.r, fun _ _ _ => y.s, fun _ _ _ => d⟩
  obtain ⟨b, hb, ht⟩ := simple_row (e := e) (gamma := gamma) (o := rowOf gamma x y d) (j := 0) rfl (fun h => by simp only [e] at h; simp [rowOf, h]) (fun h => by simp only [e] at h; simp [rowOf, h, e]) rfl (asQ θ) (asQ θ)
  rw [sgdUpdateV_eq, List.map_singleton]
  rw [sgdUpdate_rows mse1_meanOf (by norm_num) (by simp) hb (target := fun _ => e.stateGoal gamma (asQ θ) x.s (x.a, 0)) (by rw [ht]; rfl) lr]
  refine congrArg Except.ok ?_
  funext p
  have hwt : weight (forget (rowOf gamma x y d)) = 1 := by
    simp only [weight, forget, rowOf, hw]
    norm_num
  simp only [ofQ, List.map_cons, List.map_nil, List.sum_cons, List.sum_nil, add_zero, List.length_singleton, Nat.cast_one, div_one, hwt, one_mul, simpleMove, Mdp.stateGoal, asQ]
  have e1 : (forget (rowOf gamma x y d)).S = x.s := rfl
  have e2 : (forget (rowOf gamma x y d)).A = 0 := rfl
  simp only [e1, e2, e]
  by_cases h : x.s = p
  · simp [h]; ring
  · simp [h, Ne.symm h]

variable [DecidableEq σ] [DecidableEq κ]

omit [DecidableEq σ] [DecidableEq κ] in
theorem embed_row (gamma : ℝ) (x y : Step σ (Fin n) ℝ) (d : Bool) : (Out.embed (rowOf gamma x y d) : Out (σ ⊕ κ) (Fin n) ℝ) = rowOf gamma ⟨.inl x.s, x.a, x.r, x.logp, x.w⟩ ⟨.inl y.s, y.a, y.r, y.logp, y.w⟩ d := by
  cases d <;> rfl

theorem updateSimple_eq (lr : ℕ → ℝ) (gamma : ℝ) (k : ℕ) (x y : Step σ (Fin n) ℝ) (d : Bool) (hw : x.w = 1) (θ : σ ⊕ κ → ℝ) :
    updateSimple lr mse1 k θ (rowOf gamma x y d) = .ok (simpleMove (lr k) gamma θ (.inl x.s) x.r d (.inl y.s)) := by
  have h := simple_update (n := n) (τ := σ ⊕ κ) gamma (lr k) ⟨.inl x.s, x.a, x.r, x.logp, x.w⟩ ⟨.inl y.s, y.a, y.r, y.logp, y.w⟩ d hw θ
  rw [← embed_row] at h
  exact h

omit [DecidableEq σ] [DecidableEq κ] in
theorem simpleMove_bound {τ : Type _} [DecidableEq τ] {gamma lr : ℝ} (h0 : 0 ≤ gamma) (l0 : 0 ≤ lr) (l1 : lr ≤ 1) {θ : τ → ℝ} {s : τ} {r : ℝ} (d : Bool) (s' : τ) {R B : ℝ} (hR : |r| ≤ R) (hB : R + gamma * B ≤ B) (hθ : ∀ s, |θ s| ≤ B) (p : τ) :
    |simpleMove lr gamma θ s r d s' p| ≤ B ∧ |simpleMove lr gamma θ s r d s' p - θ p| ≤ 2 * B * lr := by
  have hB0 : 0 ≤ B := (abs_nonneg _).trans (hθ s)
  unfold simpleMove
  split
  · have hT : |r + if d then 0 else gamma * θ s'| ≤ B := by
      refine (abs_add_le _ _).trans (le_trans (add_le_add hR ?_) hB)
      split
      · rw [abs_zero]; positivity
      · rw [abs_mul, abs_of_nonneg h0]
        exact mul_le_mul_of_nonneg_left (hθ _) h0
    set T := r + if d then 0 else gamma * θ s'
    have e : θ p + lr * (T - θ p) = (1 - lr) * θ p + lr * T := by ring
    constructor
    · rw [e]
      refine (abs_add_le _ _).trans ?_
      rw [abs_mul, abs_mul, abs_of_nonneg l0, abs_of_nonneg (sub_nonneg.2 l1)]
      have g1 := mul_le_mul_of_nonneg_left (hθ p) (sub_nonneg.2 l1)
      have g2 := mul_le_mul_of_nonneg_left hT l0
      linarith
    · rw [add_sub_cancel_left, abs_mul, abs_of_nonneg l0]
      have : |T - θ p| ≤ 2 * B := (abs_sub _ _).trans (by linarith [hθ p])
      nlinarith
  · constructor
    · simpa using hθ p
    · simp only [zero_mul, add_zero, sub_self, abs_zero]; positivity

/-! ### What the policy sees -/

/-- The transition model and the reward function are exact: for the states in which actions are taken they give the mean of the next state, as a vector, and of the reward.  `last s a j` is the state in which the episode ends. -/
structure Exact (e : Mdp σ n m) (last : σ → Fin n → Fin m → κ) (p : Func (σ ⊕ κ → ℝ) (List ℝ) (σ ⊕ κ → ℝ)) (r : Func (σ ⊕ κ → ℝ) (List ℝ) ℝ) : Prop where
  p : ∃ tp, Computes n tp p ∧ ∀ s (a : Fin n), tp (oneHotState (.inl s)) a = ∑ j, e.prob s a j • oneHotState (if e.ends s a j then .inr (last s a j) else .inl (e.next s a j))
  r : ∃ tr, Computes n tr r ∧ ∀ s (a : Fin n), tr (oneHotState (.inl s)) a = ∑ j, e.prob s a j * e.reward s a j

omit [DecidableEq σ] [DecidableEq κ] in
/-- The value of an action as the planner sees it: also the state in which an episode has ended has a value. -/
noncomputable def Mdp.seen (e : Mdp σ n m) (last : σ → Fin n → Fin m → κ) (gamma : ℝ) (θ : σ ⊕ κ → ℝ) (s : σ) (a : Fin n) : ℝ :=
  ∑ j, e.prob s a j * (e.reward s a j + gamma * θ (if e.ends s a j then .inr (last s a j) else .inl (e.next s a j)))

variable [Fintype σ] [Fintype κ]

theorem lookahead_eq (hn : 0 < n) {e : Mdp σ n m} {last : σ → Fin n → Fin m → κ} {p : Func (σ ⊕ κ → ℝ) (List ℝ) (σ ⊕ κ → ℝ)} {r : Func (σ ⊕ κ → ℝ) (List ℝ) ℝ} (hx : Exact e last p r) (gamma : ℝ) (sel : ℕ → (Fin n → ℝ) → U → Option (Fin n))
    (ep : ℕ) (θ : σ ⊕ κ → ℝ) (s : σ) (u : U) : lookahead p r gamma sel ep θ s u = sel ep (e.seen last gamma θ s) u := by
  obtain ⟨tp, hp, hp'⟩ := hx.p
  obtain ⟨tr, hr, hr'⟩ := hx.r
  have hq : SuccParts n (planner p r gamma θ) tp tr (fun x => ∑ s, x s * θ s) := ⟨hp, hr, fun S => rfl⟩
  unfold lookahead
  rw [type2_eq hn hq]
  simp only [List.map_cons, List.map_nil]
  rw [dif_pos (by simp)]
  congr 1
  funext a
  simp only [List.getElem_map, List.getElem_range, Fin.getElem_fin, succEntry, stateValue, planner, id, hp', hr', Mdp.seen]
  simp only [Finset.sum_apply, Pi.smul_apply, smul_eq_mul, Finset.sum_mul, mul_add, Finset.sum_add_distrib]
  congr 1
  rw [Finset.sum_comm, Finset.mul_sum]
  refine Finset.sum_congr rfl fun j _ => ?_
  rw [Finset.sum_eq_single (if e.ends s a j then .inr (last s a j) else .inl (e.next s a j))]
  · simp [oneHotState]; ring
  · intro b _ hb
    simp [oneHotState, hb]
  · simp

omit [DecidableEq σ] [DecidableEq κ] [Fintype σ] [Fintype κ] in
theorem seen_zero (e : Mdp σ n m) (last : σ → Fin n → Fin m → κ) (gamma : ℝ) {θ : σ ⊕ κ → ℝ} (hz : ∀ k, θ (.inr k) = 0) (s : σ) : e.seen last gamma θ s = e.back gamma (fun s => θ (.inl s)) s := by
  funext a
  unfold Mdp.seen Mdp.back
  refine Finset.sum_congr rfl fun j _ => ?_
  split <;> simp [hz]

omit [DecidableEq σ] [DecidableEq κ] [Fintype σ] [Fintype κ] in
theorem back_bound {e : Mdp σ n m} (he : e.Proper) {gamma : ℝ} (h0 : 0 ≤ gamma) {v : σ → ℝ} {R B : ℝ} (hR : ∀ s a j, |e.reward s a j| ≤ R) (hB : R + gamma * B ≤ B) (hv : ∀ s, |v s| ≤ B) (s : σ) (a : Fin n) : |e.back gamma v s a| ≤ B := by
  have hB0 : 0 ≤ B := (abs_nonneg _).trans (hv s)
  unfold Mdp.back
  calc _ ≤ ∑ j, |e.prob s a j * (e.reward s a j + if e.ends s a j then 0 else gamma * v (e.next s a j))| := Finset.abs_sum_le_sum_abs _ _
    _ ≤ ∑ j, e.prob s a j * B := Finset.sum_le_sum fun j _ => by
        rw [abs_mul, abs_of_nonneg (he.nonneg s a j)]
        refine mul_le_mul_of_nonneg_left ?_ (he.nonneg s a j)
        refine (abs_add_le _ _).trans (le_trans (add_le_add (hR s a j) ?_) hB)
        split
        · rw [abs_zero]; positivity
        · rw [abs_mul, abs_of_nonneg h0]
          exact mul_le_mul_of_nonneg_left (hv _) h0
    _ = B := by rw [← Finset.sum_mul, he.total, one_mul]

/-- In the loop with an exact model and values of zero for the states in which episodes end, the values `f` are moved towards the mean, under the policy that acts, of the values of the actions, plus noise. -/
theorem Acting.plan [MeasurableSpace U] [MeasurableSpace V] {μ : Measure Ω} [IsProbabilityMeasure μ] {ℋ : Filtration ℕ m0} {νU : Measure U} {νV : Measure V} {u : ℕ → Ω → U} {v : ℕ → Ω → V} (hv : Variates μ ℋ νU νV u v)
    (hn : 0 < n) {e : Mdp σ n m} (he : e.Proper) (hc : e.Connected) {env : Game σ n V} {chance : σ → Fin n → V → Fin m} (hg : env.Is νV e chance) {last : σ → Fin n → Fin m → κ} {p : Func (σ ⊕ κ → ℝ) (List ℝ) (σ ⊕ κ → ℝ)} {r : Func (σ ⊕ κ → ℝ) (List ℝ) ℝ}
    (hx : Exact e last p r) {sel : ℕ → (Fin n → ℝ) → U → Option (Fin n)} (hpi : Tries νU sel) {prob : ℕ → (Fin n → ℝ) → Fin n → ℝ}
    (hp : ∀ ep row a, νU.real {u | sel ep row u = some a} = prob ep row a) (hp0 : ∀ ep row a, 0 ≤ prob ep row a) (hp1 : ∀ ep row, ∑ a, prob ep row a = 1) {gamma : ℝ} (h0 : 0 ≤ gamma) (h1 : gamma < 1) {lr : ℕ → ℝ} (hl : Slow lr)
    (s0 : σ) {θ0 : σ ⊕ κ → ℝ} (hz : ∀ k, θ0 (.inr k) = 0) :
    ∃ (X : ℕ → Ω → Acting (σ ⊕ κ → ℝ) σ n) (B : ℝ), (∀ k ω, Acting.run (updateSimple lr mse1) (lookahead p r gamma sel) env (Acting.init gamma s0 θ0) ((List.range k).map fun t => (u t ω, v t ω)) = .ok (X k ω)) ∧
      (∀ k ω, (X k ω).ep ≤ (X (k + 1) ω).ep) ∧ (∀ k ω j, (X k ω).params (.inr j) = 0) ∧
      ∀ᵐ ω ∂μ, ∃ (f b d : ℕ → σ → ℝ), (∀ t s, |f t s| ≤ B) ∧ (∀ t s, |f (t + 1) s - f t s| ≤ 2 * B * lr t) ∧ (∀ t, (∀ s, (X (t + 1) ω).params (.inl s) = f t s) ∨ (∀ s, (X (t + 1) ω).params (.inl s) = f (t + 1) s)) ∧ (∀ t s, 0 ≤ b t s ∧ b t s ≤ 1) ∧
        (∀ s, ¬ Summable fun t => b t s) ∧ (∀ s, ∃ S, Tendsto (fun t => ∑ k ∈ Finset.range t, d k s) atTop (𝓝 S)) ∧
        ∀ t s, f (t + 1) s = (1 - b t s) * f t s + b t s * (∑ a, prob (X t ω).ep (e.back gamma (fun s => (X t ω).params (.inl s)) s) a * e.back gamma (f t) s a) + d t s := by
  choose A hA using hpi.answers
  -- bounds
  obtain ⟨R, hR⟩ := bounded fun p : σ × Fin n × Fin m => e.reward p.1 p.2.1 p.2.2
  obtain ⟨T, hT⟩ := bounded θ0
  have g1 : 0 < 1 - gamma := by linarith
  obtain ⟨B, hB1, hB2⟩ : ∃ B, R + gamma * B ≤ B ∧ T ≤ B := by
    refine ⟨max T (R / (1 - gamma)), ?_, le_max_left _ _⟩
    have h2 := (div_le_iff₀ g1).1 (le_max_right T (R / (1 - gamma)))
    linarith
  have hθ0 : ∀ s, |θ0 s| ≤ B := fun s => (hT s).trans hB2
  have hB0 : 0 ≤ B := (abs_nonneg _).trans (hθ0 (.inl s0))
  have hacc : Accepts (updateSimple (n := n) lr mse1) gamma fun R (θ : σ ⊕ κ → ℝ) => R + gamma * B ≤ B → (∀ s, |θ s| ≤ B) ∧ ∀ k, θ (.inr k) = 0 := by
    intro k x y d hw θ
    refine ⟨_, updateSimple_eq lr gamma k x y d hw θ, fun R hR hP hRB => ⟨fun s => (simpleMove_bound h0 (hl.nonneg k) (hl.le k) d _ hR hRB (hP hRB).1 s).1, fun j => ?_⟩⟩
    unfold simpleMove
    rw [if_neg (by simp), (hP hRB).2]
    ring
  have hlook : ∀ ep (θ : σ ⊕ κ → ℝ) s u, lookahead p r gamma sel ep θ s u = sel ep (e.seen last gamma θ s) u := fun ep θ s u => lookahead_eq hn hx gamma sel ep θ s u
  obtain ⟨X, xs, out, hrun, hsteps, hs, hnext, ha, hon, hep, hw, hX, hbound⟩ := Acting.steps (A := fun ep θ s u => A ep (e.seen last gamma θ s) u) hv hacc hg (pi := lookahead p r gamma sel)
    (fun ep θ s a => by simp only [hlook]; exact hpi.measurable _ _ _) (fun ep θ s u => by rw [hlook]; exact hA _ _ _) h0 h1.le s0 θ0
  have hB := fun k ω => hbound R (fun s a j => hR (s, a, j)) (fun _ => ⟨hθ0, hz⟩) k ω hB1
  have hseen : ∀ k ω s, e.seen last gamma (X k ω).params s = e.back gamma (fun s => (X k ω).params (.inl s)) s := fun k ω s => seen_zero e last gamma (hB k ω).2 s
  obtain ⟨eps, heps, hexp⟩ := hpi.explores B
  have hx : Explorer e μ ℋ xs out lr := {
    steps := hsteps
    explores := by
      refine ⟨eps, heps, fun t a => ?_⟩
      filter_upwards [ha t a] with ω h4
      rw [h4]
      simp only [hlook, hseen]
      exact hexp _ _ _ fun b => back_bound he h0 (fun s a j => hR (s, a, j)) hB1 (fun s => (hB t ω).1 _) _ b
    connected := hc
    reset := hnext
    schedule := ⟨hl.nonneg, fun t ω => by
      rw [hw]
      have : min (max (1 : ℝ) 0.1) 10 = 1 := by norm_num
      rw [this, mul_one]; exact hl.le t, hl.squares⟩
    infinite := hl.infinite
    slow := hl.slow }
  have hvis := (hx.rates gamma one_pos le_rfl).visits
  -- the values
  let dn : ℕ → Ω → Bool := fun t ω => e.ends (xs t ω).s (xs t ω).a (out t ω)
  let θ : ℕ → Ω → σ ⊕ κ → ℝ := fun t ω => Nat.rec θ0 (fun t θ => simpleMove (lr t) gamma θ (.inl (xs t ω).s) (xs t ω).r (dn t ω) (.inl (xs (t + 1) ω).s)) t
  have hθs : ∀ t ω, θ (t + 1) ω = simpleMove (lr t) gamma (θ t ω) (.inl (xs t ω).s) (xs t ω).r (dn t ω) (.inl (xs (t + 1) ω).s) := fun _ _ => rfl
  have hrR : ∀ t ω, |(xs t ω).r| ≤ R := fun t ω => by rw [hsteps.reward]; exact hR (_, _, _)
  have hθB : ∀ t ω s, |θ t ω s| ≤ B := by
    intro t ω
    induction t with
    | zero => exact hθ0
    | succ t ih => exact fun s => (simpleMove_bound h0 (hl.nonneg t) (hl.le t) _ _ (hrR t ω) hB1 ih s).1
  have hq : ∀ t ω, (X (t + 1) ω).params = if dn t ω then θ (t + 1) ω else θ t ω := by
    intro t ω
    have main := onlineU_learn (update := updateSimple lr mse1) (dn := fun t => dn t ω) (xs := fun t => xs t ω) (θ := fun t => θ t ω) h0 h1.le (fun t => hsteps.logp t ω) (fun t => hsteps.w t ω)
      (fun j => updateSimple_eq lr gamma j (xs j ω) (xs (j + 1) ω) (dn j ω) (hw j ω) (θ j ω)) (t + 1)
    have := congrArg (fun p => p.2.1) (Except.ok.inj ((hon (t + 1) ω).symm.trans main))
    simp only at this
    rw [this]
    by_cases h : dn t ω = true <;> simp [h]
  -- what is known
  have ks : ∀ t, Knows (ℋ (2 * t)) fun ω => (xs t ω).s := fun t => ⟨Set.to_countable _, fun s => hsteps.s_known t s⟩
  have ka : ∀ t, Knows (ℋ (2 * t + 1)) fun ω => (xs t ω).a := fun t => ⟨Set.to_countable _, fun a => hsteps.a_known t a⟩
  have ko : ∀ t, Knows (ℋ (2 * t + 2)) fun ω => out t ω := fun t => ⟨Set.to_countable _, fun j => hsteps.out_known t j⟩
  have up : ∀ {i j : ℕ}, i ≤ j → ℋ i ≤ ℋ j := fun h => ℋ.mono h
  have kθ : ∀ t, Knows (ℋ (2 * t)) fun ω => θ t ω := by
    intro t
    induction t with
    | zero => exact Knows.const _ _
    | succ t ih =>
      have h2 := (((ih.mono (up (by omega : 2 * t ≤ 2 * (t + 1)))).pair (((ks t).mono (up (by omega : 2 * t ≤ 2 * (t + 1)))).pair ((ka t).mono (up (by omega : 2 * t + 1 ≤ 2 * (t + 1)))))).pair
        (((ko t).mono (up (by omega : 2 * t + 2 ≤ 2 * (t + 1)))).pair (ks (t + 1))))
      have h3 := h2.map fun p => simpleMove (lr t) gamma p.1.1 (.inl p.1.2.1) (e.reward p.1.2.1 p.1.2.2 p.2.1) (e.ends p.1.2.1 p.1.2.2 p.2.1) (.inl p.2.2)
      refine (congrArg (Knows (ℋ (2 * (t + 1)))) (funext fun ω => ?_)).mpr h3
      rw [hθs, hsteps.reward]
  have k0 : ∀ t, Knows (ℋ (2 * t)) fun ω => ((θ t ω, X t ω), (xs t ω).s) := fun t => ((kθ t).pair (hX t)).pair (ks t)
  have k1 : ∀ t, Knows (ℋ (2 * t + 1)) fun ω => (((θ t ω, X t ω), (xs t ω).s), (xs t ω).a) := fun t => ((k0 t).mono (up (by omega))).pair (ka t)
  -- the noise
  let b : ℕ → σ → Ω → ℝ := fun t s ω => if (xs t ω).s = s then lr t else 0
  have hb0 : ∀ t p ω, 0 ≤ b t p ω := fun t p ω => by
    simp only [b]; split
    · exact hl.nonneg t
    · exact le_rfl
  have hbl : ∀ t p ω, b t p ω ≤ lr t := fun t p ω => by
    simp only [b]; split
    · exact le_rfl
    · exact hl.nonneg t
  let G : ℕ → Ω → σ → Fin n → Fin m → ℝ := fun t ω s a j => e.reward s a j + if e.ends s a j then 0 else gamma * θ t ω (.inl (e.next s a j))
  have hGB : ∀ t ω s a j, |G t ω s a j| ≤ B := by
    intro t ω s a j
    refine (abs_add_le _ _).trans (le_trans (add_le_add (hR (s, a, j)) ?_) hB1)
    split
    · rw [abs_zero]; positivity
    · rw [abs_mul, abs_of_nonneg h0]
      exact mul_le_mul_of_nonneg_left (hθB _ _ _) h0
  let Q : ℕ → Ω → σ → Fin n → ℝ := fun t ω => e.back gamma fun s => θ t ω (.inl s)
  have hQB : ∀ t ω s a, |Q t ω s a| ≤ B := fun t ω s a => back_bound he h0 (fun s a j => hR (s, a, j)) hB1 (fun s => hθB t ω _) s a
  let W : ℕ → Ω → σ → Fin n → ℝ := fun t ω s => prob (X t ω).ep (e.back gamma (fun s => (X t ω).params (.inl s)) s)
  have n2 : ∀ s, ∀ᵐ ω ∂μ, ∃ S, Tendsto (fun t => ∑ k ∈ Finset.range t, b k s ω * (G k ω s (xs k ω).a (out k ω) - ∑ j, e.prob s (xs k ω).a j * G k ω s (xs k ω).a j)) atTop (𝓝 S) := by
    intro s
    refine outcome_noise_random (ℱ := sub2 ℋ 1) (q := fun t ω => e.prob s (xs t ω).a) (a := fun t => b t s) (Z := fun t ω => G t ω s (xs t ω).a) (x := out) (c := lr) (fun t ω => he.nonneg _ _) (fun t ω => he.total _ _) (fun t j => ?_) (fun t ω => hb0 t s ω)
      (fun t ω => (hbl t s ω).trans (hl.le t)) (fun t ω => hbl t s ω) hl.squares (fun t => ?_) (fun t j => ?_) (fun t ω j => hGB t ω s _ j) (fun t j => up (by omega) _ (hsteps.out_known t j)) (fun t j => ?_) hB0
    · exact ((k1 t).map fun z => e.prob s z.2 j).measurable
    · exact ((k1 t).map fun z => if z.1.2 = s then lr t else 0).measurable
    · exact ((k1 t).map fun z => e.reward s z.2 j + if e.ends s z.2 j then 0 else gamma * z.1.1.1 (.inl (e.next s z.2 j))).measurable
    · filter_upwards [hsteps.law t j] with ω h2 h3
      have h4 : (xs t ω).s = s := by
        by_contra h5
        exact h3 (if_neg h5)
      rw [show (sub2 ℋ 1 : Filtration ℕ m0) t = ℋ (2 * t + 1) from rfl, h2, h4]
  have n1 : ∀ s, ∀ᵐ ω ∂μ, ∃ S, Tendsto (fun t => ∑ k ∈ Finset.range t, b k s ω * (Q k ω s (xs k ω).a - ∑ a, W k ω s a * Q k ω s a)) atTop (𝓝 S) := by
    intro s
    refine outcome_noise_random (ℱ := sub2 ℋ 0) (q := fun t ω => W t ω s) (a := fun t => b t s) (Z := fun t ω => Q t ω s) (x := fun t ω => (xs t ω).a) (c := lr) (fun t ω a => hp0 _ _ a) (fun t ω => hp1 _ _) (fun t a => ?_) (fun t ω => hb0 t s ω)
      (fun t ω => (hbl t s ω).trans (hl.le t)) (fun t ω => hbl t s ω) hl.squares (fun t => ?_) (fun t a => ?_) (fun t ω a => hQB t ω s a) (fun t a => up (by omega) _ (hsteps.a_known t a)) (fun t a => ?_) hB0
    · exact ((k0 t).map fun z => prob z.1.2.ep (e.back gamma (fun s => z.1.2.params (.inl s)) s) a).measurable
    · exact ((k0 t).map fun z => if z.2 = s then lr t else 0).measurable
    · exact ((k0 t).map fun z => e.back gamma (fun s => z.1.1 (.inl s)) s a).measurable
    · filter_upwards [ha t a] with ω h2 h3
      have h4 : (X t ω).s = s := by
        by_contra h5
        exact h3 (if_neg (by rw [hs]; exact h5))
      rw [show (sub2 ℋ 0 : Filtration ℕ m0) t = ℋ (2 * t) from rfl, h2, h4]
      simp only [hlook, hseen, hp, W]
  refine ⟨X, B, hrun, fun k ω => ?_, fun k ω => (hB k ω).2, ?_⟩
  · rw [hep]; split <;> omega
  filter_upwards [ae_all_iff.2 n1, ae_all_iff.2 n2, ae_all_iff.2 fun p : σ × Fin n => hvis p.1 p.2] with ω w1 w2 w3
  refine ⟨fun t s => θ t ω (.inl s), fun t s => b t s ω, fun t s => b t s ω * (Q t ω s (xs t ω).a - ∑ a, W t ω s a * Q t ω s a) + b t s ω * (G t ω s (xs t ω).a (out t ω) - ∑ j, e.prob s (xs t ω).a j * G t ω s (xs t ω).a j),
    fun t s => hθB t ω _, fun t s => ?_, fun t => ?_, fun t s => ⟨hb0 t s ω, (hbl t s ω).trans (hl.le t)⟩, fun s => ?_, fun s => ?_, fun t s => ?_⟩
  · exact (simpleMove_bound h0 (hl.nonneg t) (hl.le t) _ _ (hrR t ω) hB1 (hθB t ω) (.inl s)).2
  · rw [hq]; split
    · exact .inr fun _ => rfl
    · exact .inl fun _ => rfl
  · intro hsum
    refine w3 (s, ⟨0, hn⟩) (Summable.of_nonneg_of_le (fun t => ?_) (fun t => ?_) hsum)
    · split
      · exact hl.nonneg t
      · exact le_rfl
    · split
      · rename_i h
        exact (if_pos h.1).ge
      · exact hb0 t s ω
  · obtain ⟨S1, hS1⟩ := w1 s
    obtain ⟨S2, hS2⟩ := w2 s
    refine ⟨S1 + S2, ?_⟩
    simp only [Finset.sum_add_distrib]
    exact hS1.add hS2
  · beta_reduce
    rw [hθs]
    by_cases h : (xs t ω).s = s
    · have e1 : b t s ω = lr t := if_pos h
      have e2 : G t ω s (xs t ω).a (out t ω) = (xs t ω).r + if dn t ω then 0 else gamma * θ t ω (.inl (xs (t + 1) ω).s) := by
        have e3 : dn t ω = e.ends s (xs t ω).a (out t ω) := by rw [← h]
        rw [e3, hsteps.reward, hnext, h]
      have e4 : Q t ω s (xs t ω).a = ∑ j, e.prob s (xs t ω).a j * G t ω s (xs t ω).a j := rfl
      rw [e1, e4, e2]
      unfold simpleMove
      rw [if_pos (by rw [h])]
      show _ = (1 - lr t) * θ t ω (.inl s) + lr t * (∑ a, W t ω s a * Q t ω s a) + _
      ring
    · have e1 : b t s ω = 0 := if_neg h
      rw [e1]
      unfold simpleMove
      rw [if_neg (fun h' => h (Sum.inl_injective h'))]
      ring

end Coax.Loop
