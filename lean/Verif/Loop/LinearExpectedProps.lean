import Verif.Loop.LinearQDataProps
import Verif.Loop.HuberProps

/-! Property C152: `ExpectedSarsa` with a q-function that is linear in its params. -/

namespace Coax.Loop

open Coax.RewardTracing Coax.TD Coax.Core Coax.Values Coax.Pol Filter Topology

variable {σ : Type _} {n d : Nat}

/-! ### Specification -/

/-- By how much the value of a state and an action differs from what a transition says about it, if actions are taken with probabilities `pi` afterwards. -/
def tdErrE (pi : σ → Fin n → ℝ) (q : σ → Fin n → ℝ) (o : Out σ (Fin n) ℝ) : ℝ := o.Rn + o.In * (o.S_next.elim 0 fun s => ∑ a, pi s a * q s a) - q o.S o.A

/-- If actions are taken with probabilities `pi` after the transitions of a batch, then they lead to states and actions of the batch, at most as often as these occur, or to the end of an episode. -/
structure OnPolicyE (gamma : ℝ) (pi : σ → Fin n → ℝ) (rows : List (Out σ (Fin n) ℝ)) : Prop where
  w : ∀ o ∈ rows, o.W = 1
  in_nonneg : ∀ o ∈ rows, 0 ≤ o.In
  in_le : ∀ o ∈ rows, o.In ≤ gamma
  next : ∀ o ∈ rows, o.S_next.isSome ∧ o.A_next.isSome
  visits : ∀ g : σ → Fin n → ℝ, (∀ s a, 0 ≤ g s a) → (rows.map fun o => if o.In = 0 then 0 else o.S_next.elim 0 fun s => ∑ a, pi s a * g s a).sum ≤ (rows.map fun o => g o.S o.A).sum

/-- On average over the batch, weighted with any feature, the transitions confirm the values. -/
def ProjectedE (pi : σ → Fin n → ℝ) (base : σ → Fin n → ℝ) (phi : σ → Fin n → Fin d → ℝ) (rows : List (Out σ (Fin n) ℝ)) (θ : Fin d → ℝ) : Prop := ∀ k, (rows.map fun o => tdErrE pi (linQ base phi θ) o * phi o.S o.A k).sum = 0

/-- The features of the states and actions of a batch, and their linear combinations. -/
def coveredQ (phi : σ → Fin n → Fin d → ℝ) (rows : List (Out σ (Fin n) ℝ)) : Submodule ℝ (Fin d → ℝ) := Submodule.span ℝ {x | ∃ o ∈ rows, x = phi o.S o.A}

/-! ### The update -/

/-- `ExpectedSarsa` with a policy that has the given logits. -/
noncomputable abbrev expectedOf (logits : σ → Fin n → ℝ) : QFn (σ → Fin n → ℝ) σ (List ℝ) → QFn (σ → Fin n → ℝ) σ (List ℝ) → TBatch σ (List ℝ) → Except Err (List ℝ) :=
  fun q qTarg => expectedSarsa n (fun S => S.map fun s => (List.finRange n).map (logits s)) q qTarg

/-- Claim C152, the update: the target has the expected value in the next state. -/
theorem C152_update (lr : ℝ) (type1 : Bool) (logits : σ → Fin n → ℝ) (base : σ → Fin n → ℝ) (phi : σ → Fin n → Fin d → ℝ) (θT θ : Fin d → ℝ) {rows : List (Out σ (Fin n) ℝ)} (hne : rows ≠ []) (h : ∀ o ∈ rows, o.S_next.isSome ∧ o.A_next.isSome) :
    affineUpdateQ lr mse1 (expectedOf logits) type1 base phi θT θ rows =
      .ok fun k => θ k + lr * ((rows.map fun o => min (max o.W 0.1) 10 * ((o.Rn + o.In * (o.S_next.elim 0 fun s => ∑ a, probs logits s a * linQ base phi θT s a) - linQ base phi θ o.S o.A) * phi o.S o.A k)).sum / rows.length) := by
  classical
  have hn := pos_of_rows hne
  obtain ⟨b, hb, ht⟩ := rule_rows (rule_expectedSarsa (σ := σ) hn type1 logits) (val := fun s row => ∑ a, probs logits s a * row a) (fun s row => rfl) h (linQ base phi θ) (linQ base phi θT)
  exact affineUpdateQ_target lr base phi hne hb ht

/-- The features of the rows. -/
def featsQ (phi : σ → Fin n → Fin d → ℝ) (rows : List (Out σ (Fin n) ℝ)) (i : Fin rows.length) : Fin d → ℝ := phi rows[i].S rows[i].A

/-- The expected features after the rows, discounted. -/
def aheadE (pi : σ → Fin n → ℝ) (phi : σ → Fin n → Fin d → ℝ) (rows : List (Out σ (Fin n) ℝ)) (i : Fin rows.length) : Fin d → ℝ := fun k => rows[i].In * rows[i].S_next.elim 0 fun s => ∑ a, pi s a * phi s a k

theorem aheadE_dot (pi : σ → Fin n → ℝ) (phi : σ → Fin n → Fin d → ℝ) (rows : List (Out σ (Fin n) ℝ)) (i : Fin rows.length) (w : Fin d → ℝ) :
    aheadE pi phi rows i ⬝ᵥ w = rows[i].In * rows[i].S_next.elim 0 fun s => ∑ a, pi s a * (phi s a ⬝ᵥ w) := by
  unfold aheadE dotProduct
  cases rows[i].S_next with
  | none => simp
  | some s =>
    simp only [Option.elim_some, Finset.mul_sum, Finset.sum_mul]
    rw [Finset.sum_comm]
    exact Finset.sum_congr rfl fun a _ => Finset.sum_congr rfl fun k _ => by ring

theorem mean_sq {p : Fin n → ℝ} (h0 : ∀ a, 0 ≤ p a) (h1 : ∑ a, p a = 1) (x : Fin n → ℝ) : (∑ a, p a * x a) ^ 2 ≤ ∑ a, p a * x a ^ 2 := by
  have e : ∀ m : ℝ, ∑ a, p a * (x a - m) ^ 2 = ∑ a, p a * x a ^ 2 - 2 * m * ∑ a, p a * x a + m ^ 2 * ∑ a, p a := fun m => by
    rw [Finset.mul_sum, Finset.mul_sum, ← Finset.sum_sub_distrib, ← Finset.sum_add_distrib]
    exact Finset.sum_congr rfl fun a _ => by ring
  have h := e (∑ a, p a * x a)
  have h2 := Finset.sum_nonneg fun a (_ : a ∈ Finset.univ) => mul_nonneg (h0 a) (sq_nonneg (x a - ∑ a, p a * x a))
  rw [h1] at h
  nlinarith

theorem OnPolicyE.feats {gamma : ℝ} {pi : σ → Fin n → ℝ} (hpi : ∀ s, (∀ a, 0 ≤ pi s a) ∧ ∑ a, pi s a = 1) {rows : List (Out σ (Fin n) ℝ)} (hp : OnPolicyE gamma pi rows) (phi : σ → Fin n → Fin d → ℝ) (w : Fin d → ℝ) :
    ∑ i, (aheadE pi phi rows i ⬝ᵥ w) ^ 2 ≤ gamma ^ 2 * ∑ i, (featsQ phi rows i ⬝ᵥ w) ^ 2 := by
  have h1 := hp.visits (fun s a => (phi s a ⬝ᵥ w) ^ 2) fun _ _ => sq_nonneg _
  rw [sum_rows, sum_rows] at h1
  refine le_trans ?_ (mul_le_mul_of_nonneg_left h1 (sq_nonneg gamma))
  rw [Finset.mul_sum]
  refine Finset.sum_le_sum fun i _ => ?_
  have hi := List.getElem_mem i.2
  have g0 := hp.in_nonneg _ hi
  have g1 := hp.in_le _ hi
  rw [aheadE_dot, mul_pow]
  simp only [Fin.getElem_fin] at g0 g1 ⊢
  by_cases hz : rows[(i : ℕ)].In = 0
  · simp [hz]
  rw [if_neg hz]
  cases rows[(i : ℕ)].S_next with
  | none => simp
  | some s =>
    simp only [Option.elim_some]
    exact mul_le_mul (pow_le_pow_left₀ g0 g1 2) (mean_sq (hpi s).1 (hpi s).2 _) (sq_nonneg _) (sq_nonneg _)

theorem linQ_sub (base : σ → Fin n → ℝ) (phi : σ → Fin n → Fin d → ℝ) (θ θ' : Fin d → ℝ) (s : σ) (a : Fin n) : linQ base phi θ s a - linQ base phi θ' s a = phi s a ⬝ᵥ (θ - θ') := by
  simp only [linQ, dotProduct_sub]
  unfold dotProduct
  ring

theorem sum_tdErrE {pi : σ → Fin n → ℝ} {rows : List (Out σ (Fin n) ℝ)} (hs : ∀ o ∈ rows, o.S_next.isSome) (base : σ → Fin n → ℝ) (phi : σ → Fin n → Fin d → ℝ) (θ θ' : Fin d → ℝ) (k : Fin d) :
    (rows.map fun o => tdErrE pi (linQ base phi θ) o * phi o.S o.A k).sum = (rows.map fun o => tdErrE pi (linQ base phi θ') o * phi o.S o.A k).sum - resid (featsQ phi rows) (aheadE pi phi rows) (θ - θ') k := by
  rw [sum_rows, sum_rows]
  unfold resid
  rw [← Finset.sum_sub_distrib]
  refine Finset.sum_congr rfl fun i _ => ?_
  obtain ⟨s, h⟩ := Option.isSome_iff_exists.1 (hs rows[i] (List.getElem_mem _))
  rw [aheadE_dot]
  unfold tdErrE featsQ
  rw [h]
  simp only [Option.elim_some]
  simp only [← linQ_sub base, mul_sub, Finset.sum_sub_distrib]
  ring

theorem coveredQ_eq (phi : σ → Fin n → Fin d → ℝ) (rows : List (Out σ (Fin n) ℝ)) : coveredQ phi rows = Submodule.span ℝ (Set.range (featsQ phi rows)) := by
  unfold coveredQ
  congr 1
  ext x
  constructor
  · rintro ⟨o, ho, rfl⟩
    obtain ⟨i, hi, rfl⟩ := List.getElem_of_mem ho
    exact ⟨⟨i, hi⟩, rfl⟩
  · rintro ⟨i, rfl⟩
    exact ⟨rows[i], List.getElem_mem _, rfl⟩

/-- Claim C152, the limit is determined. -/
theorem C152_unique {gamma : ℝ} (h0 : 0 ≤ gamma) (h1 : gamma < 1) {pi : σ → Fin n → ℝ} (hpi : ∀ s, (∀ a, 0 ≤ pi s a) ∧ ∑ a, pi s a = 1) {rows : List (Out σ (Fin n) ℝ)} (hp : OnPolicyE gamma pi rows) {base : σ → Fin n → ℝ} {phi : σ → Fin n → Fin d → ℝ}
    {θ θ' : Fin d → ℝ} (h : ProjectedE pi base phi rows θ) (h' : ProjectedE pi base phi rows θ') : ∀ s a, phi s a ∈ coveredQ phi rows → linQ base phi θ s a = linQ base phi θ' s a := by
  intro s a hs
  rw [coveredQ_eq] at hs
  have hr : resid (featsQ phi rows) (aheadE pi phi rows) (θ - θ') = 0 := by
    funext k
    have := sum_tdErrE (pi := pi) (fun o ho => (hp.next o ho).1) base phi θ θ' k
    rw [h k, h' k] at this
    simpa using this.symm
  have := span_orth (resid_zero h0 h1 (hp.feats hpi phi _) hr) hs
  rw [← sub_eq_zero, linQ_sub]
  exact this

/-- Claim C152, convergence: if the actions in the states of a batch occur as often as the policy takes them after its transitions, then repeated updates with a small learning rate converge.  Nothing raises. -/
theorem C152_converges {gamma : ℝ} (h0 : 0 ≤ gamma) (h1 : gamma < 1) (logits : σ → Fin n → ℝ) {rows : List (Out σ (Fin n) ℝ)} (hne : rows ≠ []) (hp : OnPolicyE gamma (probs logits) rows) (type1 : Bool) (base : σ → Fin n → ℝ) (phi : σ → Fin n → Fin d → ℝ) {F : ℝ}
    (hF : ∀ o ∈ rows, ∑ k, phi o.S o.A k ^ 2 ≤ F) {lr : ℝ} (hlr : 0 < lr) (hs : lr * F * (1 + gamma) ^ 2 < 2 * (1 - gamma)) (θ0 : Fin d → ℝ) :
    ∃ θ : ℕ → Fin d → ℝ, (∀ t, affineLearnQ (fun _ => lr) mse1 (expectedOf logits) type1 base phi 0 θ0 (List.replicate t rows) = .ok (θ t)) ∧
      ∃ best, ProjectedE (probs logits) base phi rows best ∧ ∀ s a, phi s a ∈ coveredQ phi rows → Tendsto (fun t => linQ base phi (θ t) s a) atTop (𝓝 (linQ base phi best s a)) := by
  have hn := pos_of_rows hne
  have hpi := probs_law hn logits
  have hP := hp.feats hpi phi
  have hsome : ∀ o ∈ rows, o.S_next.isSome := fun o ho => (hp.next o ho).1
  obtain ⟨best, hb⟩ : ∃ best, ProjectedE (probs logits) base phi rows best := by
    obtain ⟨w, -, hw⟩ := resid_exists h0 h1 hP fun i => tdErrE (probs logits) (linQ base phi 0) rows[i]
    refine ⟨w, fun k => ?_⟩
    rw [sum_tdErrE hsome base phi w 0 k, sub_zero, hw, sum_rows]
    exact sub_self _
  set step : (Fin d → ℝ) → Fin d → ℝ := fun θ => θ - (lr / rows.length) • resid (featsQ phi rows) (aheadE (probs logits) phi rows) (θ - best) with hstep
  have hN : (0 : ℝ) < rows.length := by
    have := List.length_pos_iff.2 hne
    exact_mod_cast this
  have hup : ∀ θ, affineUpdateQ lr mse1 (expectedOf logits) type1 base phi θ θ rows = .ok (step θ) := fun θ => by
    rw [C152_update lr type1 logits base phi θ θ hne hp.next]
    congr 1
    funext k
    have e : (rows.map fun o => min (max o.W 0.1) 10 * ((o.Rn + o.In * (o.S_next.elim 0 fun s => ∑ a, probs logits s a * linQ base phi θ s a) - linQ base phi θ o.S o.A) * phi o.S o.A k)) =
        rows.map fun o => tdErrE (probs logits) (linQ base phi θ) o * phi o.S o.A k := by
      refine List.map_congr_left fun o ho => ?_
      rw [hp.w o ho]
      norm_num [tdErrE]
    rw [e, sum_tdErrE hsome base phi θ best k, hb k, hstep]
    simp only [Pi.sub_apply, Pi.smul_apply, smul_eq_mul]
    ring
  have hlearn : ∀ t k θ, affineLearnQ (fun _ => lr) mse1 (expectedOf logits) type1 base phi k θ (List.replicate t rows) = .ok (step^[t] θ) := fun t => by
    induction t with
    | zero => intro k θ; rfl
    | succ t ih =>
      intro k θ
      rw [List.replicate_succ, affineLearnQ, hup]
      exact ih _ _
  refine ⟨fun t => step^[t] θ0, fun t => hlearn t 0 θ0, best, hb, fun s a hs' => ?_⟩
  have hF' : ∀ i, featsQ phi rows i ⬝ᵥ featsQ phi rows i ≤ F := fun i => by
    have := hF rows[i] (List.getElem_mem _)
    simpa [dotProduct, featsQ, ← sq] using this
  have hF0 : 0 ≤ F := by
    obtain ⟨o, ho⟩ := List.exists_mem_of_ne_nil _ hne
    exact (Finset.sum_nonneg fun k _ => sq_nonneg _).trans (hF o ho)
  have hsmall : lr / rows.length * (Fintype.card (Fin rows.length) * F * (1 + gamma) ^ 2) < 2 * (1 - gamma) := by
    rw [Fintype.card_fin]
    have : lr / rows.length * (rows.length * F * (1 + gamma) ^ 2) = lr * F * (1 + gamma) ^ 2 := by field_simp
    rw [this]
    exact hs
  have hrec : ∀ t, step^[t + 1] θ0 - best = (step^[t] θ0 - best) - (lr / rows.length) • resid (featsQ phi rows) (aheadE (probs logits) phi rows) (step^[t] θ0 - best) := fun t => by
    rw [Function.iterate_succ_apply', hstep]
    exact sub_right_comm _ _ _
  have hlim := resid_tendsto (w := fun t => step^[t] θ0 - best) h0 (div_pos hlr hN) hF' hF0 hP hsmall hrec
  rw [coveredQ_eq] at hs'
  have h2 := (span_tendsto hlim hs').add_const (linQ base phi best s a)
  rw [zero_add] at h2
  refine h2.congr fun t => ?_
  rw [← linQ_sub base]
  ring

/-! ### Other data -/

/-- Logits of a policy that takes the first of two actions with probability 3/4. -/
noncomputable def leaning (_ : Bool) (a : Fin 2) : ℝ := if a = 0 then Real.log 3 else 0

theorem leaning_probs (s : Bool) : probs leaning s 0 = 3 / 4 ∧ probs leaning s 1 = 1 / 4 := by
  have h : Real.exp (Real.log 3) = 3 := Real.exp_log (by norm_num)
  constructor <;> simp [probs, leaning, h] <;> norm_num

/-- Claim C152 is false of complete episodes in which actions occur less often than the policy takes them: one episode of two steps without rewards, in the second of which a policy that takes the first action with probability 3/4 takes the second.
If the value of the first action there is twice the value of the first state, then updates diverge with every learning rate from all positive params, though zero is the value of both. -/
theorem C152_counterexample {gamma : ℝ} (hg : 2 / 3 < gamma) (h1 : gamma ≤ 1) {lr : ℝ} (hlr : 0 < lr) (type1 : Bool) {x : ℝ} (hx : 0 < x) :
    ∃ tracer rows k, onlineU (fun _ (acc : List (Out Bool (Fin 2) ℝ)) o => .ok (acc ++ [o])) (NStep.init 1 gamma false, [], 0) [(⟨false, 0, 0, 0, 1⟩, false), (⟨true, 1, 0, 0, 1⟩, true)] = .ok (tracer, rows, k) ∧
      (∀ o ∈ rows, tdErrE (probs leaning) (fun _ _ => 0) o = 0) ∧
      ∃ θ : ℕ → Fin 1 → ℝ, (∀ t, affineLearnQ (fun _ => lr) mse1 (expectedOf leaning) type1 (fun _ _ => 0) tempting 0 (fun _ => x) (List.replicate t rows) = .ok (θ t)) ∧ Tendsto (fun t => linQ (fun _ _ => 0) tempting (θ t) false 0) atTop atTop := by
  obtain ⟨xs, dn, T, hsteps, hdT, -, tracer, k, hrun⟩ := episodes_run (σ := Bool) (n := 2) (gamma := gamma) (by linarith) h1 (N := 1) one_pos (steps := [(⟨false, 0, 0, 0, 1⟩, false), (⟨true, 1, 0, 0, 1⟩, true)]) (x := ⟨true, 1, 0, 0, 1⟩) rfl (by simp) (by simp)
  obtain rfl : T = 1 := by
    have := congrArg List.length hsteps
    simpa using this
  simp only [List.range_succ, List.range_zero, List.nil_append, List.map_append, List.map_cons, List.map_nil, List.cons_append, List.cons.injEq, Prod.mk.injEq, and_true] at hsteps hrun
  obtain ⟨⟨e1, e2⟩, e3, e4⟩ := hsteps
  refine ⟨_, _, _, hrun, ?_, ?_⟩
  · intro o ho
    simp only [List.mem_cons, List.not_mem_nil, or_false] at ho
    rcases ho with rfl | rfl <;> simp [tdErrE, rowN, returnN, endsN, e1, e2, e3, e4]
  set rows : List (Out Bool (Fin 2) ℝ) := [rowN gamma 1 xs dn 0, rowN gamma 1 xs dn 1] with hrows
  have hstep : ∀ y : ℝ, affineUpdateQ lr mse1 (expectedOf leaning) type1 (fun _ _ => 0) tempting (fun _ => y) (fun _ => y) rows = .ok fun _ => y * (1 + lr / 2 * (3 / 2 * gamma - 1)) := by
    intro y
    rw [C152_update lr type1 leaning _ tempting _ _ (by simp [rows]) (by simp [rows, rowN])]
    congr 1
    funext k
    simp [rows, rowN, returnN, endsN, e1, e2, e3, e4, linQ, tempting, leaning_probs]
    norm_num
    ring
  set r : ℝ := 1 + lr / 2 * (3 / 2 * gamma - 1) with hr
  have hr1 : 1 < r := by
    have : 0 < lr / 2 * (3 / 2 * gamma - 1) := mul_pos (by linarith) (by linarith)
    linarith
  refine ⟨fun t _ => x * r ^ t, fun t => ?_, ?_⟩
  · generalize 0 = k
    induction t generalizing x k with
    | zero => simp [affineLearnQ]
    | succ t ih =>
      rw [List.replicate_succ, affineLearnQ, hstep x]
      simp only
      rw [ih (x := x * r) (mul_pos hx (by linarith)) (k + 1)]
      congr 1
      funext _
      ring
  · simp only [linQ, tempting, Finset.univ_unique, Finset.sum_const, Finset.card_singleton, one_smul, zero_add, Bool.false_eq_true, if_false, one_mul]
    exact (tendsto_pow_atTop_atTop_of_one_lt hr1).const_mul_atTop hx

/-- A transition from a state back to it. -/
noncomputable def again (a : Fin 2) : Out Bool (Fin 2) ℝ := { S := true, A := a, logP := 0, Rn := 1, In := 1 / 2, S_next := some true, A_next := some 0, logP_next := some 0, W := 1, idx := 0, extraInfo := none }

/-- Three transitions with the first action and one with the second, as the policy takes them. -/
example : ∃ (θ : ℕ → Fin 1 → ℝ) (best : Fin 1 → ℝ), (∀ t, affineLearnQ (fun _ => 1 / 100) mse1 (expectedOf leaning) false (fun _ _ => 0) tempting 0 (fun _ => 7) (List.replicate t [again 0, again 0, again 0, again 1]) = .ok (θ t)) ∧
    Tendsto (fun t => linQ (fun _ _ => 0) tempting (θ t) true 0) atTop (𝓝 (linQ (fun _ _ => 0) tempting best true 0)) := by
  have hp : OnPolicyE (1 / 2) (probs leaning) [again 0, again 0, again 0, again 1] :=
    ⟨by simp [again], by simp [again], by simp [again], by simp [again], fun g _ => by
      have := leaning_probs true
      simp [again, Fin.sum_univ_two, this.1, this.2]
      linarith⟩
  obtain ⟨θ, h1, best, -, h2⟩ := C152_converges (by norm_num) (by norm_num) leaning (by simp) hp false (fun _ _ => 0) tempting (F := 4) (by norm_num [again, tempting]) (lr := 1 / 100) (by norm_num) (by norm_num) fun _ => 7
  exact ⟨θ, best, h1, h2 true 0 (Submodule.subset_span ⟨again 0, by simp, rfl⟩)⟩

end Coax.Loop
