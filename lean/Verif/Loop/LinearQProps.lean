import Verif.Loop.LinearQ
import Verif.Loop.LinearDrawProps
import Verif.Loop.LinearDataProps
import Verif.Loop.ReplayLemmas

/-! Property C150: what `Sarsa` and `QLearning` learn with a q-function that is linear in its params. -/

namespace Coax.Loop

open Coax.RewardTracing Coax.TD Coax.Core Coax.Values Coax.Pol Filter Topology MeasureTheory

variable {σ : Type _} {n d : Nat}

/-! ### Specification -/

/-- A function of states and actions that is linear in its params, up to a term without params. -/
def linQ (base : σ → Fin n → ℝ) (phi : σ → Fin n → Fin d → ℝ) (θ : Fin d → ℝ) (s : σ) (a : Fin n) : ℝ := base s a + ∑ k, phi s a k * θ k

/-- By how much the value of a state and an action differs from what a transition says about it, with the action that was taken next. -/
def tdErrQ (q : σ → Fin n → ℝ) (o : Out σ (Fin n) ℝ) : ℝ := o.Rn + o.In * (o.S_next.elim 0 fun s => o.A_next.elim 0 (q s)) - q o.S o.A

/-- The values that the batch speaks for: on average, the transitions from each state with each action confirm their value. -/
def EmpiricalQ (rows : List (Out σ (Fin n) ℝ)) (u : σ → Fin n → ℝ) : Prop := ∀ g : σ → Fin n → ℝ, (rows.map fun o => tdErrQ u o * g o.S o.A).sum = 0

/-! ### The update -/

theorem affineQ_eq (base : σ → Fin n → ℝ) (phi : σ → Fin n → Fin d → ℝ) (θ : Fin d → ℝ) : affineQ base phi θ = linQ base phi θ := by
  funext s a
  unfold affineQ linQ
  rw [Fin.sum_univ_def]

/-- States and actions together. -/
def pair (o : Out σ (Fin n) ℝ) : Out (σ × Fin n) (Fin n) ℝ :=
  { S := (o.S, o.A), A := o.A, logP := o.logP, Rn := o.Rn, In := o.In, S_next := o.S_next.bind fun s => o.A_next.map fun a => (s, a), A_next := o.A_next, logP_next := o.logP_next, W := o.W, idx := o.idx, extraInfo := none }

theorem sarsa_rows (hn : 0 < n) (type1 : Bool) {rows : List (Out σ (Fin n) ℝ)} (h : ∀ o ∈ rows, o.S_next.isSome ∧ o.A_next.isSome) (θQ θT : σ → Fin n → ℝ) :
    ∃ b, toTBatch id (fun a : Fin n => oneHot n a) rows = .ok b ∧
      sarsa n (tabular type1 θQ) (tabular type1 θT) b = .ok (rows.map fun o => o.Rn + o.In * (o.S_next.elim 0 fun s => o.A_next.elim 0 (θT s))) := by
  have hsa : ∃ S A, rows.mapM (fun o => o.S_next) = some S ∧ rows.mapM (fun o => o.A_next) = some A ∧ S.length = rows.length ∧ A.length = rows.length ∧
      rows.map (fun o => o.S_next.elim 0 fun s => o.A_next.elim 0 (θT s)) = List.zipWith (ext θT) S (A.map fun a : Fin n => (a : Nat)) := by
    induction rows with
    | nil => exact ⟨[], [], rfl, rfl, rfl, rfl, rfl⟩
    | cons o rows ih =>
      obtain ⟨S, A, h1, h2, h3, h4, h5⟩ := ih fun o ho => h o (by simp [ho])
      obtain ⟨s, hs⟩ := Option.isSome_iff_exists.1 (h o (by simp)).1
      obtain ⟨a, ha⟩ := Option.isSome_iff_exists.1 (h o (by simp)).2
      exact ⟨s :: S, a :: A, by simp [List.mapM_cons, h1, hs], by simp [List.mapM_cons, h2, ha], by simp [h3], by simp [h4], by simp [h5, hs, ha, ext]⟩
  obtain ⟨S, A, h1, h2, h3, h4, h5⟩ := hsa
  refine ⟨{ Rn := rows.map (·.Rn), In := rows.map (·.In), S_next := S.map id, A_next := A.map fun a : Fin n => oneHot n (a : Nat) }, by unfold toTBatch; rw [h1, h2], ?_⟩
  unfold sarsa tabular
  simp only [List.map_id]
  have h := (C55_agree hn (table_computes type1 θT) S).2 (A.map fun a : Fin n => (a : Nat)) (by simp [h3, h4]) (by simp)
  rw [List.map_map] at h
  have h' : functionType1 n (table type1 θT) S (A.map fun a : Fin n => oneHot n a) = .ok (List.zipWith (ext θT) S (A.map fun a : Fin n => (a : Nat))) := h
  rw [h']
  simp only
  rw [← h5]
  unfold backup
  rw [if_pos (by simp)]
  congr 1
  simp [List.zip_map', List.zipWith_map_left, List.zipWith_map_right, List.zipWith_self]

theorem pos_of_rows {rows : List (Out σ (Fin n) ℝ)} (hne : rows ≠ []) : 0 < n := by
  cases rows with
  | nil => exact absurd rfl hne
  | cons o _ => exact lt_of_le_of_lt (Nat.zero_le _) o.A.isLt

/-- `Sarsa` is `SimpleTD` with states and actions together. -/
theorem affineUpdateQ_pair {l l' : ℝ → ℝ → ℝ} {L : LossFn} (hL : MeanOf l l' L) (lr : ℝ) (type1 : Bool) (base : σ → Fin n → ℝ) (phi : σ → Fin n → Fin d → ℝ) (θT θ : Fin d → ℝ) {rows : List (Out σ (Fin n) ℝ)} (hne : rows ≠ []) (h : ∀ o ∈ rows, o.S_next.isSome ∧ o.A_next.isSome) :
    affineUpdateQ lr L (sarsa n) type1 base phi θT θ rows = affineUpdate lr L (fun p => base p.1 p.2) (fun p => phi p.1 p.2) θT θ (rows.map pair) := by
  classical
  have hn := pos_of_rows hne
  have hs : ∀ o ∈ rows.map pair, o.S_next.isSome := by
    intro o ho
    obtain ⟨o, ho', rfl⟩ := List.mem_map.1 ho
    replace ho := ho'
    obtain ⟨s, hs⟩ := Option.isSome_iff_exists.1 (h o ho).1
    obtain ⟨a, ha⟩ := Option.isSome_iff_exists.1 (h o ho).2
    simp [pair, hs, ha]
  have key : ∀ θ', ∃ x out out', affineLossQ L (sarsa n) type1 base phi rows θT θ θ' = .ok out ∧ out.loss = some x ∧
      affineLoss L (fun p => base p.1 p.2) (fun p => phi p.1 p.2) (rows.map pair) θT θ θ' = .ok out' ∧ out'.loss = some x := by
    intro θ'
    obtain ⟨out', h3, h4⟩ := affineLoss_eq hL (fun p : σ × Fin n => base p.1 p.2) (fun p => phi p.1 p.2) (θT := θT) (θV := θ) (rows := rows.map pair) (by simpa using hne) hs θ'
    obtain ⟨b, hb, ht⟩ := sarsa_rows hn type1 h (affineQ base phi θ) (affineQ base phi θT)
    obtain ⟨out, h1, h2⟩ := tableLoss_eq hL hn hne hb ht (affineQ base phi θ')
    refine ⟨_, out, out', h1, h2, h3, ?_⟩
    rw [h4, List.length_map, List.map_map]
    congr 3
    refine List.map_congr_left fun o ho => ?_
    obtain ⟨s, hs⟩ := Option.isSome_iff_exists.1 (h o ho).1
    obtain ⟨a, ha⟩ := Option.isSome_iff_exists.1 (h o ho).2
    simp [pair, weight, hs, ha, affineQ_eq, lin, linQ]
  have hval : ∀ θ', lossValue (affineLossQ L (sarsa n) type1 base phi rows θT θ θ') = lossValue (affineLoss L (fun p => base p.1 p.2) (fun p => phi p.1 p.2) (rows.map pair) θT θ θ') := by
    intro θ'
    obtain ⟨x, ⟨l, a1, a2, a3⟩, ⟨l', b1, b2, b3⟩, h1, h2, h3, h4⟩ := key θ'
    rw [h1, h3]
    simp only at h2 h4
    subst h2 h4
    rfl
  unfold affineUpdateQ affineUpdate
  obtain ⟨x, out, out', h1, h2, h3, h4⟩ := key θ
  rw [h1, h3]
  simp only [h2, h4, Option.isNone_some, Bool.false_eq_true, if_false, hval]

/-- Claim C150, the update: each param moves along its feature, weighted with the differences between targets and values; the target is not differentiated. -/
theorem C150_update (lr : ℝ) (type1 : Bool) (base : σ → Fin n → ℝ) (phi : σ → Fin n → Fin d → ℝ) (θT θ : Fin d → ℝ) {rows : List (Out σ (Fin n) ℝ)} (hne : rows ≠ []) (h : ∀ o ∈ rows, o.S_next.isSome ∧ o.A_next.isSome) :
    affineUpdateQ lr mse1 (sarsa n) type1 base phi θT θ rows =
      .ok fun k => θ k + lr * ((rows.map fun o => min (max o.W 0.1) 10 * ((o.Rn + o.In * (o.S_next.elim 0 fun s => o.A_next.elim 0 (linQ base phi θT s)) - linQ base phi θ o.S o.A) * phi o.S o.A k)).sum / rows.length) := by
  rw [affineUpdateQ_pair mse1_meanOf lr type1 base phi θT θ hne h, C149_update lr _ _ θT θ (by simpa using hne)]
  · congr 1
    funext k
    rw [List.length_map, List.map_map]
    congr 4
    refine List.map_congr_left fun o ho => ?_
    obtain ⟨s, hs⟩ := Option.isSome_iff_exists.1 (h o ho).1
    obtain ⟨a, ha⟩ := Option.isSome_iff_exists.1 (h o ho).2
    simp [pair, hs, ha, lin, linQ]
  · intro o ho
    obtain ⟨o, ho', rfl⟩ := List.mem_map.1 ho
    replace ho := ho'
    obtain ⟨s, hs⟩ := Option.isSome_iff_exists.1 (h o ho).1
    obtain ⟨a, ha⟩ := Option.isSome_iff_exists.1 (h o ho).2
    simp [pair, hs, ha]

theorem affineLearnQ_pair {l l' : ℝ → ℝ → ℝ} {L : LossFn} (hL : MeanOf l l' L) (lr : ℕ → ℝ) (type1 : Bool) (base : σ → Fin n → ℝ) (phi : σ → Fin n → Fin d → ℝ) {batches : List (List (Out σ (Fin n) ℝ))} (hb : ∀ rows ∈ batches, rows ≠ [] ∧ ∀ o ∈ rows, o.S_next.isSome ∧ o.A_next.isSome) (k : ℕ)
    (θ : Fin d → ℝ) :
    affineLearnQ lr L (sarsa n) type1 base phi k θ batches = affineLearn lr L (fun p => base p.1 p.2) (fun p => phi p.1 p.2) k θ (batches.map (List.map pair)) := by
  induction batches generalizing k θ with
  | nil => rfl
  | cons rows bs ih =>
    rw [List.map_cons, affineLearnQ, affineLearn, affineUpdateQ_pair hL _ type1 base phi θ θ (hb rows (by simp)).1 (hb rows (by simp)).2]
    cases affineUpdate (lr k) L (fun p => base p.1 p.2) (fun p => phi p.1 p.2) θ θ (rows.map pair) with
    | error e => rfl
    | ok θ' => exact ih (fun r hr => hb r (by simp [hr])) (k + 1) θ'

/-! ### Complete episodes -/

theorem returnN_pair (gamma : ℝ) (xs : ℕ → Step σ (Fin n) ℝ) (dn : ℕ → Bool) (N t : ℕ) :
    returnN gamma (fun t => (⟨((xs t).s, (xs t).a), (xs t).a, (xs t).r, (xs t).logp, (xs t).w⟩ : Step (σ × Fin n) (Fin n) ℝ)) dn N t = returnN gamma xs dn N t := by
  induction N generalizing t with
  | zero => rfl
  | succ N ih => rw [returnN, returnN, ih]

theorem pair_rowN (gamma : ℝ) (N : ℕ) (xs : ℕ → Step σ (Fin n) ℝ) (dn : ℕ → Bool) (t : ℕ) :
    pair (rowN gamma N xs dn t) = rowN gamma N (fun t => (⟨((xs t).s, (xs t).a), (xs t).a, (xs t).r, (xs t).logp, (xs t).w⟩ : Step (σ × Fin n) (Fin n) ℝ)) dn t := by
  unfold pair rowN
  rw [returnN_pair]
  cases endsN dn N t <;> simp

theorem episodes_pair {gamma : ℝ} (h0 : 0 ≤ gamma) (h1 : gamma ≤ 1) {N : ℕ} (hN : 0 < N) {steps : List (Step σ (Fin n) ℝ × Bool)} {x : Step σ (Fin n) ℝ} (hlast : steps.getLast? = some (x, true)) (hlogp : ∀ p ∈ steps, p.1.logp ≤ 0)
    (hw : ∀ p ∈ steps, p.1.w = 1) :
    ∃ tracer rows k, onlineU (fun _ (acc : List (Out σ (Fin n) ℝ)) o => .ok (acc ++ [o])) (NStep.init N gamma false, [], 0) steps = .ok (tracer, rows, k) ∧ rows.map (fun o => (o.S, o.A)) = steps.map (fun p => (p.1.s, p.1.a)) ∧ rows ≠ [] ∧
      (∀ o ∈ rows, o.S_next.isSome ∧ o.A_next.isSome) ∧ OnPolicy gamma (rows.map pair) := by
  obtain ⟨xs, dn, T, hsteps, hdT, hw', tracer, k, hrun⟩ := episodes_run h0 h1 hN hlast hlogp hw
  refine ⟨_, _, _, hrun, ?_, by simp [List.range_succ], by simp [rowN], ?_⟩
  · rw [← hsteps]
    simp [rowN, Function.comp_def]
  · have := rowN_onPolicy h0 h1 hN (xs := fun t => (⟨((xs t).s, (xs t).a), (xs t).a, (xs t).r, (xs t).logp, (xs t).w⟩ : Step (σ × Fin n) (Fin n) ℝ)) hdT hw'
    rw [List.map_map]
    simpa only [Function.comp_def, pair_rowN] using this

theorem empirical_pair {rows : List (Out σ (Fin n) ℝ)} (h : ∀ o ∈ rows, o.S_next.isSome ∧ o.A_next.isSome) {u : σ → Fin n → ℝ} (hu : EmpiricalQ rows u) : Empirical (rows.map pair) fun p => u p.1 p.2 := by
  intro g
  rw [List.map_map, ← hu fun s a => g (s, a)]
  congr 1
  refine List.map_congr_left fun o ho => ?_
  obtain ⟨s, hs⟩ := Option.isSome_iff_exists.1 (h o ho).1
  obtain ⟨a, ha⟩ := Option.isSome_iff_exists.1 (h o ho).2
  simp [pair, tdErr, tdErrQ, hs, ha]

/-- The squared error of the values, on the steps of the episodes, is at most `1 / (1 - gamma ^ 2)` times that of any params. -/
def NearBest (gamma : ℝ) (base : σ → Fin n → ℝ) (phi : σ → Fin n → Fin d → ℝ) (rows : List (Out σ (Fin n) ℝ)) (steps : List (Step σ (Fin n) ℝ × Bool)) (best : Fin d → ℝ) : Prop :=
  ∀ u, EmpiricalQ rows u → ∀ θ', (1 - gamma ^ 2) * (steps.map fun p => (linQ base phi best p.1.s p.1.a - u p.1.s p.1.a) ^ 2).sum ≤ (steps.map fun p => (linQ base phi θ' p.1.s p.1.a - u p.1.s p.1.a) ^ 2).sum

theorem nearBest_of {gamma : ℝ} (h0 : 0 ≤ gamma) (h1 : gamma < 1) (base : σ → Fin n → ℝ) (phi : σ → Fin n → Fin d → ℝ) {rows : List (Out σ (Fin n) ℝ)} {steps : List (Step σ (Fin n) ℝ × Bool)} {best : Fin d → ℝ}
    (hS : rows.map (fun o => (o.S, o.A)) = steps.map (fun p => (p.1.s, p.1.a))) (hsa : ∀ o ∈ rows, o.S_next.isSome ∧ o.A_next.isSome) (hp : OnPolicy gamma (rows.map pair))
    (hb : Projected (fun p : σ × Fin n => base p.1 p.2) (fun p => phi p.1 p.2) (rows.map pair) best) : NearBest gamma base phi rows steps best := by
  intro u hu θ'
  have h2 := C149_error h0 h1 hp hb (empirical_pair hsa hu) θ'
  have h3 : ∀ f : σ × Fin n → ℝ, ((rows.map pair).map fun o => f o.S).sum = (steps.map fun p => f (p.1.s, p.1.a)).sum := fun f => by
    have := congrArg (fun l => (l.map f).sum) hS
    simpa [Function.comp_def, pair] using this
  rw [h3 fun p => (lin (fun p : σ × Fin n => base p.1 p.2) (fun p => phi p.1 p.2) best p - u p.1 p.2) ^ 2, h3 fun p => (lin (fun p : σ × Fin n => base p.1 p.2) (fun p => phi p.1 p.2) θ' p - u p.1 p.2) ^ 2] at h2
  exact h2

/-- Claim C150, from episodes to values: with the transitions that an `NStep` tracer makes of complete episodes, repeated `Sarsa` updates with a small learning rate converge, and the sum of squared errors of the limit is at most `1 / (1 - gamma ^ 2)`
times that of any params, relative to values that the transitions confirm on average. -/
theorem C150_converges {gamma : ℝ} (h0 : 0 ≤ gamma) (h1 : gamma < 1) {N : ℕ} (hN : 0 < N) {steps : List (Step σ (Fin n) ℝ × Bool)} {x : Step σ (Fin n) ℝ} (hlast : steps.getLast? = some (x, true)) (hlogp : ∀ p ∈ steps, p.1.logp ≤ 0)
    (hw : ∀ p ∈ steps, p.1.w = 1) (type1 : Bool) (base : σ → Fin n → ℝ) (phi : σ → Fin n → Fin d → ℝ) {F : ℝ} (hF : ∀ p ∈ steps, ∑ k, phi p.1.s p.1.a k ^ 2 ≤ F) {lr : ℝ} (hlr : 0 < lr) (hs : lr * F * (1 + gamma) ^ 2 < 2 * (1 - gamma))
    (θ0 : Fin d → ℝ) :
    ∃ tracer rows k, onlineU (fun _ (acc : List (Out σ (Fin n) ℝ)) o => .ok (acc ++ [o])) (NStep.init N gamma false, [], 0) steps = .ok (tracer, rows, k) ∧
      ∃ (θ : ℕ → Fin d → ℝ) (best : Fin d → ℝ), (∀ t, affineLearnQ (fun _ => lr) mse1 (sarsa n) type1 base phi 0 θ0 (List.replicate t rows) = .ok (θ t)) ∧
        (∀ p ∈ steps, Tendsto (fun t => linQ base phi (θ t) p.1.s p.1.a) atTop (𝓝 (linQ base phi best p.1.s p.1.a))) ∧ NearBest gamma base phi rows steps best := by
  obtain ⟨tracer, rows, k, hrun, hS, hne, hsa, hp⟩ := episodes_pair h0 h1.le hN hlast hlogp hw
  refine ⟨tracer, rows, k, hrun, ?_⟩
  have hF' : ∀ o ∈ rows.map pair, ∑ k, phi o.S.1 o.S.2 k ^ 2 ≤ F := fun o ho => by
    obtain ⟨o, ho', rfl⟩ := List.mem_map.1 ho
    replace ho := ho'
    have h2 : (o.S, o.A) ∈ rows.map fun o => (o.S, o.A) := List.mem_map_of_mem (f := fun o : Out σ (Fin n) ℝ => (o.S, o.A)) ho
    rw [hS] at h2
    obtain ⟨p, hp, e⟩ := List.mem_map.1 h2
    have := hF p hp
    rw [Prod.mk.injEq] at e
    rwa [e.1, e.2] at this
  obtain ⟨θ, hθ, best, hb, hlim⟩ := C149_converges h0 h1 (by simpa using hne) hp (fun p : σ × Fin n => base p.1 p.2) (fun p => phi p.1 p.2) hF' hlr hs θ0
  refine ⟨θ, best, fun t => ?_, fun p hp' => ?_, nearBest_of h0 h1 base phi hS hsa hp hb⟩
  · rw [affineLearnQ_pair mse1_meanOf _ type1 base phi fun r hr => ?_, List.map_replicate, hθ]
    rw [(List.mem_replicate.1 hr).2]
    exact ⟨hne, hsa⟩
  · have h2 : (p.1.s, p.1.a) ∈ steps.map fun p => (p.1.s, p.1.a) := List.mem_map_of_mem (f := fun p : Step σ (Fin n) ℝ × Bool => (p.1.s, p.1.a)) hp'
    rw [← hS] at h2
    obtain ⟨o, ho, e⟩ := List.mem_map.1 h2
    rw [Prod.mk.injEq] at e
    have := hlim (o.S, o.A) (Submodule.subset_span ⟨pair o, List.mem_map_of_mem ho, rfl⟩)
    rw [← e.1, ← e.2]
    exact this

theorem Uniform.cast {Ω : Type _} {m0 : MeasurableSpace Ω} {μ : Measure Ω} {ℱ : Filtration ℕ m0} {B N N' : ℕ} {I : ℕ → Ω → Fin B → Fin N} (hI : Uniform μ ℱ I) (h : N = N') : Uniform μ ℱ fun t ω j => Fin.cast h (I t ω j) := by
  subst h
  exact hI

/-- Claim C150, mini-batches: learning with mini-batches that are drawn uniformly from a buffer with such transitions converges almost surely, and the limit is as good.  The learning rates satisfy the conditions of Robbins and Monro.  Nothing raises. -/
theorem C150_minibatches {Ω : Type _} {m0 : MeasurableSpace Ω} {μ : Measure Ω} [IsProbabilityMeasure μ] {ℱ : Filtration ℕ m0} {gamma : ℝ} (h0 : 0 ≤ gamma) (h1 : gamma < 1) {N : ℕ} (hN : 0 < N) {steps : List (Step σ (Fin n) ℝ × Bool)} {x : Step σ (Fin n) ℝ}
    (hlast : steps.getLast? = some (x, true)) (hlogp : ∀ p ∈ steps, p.1.logp ≤ 0) (hw : ∀ p ∈ steps, p.1.w = 1) (type1 : Bool) (base : σ → Fin n → ℝ) (phi : σ → Fin n → Fin d → ℝ) {lr : ℕ → ℝ} (hlr : ∀ t, 0 ≤ lr t) (hsq : Summable fun t => lr t ^ 2)
    (hdiv : ¬ Summable lr) {B : ℕ} (hB : 0 < B) (θ0 : Fin d → ℝ) :
    ∃ tracer rows k, onlineU (fun _ (acc : List (Out σ (Fin n) ℝ)) o => .ok (acc ++ [o])) (NStep.init N gamma false, [], 0) steps = .ok (tracer, rows, k) ∧ rows.length = steps.length ∧
      ∀ I : ℕ → Ω → Fin B → Fin rows.length, Uniform μ ℱ I → ∃ (best : Fin d → ℝ) (θ : ℕ → Ω → Fin d → ℝ), (∀ t ω, affineLearnQ lr mse1 (sarsa n) type1 base phi 0 θ0 ((List.range t).map fun k => List.ofFn fun j => rows[I k ω j]) = .ok (θ t ω)) ∧
        (∀ᵐ ω ∂μ, Tendsto (fun t => θ t ω) atTop (𝓝 best)) ∧ NearBest gamma base phi rows steps best := by
  obtain ⟨tracer, rows, k, hrun, hS, hne, hsa, hp⟩ := episodes_pair h0 h1.le hN hlast hlogp hw
  have hl : rows.length = steps.length := by simpa using congrArg List.length hS
  refine ⟨tracer, rows, k, hrun, hl, fun I hI => ?_⟩
  have hl' : rows.length = (rows.map pair).length := by simp
  obtain ⟨best, hb, θ, hθ, hlim⟩ := C149_minibatches h0 h1 hp (fun p : σ × Fin n => base p.1 p.2) (fun p => phi p.1 p.2) hlr hsq hdiv hB (I := fun t ω j => Fin.cast hl' (I t ω j)) (hI.cast hl') θ0
  refine ⟨best, θ, fun t ω => ?_, hlim, nearBest_of h0 h1 base phi hS hsa hp hb⟩
  rw [affineLearnQ_pair mse1_meanOf _ type1 base phi fun r hr => ?_, List.map_map, ← hθ t ω]
  · congr 2
    funext k
    simp [List.map_ofFn, Function.comp_def]
  · obtain ⟨k, -, rfl⟩ := List.mem_map.1 hr
    refine ⟨?_, fun o ho => ?_⟩
    · intro he
      have := congrArg List.length he
      simp at this
      omega
    · obtain ⟨j, rfl⟩ := List.mem_ofFn.1 ho
      exact hsa _ (List.getElem_mem _)

end Coax.Loop
