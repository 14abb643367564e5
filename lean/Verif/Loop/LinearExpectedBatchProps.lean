import Verif.Loop.LinearExpectedProps
import Verif.Loop.LinearDrawProps

/-! Property C152, mini-batches: `ExpectedSarsa` with a q-function that is linear in its params, on mini-batches that are drawn from a buffer. -/

namespace Coax.Loop

open Coax.RewardTracing Coax.TD Coax.Core Coax.Values Coax.Pol MeasureTheory Filter Topology

variable {σ : Type _} {n d : Nat}

theorem affineLearnQ_append {target : QFn (σ → Fin n → ℝ) σ (List ℝ) → QFn (σ → Fin n → ℝ) σ (List ℝ) → TBatch σ (List ℝ) → Except Err (List ℝ)} {lr : ℕ → ℝ} {L : LossFn} {type1 : Bool} {base : σ → Fin n → ℝ} {phi : σ → Fin n → Fin d → ℝ} {k : ℕ} {θ θ' : Fin d → ℝ}
    {bs : List (List (Out σ (Fin n) ℝ))} (h : affineLearnQ lr L target type1 base phi k θ bs = .ok θ') (bs' : List (List (Out σ (Fin n) ℝ))) :
    affineLearnQ lr L target type1 base phi k θ (bs ++ bs') = affineLearnQ lr L target type1 base phi (k + bs.length) θ' bs' := by
  induction bs generalizing k θ with
  | nil =>
    simp only [affineLearnQ, Except.ok.injEq] at h
    subst h
    rfl
  | cons rows bs ih =>
    rw [List.cons_append, affineLearnQ]
    rw [affineLearnQ] at h
    cases hu : affineUpdateQ (lr k) L target type1 base phi θ θ rows with
    | error e => rw [hu] at h; simp at h
    | ok θ2 =>
      rw [hu] at h
      simp only at h ⊢
      rw [ih h, List.length_cons, show k + 1 + bs.length = k + (bs.length + 1) by omega]

theorem tdErrE_sub {pi : σ → Fin n → ℝ} {rows : List (Out σ (Fin n) ℝ)} (hs : ∀ o ∈ rows, o.S_next.isSome) (base : σ → Fin n → ℝ) (phi : σ → Fin n → Fin d → ℝ) (θ θ' : Fin d → ℝ) (i : Fin rows.length) :
    tdErrE pi (linQ base phi θ) rows[i] = tdErrE pi (linQ base phi θ') rows[i] - (featsQ phi rows i ⬝ᵥ (θ - θ') - aheadE pi phi rows i ⬝ᵥ (θ - θ')) := by
  obtain ⟨s, h⟩ := Option.isSome_iff_exists.1 (hs rows[i] (List.getElem_mem _))
  rw [aheadE_dot]
  unfold tdErrE featsQ
  rw [h]
  simp only [Option.elim_some]
  simp only [← linQ_sub base, mul_sub, Finset.sum_sub_distrib]
  ring

theorem expected_batch (lr : ℝ) (type1 : Bool) (logits : σ → Fin n → ℝ) (base : σ → Fin n → ℝ) (phi : σ → Fin n → Fin d → ℝ) {rows : List (Out σ (Fin n) ℝ)} (hs : ∀ o ∈ rows, o.S_next.isSome ∧ o.A_next.isSome) (hw : ∀ o ∈ rows, o.W = 1) {B : ℕ} (hB : 0 < B)
    (I : Fin B → Fin rows.length) (best w : Fin d → ℝ) :
    affineUpdateQ lr mse1 (expectedOf logits) type1 base phi (best + w) (best + w) (List.ofFn fun j => rows[I j]) =
      .ok (best + (w + lr • drift (featsQ phi rows) (aheadE (probs logits) phi rows) (fun i => tdErrE (probs logits) (linQ base phi best) rows[i]) (shareOf I) w)) := by
  have hmem : ∀ o ∈ List.ofFn (fun j => rows[I j]), o ∈ rows := fun o ho => by
    obtain ⟨j, rfl⟩ := (List.mem_ofFn' _ _).1 ho
    exact List.getElem_mem _
  rw [C152_update lr type1 logits base phi _ _ (by
    intro he
    have := congrArg List.length he
    simp at this
    omega) fun o ho => hs o (hmem o ho)]
  congr 1
  funext k
  have e1 : ((List.ofFn fun j => rows[I j]).map fun o => min (max o.W 0.1) 10 * ((o.Rn + o.In * (o.S_next.elim 0 fun s => ∑ a, probs logits s a * linQ base phi (best + w) s a) - linQ base phi (best + w) o.S o.A) * phi o.S o.A k)) =
      (List.ofFn fun j => rows[I j]).map fun o => tdErrE (probs logits) (linQ base phi (best + w)) o * phi o.S o.A k := by
    refine List.map_congr_left fun o ho => ?_
    rw [hw o (hmem o ho)]
    norm_num [tdErrE]
  rw [e1, List.map_ofFn, List.sum_ofFn, List.length_ofFn]
  have e2 := shareOf_batch I fun i => tdErrE (probs logits) (linQ base phi (best + w)) rows[i] * featsQ phi rows i k
  have e3 : (∑ j, ((fun o => tdErrE (probs logits) (linQ base phi (best + w)) o * phi o.S o.A k) ∘ fun j => rows[I j]) j) / (B : ℝ) = ∑ i, shareOf I i * (tdErrE (probs logits) (linQ base phi (best + w)) rows[i] * featsQ phi rows i k) := e2.symm
  rw [e3]
  simp only [Pi.add_apply, Pi.smul_apply, smul_eq_mul, drift, Finset.sum_apply]
  have e4 : ∀ i : Fin rows.length, tdErrE (probs logits) (linQ base phi (best + w)) rows[i] = tdErrE (probs logits) (linQ base phi best) rows[i] - (featsQ phi rows i ⬝ᵥ w - aheadE (probs logits) phi rows i ⬝ᵥ w) := fun i => by
    have := tdErrE_sub (pi := probs logits) (fun o ho => (hs o ho).1) base phi (best + w) best i
    rwa [add_sub_cancel_left] at this
  rw [add_assoc]
  congr 3
  refine Finset.sum_congr rfl fun i _ => ?_
  rw [e4]
  ring

/-- Claim C152, mini-batches: if the actions in the states of a buffer occur as often as the policy takes them after its transitions, then learning with mini-batches that are drawn uniformly from it converges almost surely, to params whose values are the
projection of what the transitions say about them.  The learning rates satisfy the conditions of Robbins and Monro.  Nothing raises. -/
theorem C152_minibatches {Ω : Type _} {m0 : MeasurableSpace Ω} {μ : Measure Ω} [IsProbabilityMeasure μ] {ℱ : Filtration ℕ m0} {gamma : ℝ} (h0 : 0 ≤ gamma) (h1 : gamma < 1) (logits : σ → Fin n → ℝ) {rows : List (Out σ (Fin n) ℝ)} (hne : rows ≠ [])
    (hp : OnPolicyE gamma (probs logits) rows) (type1 : Bool) (base : σ → Fin n → ℝ) (phi : σ → Fin n → Fin d → ℝ) {lr : ℕ → ℝ} (hlr : ∀ t, 0 ≤ lr t) (hsq : Summable fun t => lr t ^ 2) (hdiv : ¬ Summable lr) {B : ℕ} (hB : 0 < B)
    {I : ℕ → Ω → Fin B → Fin rows.length} (hI : Uniform μ ℱ I) (θ0 : Fin d → ℝ) :
    ∃ best, ProjectedE (probs logits) base phi rows best ∧ ∃ θ : ℕ → Ω → Fin d → ℝ, (∀ t ω, affineLearnQ lr mse1 (expectedOf logits) type1 base phi 0 θ0 ((List.range t).map fun k => List.ofFn fun j => rows[I k ω j]) = .ok (θ t ω)) ∧
      ∀ᵐ ω ∂μ, Tendsto (fun t => θ t ω) atTop (𝓝 best) := by
  have hpi := probs_law (pos_of_rows hne) logits
  have hsome : ∀ o ∈ rows, o.S_next.isSome := fun o ho => (hp.next o ho).1
  obtain ⟨v, hv, hr⟩ := resid_exists h0 h1 (hp.feats hpi phi) fun i => tdErrE (probs logits) (linQ base phi θ0) rows[i]
  have hb : ProjectedE (probs logits) base phi rows (θ0 + v) := fun k => by
    rw [sum_tdErrE hsome base phi (θ0 + v) θ0 k, add_sub_cancel_left, hr, sum_rows]
    exact sub_self _
  have hb' : ∀ k, ∑ i, tdErrE (probs logits) (linQ base phi (θ0 + v)) rows[i] * featsQ phi rows i k = 0 := fun k => by
    have := hb k
    rwa [sum_rows] at this
  refine ⟨θ0 + v, hb, fun t ω => θ0 + v + walk (featsQ phi rows) (aheadE (probs logits) phi rows) (fun i => tdErrE (probs logits) (linQ base phi (θ0 + v)) rows[i]) lr I (-v) t ω, fun t ω => ?_, ?_⟩
  · induction t with
    | zero => simp [affineLearnQ, walk]
    | succ t ih =>
      rw [List.range_succ, List.map_append, affineLearnQ_append ih, List.map_singleton, affineLearnQ, List.length_map, List.length_range, zero_add, expected_batch (lr t) type1 logits base phi hp.next hp.w hB (I t ω)]
      rfl
  · have := walk_tendsto (μ := μ) hb' h0 h1 (hp.feats hpi phi) hlr hsq hdiv hB hI (w0 := -v) (Submodule.neg_mem _ hv)
    filter_upwards [this] with ω hω
    simpa using hω.const_add (θ0 + v)

/-- Three transitions with the first action and one with the second, as the policy takes them, and mini-batches of two. -/
example : ∃ (Ω : Type) (m0 : MeasurableSpace Ω) (μ : Measure Ω) (_ : IsProbabilityMeasure μ) (I : ℕ → Ω → Fin 2 → Fin 4) (best : Fin 1 → ℝ) (θ : ℕ → Ω → Fin 1 → ℝ),
    ProjectedE (probs leaning) (fun _ _ => 0) tempting [again 0, again 0, again 0, again 1] best ∧
    (∀ t ω, affineLearnQ (fun t : ℕ => 1 / ((t : ℝ) + 1)) mse1 (expectedOf leaning) true (fun _ _ => 0) tempting 0 (fun _ => 7) ((List.range t).map fun k => List.ofFn fun j => [again 0, again 0, again 0, again 1][I k ω j]) = .ok (θ t ω)) ∧
    ∀ᵐ ω ∂μ, Tendsto (fun t => θ t ω) atTop (𝓝 best) := by
  have hp : OnPolicyE (1 / 2) (probs leaning) [again 0, again 0, again 0, again 1] :=
    ⟨by simp [again], by simp [again], by simp [again], by simp [again], fun g _ => by
      have := leaning_probs true
      simp [again, Fin.sum_univ_two, this.1, this.2]
      linarith⟩
  obtain ⟨Ω, m0, μ, hμ, ℱ, I, hI⟩ := C149_draws (B := 2) (N := 4) (by norm_num)
  have hdiv : ¬ Summable fun t : ℕ => 1 / ((t : ℝ) + 1) := by
    have := (summable_nat_add_iff (f := fun t : ℕ => 1 / (t : ℝ)) 1).not.2 Real.not_summable_one_div_natCast
    simpa using this
  have hsq : Summable fun t : ℕ => (1 / ((t : ℝ) + 1)) ^ 2 := by
    have := (summable_nat_add_iff (f := fun t : ℕ => 1 / (t : ℝ) ^ 2) 1).2 (Real.summable_one_div_nat_pow.2 (by norm_num))
    simpa [div_pow] using this
  obtain ⟨best, hb, θ, hθ, hlim⟩ := C152_minibatches (by norm_num) (by norm_num) leaning (by simp) hp true (fun _ _ => 0) tempting (fun t => by positivity) hsq hdiv (by norm_num) hI fun _ => 7
  exact ⟨Ω, m0, μ, hμ, I, best, θ, hb, hθ, hlim⟩

end Coax.Loop
