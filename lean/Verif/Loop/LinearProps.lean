import Verif.Loop.LinearLemmas
import Verif.Loop.LookaheadLemmas

/-! Property C149: what `SimpleTD` learns with a value function that is linear in its params. -/

namespace Coax.Loop

open Coax.RewardTracing Coax.TD Coax.Core Coax.Values Coax.Pol Filter Topology

variable {σ : Type _} {n d : Nat}

/-! ### Specification -/

/-- A function that is linear in its params, up to a term without params. -/
def lin (base : σ → ℝ) (phi : σ → Fin d → ℝ) (θ : Fin d → ℝ) (s : σ) : ℝ := base s + ∑ k, phi s k * θ k

/-- By how much the value of a state differs from what a transition says about it. -/
def tdErr (v : σ → ℝ) (o : Out σ (Fin n) ℝ) : ℝ := o.Rn + o.In * o.S_next.elim 0 v - v o.S

/-- The transitions from the states of a batch lead to states of the batch, as often as these occur, or to the end of an episode. -/
structure OnPolicy (gamma : ℝ) (rows : List (Out σ (Fin n) ℝ)) : Prop where
  w : ∀ o ∈ rows, o.W = 1
  in_nonneg : ∀ o ∈ rows, 0 ≤ o.In
  in_le : ∀ o ∈ rows, o.In ≤ gamma
  s_next : ∀ o ∈ rows, o.S_next.isSome
  visits : ∀ g : σ → ℝ, (∀ s, 0 ≤ g s) → (rows.map fun o => if o.In = 0 then 0 else o.S_next.elim 0 g).sum ≤ (rows.map fun o => g o.S).sum

/-- The differences are orthogonal to the features: the values are the projection of what the transitions say about them. -/
def Projected (base : σ → ℝ) (phi : σ → Fin d → ℝ) (rows : List (Out σ (Fin n) ℝ)) (θ : Fin d → ℝ) : Prop := ∀ k, (rows.map fun o => tdErr (lin base phi θ) o * phi o.S k).sum = 0

/-- The features of the states of a batch, and their linear combinations. -/
def covered (phi : σ → Fin d → ℝ) (rows : List (Out σ (Fin n) ℝ)) : Submodule ℝ (Fin d → ℝ) := Submodule.span ℝ {x | ∃ o ∈ rows, x = phi o.S}

/-- The values that the batch speaks for: on average, the transitions from each state confirm its value. -/
def Empirical (rows : List (Out σ (Fin n) ℝ)) (u : σ → ℝ) : Prop := ∀ g : σ → ℝ, (rows.map fun o => tdErr u o * g o.S).sum = 0

/-! ### The update -/

theorem affine_eq (base : σ → ℝ) (phi : σ → Fin d → ℝ) (θ : Fin d → ℝ) (S : List σ) : affine base phi θ S = S.map (lin base phi θ) := by
  unfold affine lin
  refine List.map_congr_left fun s _ => ?_
  rw [Fin.sum_univ_def]

theorem toVBatch_some {rows : List (Out σ (Fin n) ℝ)} (h : ∀ o ∈ rows, o.S_next.isSome) :
    ∃ S, toVBatch rows = .ok { Rn := rows.map (·.Rn), In := rows.map (·.In), S_next := S, A_next := [] } ∧ rows.map (·.S_next) = S.map some := by
  have h1 : ∃ S, rows.mapM (fun o => o.S_next) = some S ∧ rows.map (·.S_next) = S.map some := by
    induction rows with
    | nil => exact ⟨[], rfl, rfl⟩
    | cons o rows ih =>
      obtain ⟨S, h1, h2⟩ := ih fun o ho => h o (by simp [ho])
      obtain ⟨s, hs⟩ := Option.isSome_iff_exists.1 (h o (by simp))
      exact ⟨s :: S, by simp [List.mapM_cons, h1, hs], by simp [h2, hs]⟩
  obtain ⟨S, h1, h2⟩ := h1
  exact ⟨S, by unfold toVBatch; rw [h1], h2⟩

theorem simpleTD_affine (base : σ → ℝ) (phi : σ → Fin d → ℝ) (θV θT : Fin d → ℝ) {rows : List (Out σ (Fin n) ℝ)} {S : List σ} (h : rows.map (·.S_next) = S.map some) :
    simpleTD (α := Unit) (affineV base phi θV) (affineV base phi θT) { Rn := rows.map (·.Rn), In := rows.map (·.In), S_next := S, A_next := [] } = .ok (rows.map fun o => o.Rn + o.In * o.S_next.elim 0 (lin base phi θT)) := by
  have hl : S.length = rows.length := by simpa using (congrArg List.length h).symm
  unfold simpleTD backup affineV
  simp only [affine_eq, List.length_map, hl, and_self, if_true]
  congr 1
  clear hl
  induction rows generalizing S with
  | nil => simp
  | cons o rows ih =>
    cases S with
    | nil => simp at h
    | cons s S =>
      simp only [List.map_cons, List.cons.injEq] at h
      have := ih h.2
      simp only [id] at this
      simp [this, h.1]

theorem affineLoss_eq {l l' : ℝ → ℝ → ℝ} {L : LossFn} (hL : MeanOf l l' L) (base : σ → ℝ) (phi : σ → Fin d → ℝ) {θT θV : Fin d → ℝ} {rows : List (Out σ (Fin n) ℝ)} (hne : rows ≠ []) (hs : ∀ o ∈ rows, o.S_next.isSome) (θ : Fin d → ℝ) :
    ∃ out, affineLoss L base phi rows θT θV θ = .ok out ∧ out.loss = some ((rows.map fun o => weight o * l (o.Rn + o.In * o.S_next.elim 0 (lin base phi θT)) (lin base phi θ o.S)).sum / rows.length) := by
  unfold affineLoss
  obtain ⟨S, hb, hS⟩ := toVBatch_some hs
  rw [hb]
  simp only
  rw [simpleTD_affine base phi θV θT hS, affine_eq, affine_eq, List.map_map, List.map_map]
  set target : Out σ (Fin n) ℝ → ℝ := fun o => o.Rn + o.In * o.S_next.elim 0 (lin base phi θT)
  obtain ⟨out, h⟩ := C67_total hL (G := rows.map target) (V := rows.map fun o => lin base phi θ o.S) (VTarg := rows.map fun o => lin base phi θT o.S) (W := rows.map (·.W)) (by simp) (by simp) (by simp)
  refine ⟨out, h, ?_⟩
  obtain ⟨G, hG, -, -, -, e, -⟩ := detLoss_ok h
  have hG' : G = rows.map target := by simpa [Target] using hG
  subst hG'
  have hW : clipW (rows.map (·.W)) = rows.map fun o => weight o := by simp [clipW, clip, weight]
  rw [hW] at e
  have h1 := (meanOf_scalar hL (rows.map target) (rows.map fun o => lin base phi θ o.S) (rows.map fun o => weight o) (by simp) (by simp) (by simpa using hne)).1
  rw [e] at h1
  have e2 : List.zipWith (fun a b => a * b) (rows.map fun o => weight o) (List.zipWith l (rows.map target) (rows.map fun o => lin base phi θ o.S)) = rows.map fun o => weight o * l (target o) (lin base phi θ o.S) := by
    simp [List.zipWith_map_left, List.zipWith_map_right, List.zipWith_self]
  rw [e2] at h1
  cases hl : out.loss with
  | none =>
    rw [hL.eq, elementwise_oneD] at e
    unfold meanWithWeights at e
    simp only at e
    rw [if_neg (by simp [oneD]), weighted_oneD, e2, meanAll_oneD (by simpa using hne), hl] at e
    simp at e
  | some x =>
    rw [hl] at h1
    simp only [scalar] at h1
    rw [h1]
    simp [target]

theorem lin_setState (base : σ → ℝ) (phi : σ → Fin d → ℝ) (θ : Fin d → ℝ) (k : Fin d) (x : ℝ) (s : σ) : lin base phi (setState θ k x) s = lin base phi θ s + phi s k * (x - θ k) := by
  unfold lin setState
  have : ∀ j, phi s j * (if j = k then x else θ j) = phi s j * θ j + if j = k then phi s k * (x - θ k) else 0 := fun j => by
    split
    · next h => subst h; ring
    · ring
  simp only [this, Finset.sum_add_distrib, Finset.sum_ite_eq', Finset.mem_univ, if_true]
  ring

/-- Claim C149, the update: each param moves along its feature, weighted with the differences between targets and values; the target is not differentiated, though it depends on the same params when there is no target network. -/
theorem C149_update (lr : ℝ) (base : σ → ℝ) (phi : σ → Fin d → ℝ) (θT θ : Fin d → ℝ) {rows : List (Out σ (Fin n) ℝ)} (hne : rows ≠ []) (hs : ∀ o ∈ rows, o.S_next.isSome) :
    affineUpdate lr mse1 base phi θT θ rows =
      .ok fun k => θ k + lr * ((rows.map fun o => min (max o.W 0.1) 10 * ((o.Rn + o.In * o.S_next.elim 0 (lin base phi θT) - lin base phi θ o.S) * phi o.S k)).sum / rows.length) := by
  unfold affineUpdate
  obtain ⟨out, h1, h2⟩ := affineLoss_eq mse1_meanOf base phi (θT := θT) (θV := θ) hne hs θ
  rw [h1]
  simp only
  rw [if_neg (by simp [h2])]
  congr 1
  funext k
  have hd : HasDerivAt (fun x => lossValue (affineLoss mse1 base phi rows θT θ (setState θ k x))) ((rows.map fun o => weight o * ((lin base phi θ o.S - (o.Rn + o.In * o.S_next.elim 0 (lin base phi θT))) * phi o.S k)).sum / rows.length) (θ k) := by
    have e : (fun x => lossValue (affineLoss mse1 base phi rows θT θ (setState θ k x))) =
        fun x => (rows.map fun o => weight o * mseLoss (o.Rn + o.In * o.S_next.elim 0 (lin base phi θT)) (lin base phi θ o.S + phi o.S k * (x - θ k))).sum / rows.length := by
      funext x
      obtain ⟨out, h1, h2⟩ := affineLoss_eq mse1_meanOf base phi (θT := θT) (θV := θ) hne hs (setState θ k x)
      rw [h1]
      obtain ⟨loss, b2, b3, b4⟩ := out
      simp only [lin_setState] at h2
      subst h2
      rfl
    rw [e]
    refine HasDerivAt.div_const (hasDerivAt_sum rows (fun o x => weight o * mseLoss (o.Rn + o.In * o.S_next.elim 0 (lin base phi θT)) (lin base phi θ o.S + phi o.S k * (x - θ k))) _ _ fun o _ => ?_) _
    refine HasDerivAt.const_mul _ ?_
    have h3 : HasDerivAt (fun x => lin base phi θ o.S + phi o.S k * (x - θ k)) (phi o.S k) (θ k) := by
      simpa using (((hasDerivAt_id (θ k)).sub_const (θ k)).const_mul (phi o.S k)).const_add (lin base phi θ o.S)
    have h4 := mse1_meanOf.deriv (o.Rn + o.In * o.S_next.elim 0 (lin base phi θT)) (lin base phi θ o.S + phi o.S k * (θ k - θ k))
    have h5 := HasDerivAt.comp (θ k) h4 h3
    simp only [sub_self, mul_zero, add_zero] at h5
    exact h5
  rw [hd.deriv]
  have e : (rows.map fun o => weight o * ((lin base phi θ o.S - (o.Rn + o.In * o.S_next.elim 0 (lin base phi θT))) * phi o.S k)) =
      rows.map fun o => min (max o.W 0.1) 10 * ((o.Rn + o.In * o.S_next.elim 0 (lin base phi θT) - lin base phi θ o.S) * phi o.S k) * (-1) := by
    refine List.map_congr_left fun o _ => ?_
    unfold weight
    ring
  rw [e, List.sum_map_mul_right]
  ring

/-! ### Convergence -/

theorem lin_sub (base : σ → ℝ) (phi : σ → Fin d → ℝ) (θ θ' : Fin d → ℝ) (s : σ) : lin base phi θ s - lin base phi θ' s = phi s ⬝ᵥ (θ - θ') := by
  simp only [lin, dotProduct_sub]
  unfold dotProduct
  ring

theorem sum_rows (rows : List (Out σ (Fin n) ℝ)) (f : Out σ (Fin n) ℝ → ℝ) : (rows.map f).sum = ∑ i : Fin rows.length, f rows[i] := (Fin.sum_univ_fun_getElem rows f).symm

/-- Looking one transition ahead shrinks functions. -/
theorem OnPolicy.shrinks {gamma : ℝ} {rows : List (Out σ (Fin n) ℝ)} (hp : OnPolicy gamma rows) (e : σ → ℝ) :
    ∑ i : Fin rows.length, (rows[i].In * rows[i].S_next.elim 0 e) ^ 2 ≤ gamma ^ 2 * ∑ i : Fin rows.length, e rows[i].S ^ 2 := by
  have h1 := hp.visits (fun s => e s ^ 2) fun s => sq_nonneg _
  rw [sum_rows, sum_rows] at h1
  refine le_trans ?_ (mul_le_mul_of_nonneg_left h1 (sq_nonneg gamma))
  rw [Finset.mul_sum]
  refine Finset.sum_le_sum fun i _ => ?_
  have hm : rows[i] ∈ rows := List.getElem_mem _
  have a1 := hp.in_nonneg _ hm
  have a2 := hp.in_le _ hm
  obtain ⟨s, hs⟩ := Option.isSome_iff_exists.1 (hp.s_next _ hm)
  rw [hs]
  by_cases h0 : rows[i].In = 0
  · rw [if_pos h0, h0]
    simp
  · rw [if_neg h0, mul_pow]
    exact mul_le_mul_of_nonneg_right (pow_le_pow_left₀ a1 a2 2) (sq_nonneg _)

/-- The features of the states of a batch. -/
def feats (phi : σ → Fin d → ℝ) (rows : List (Out σ (Fin n) ℝ)) (i : Fin rows.length) : Fin d → ℝ := phi rows[i].S

/-- The features of the next states, discounted. -/
def ahead (phi : σ → Fin d → ℝ) (rows : List (Out σ (Fin n) ℝ)) (i : Fin rows.length) : Fin d → ℝ := rows[i].In • rows[i].S_next.elim 0 phi

theorem ahead_dot (phi : σ → Fin d → ℝ) (rows : List (Out σ (Fin n) ℝ)) (i : Fin rows.length) (w : Fin d → ℝ) : ahead phi rows i ⬝ᵥ w = rows[i].In * rows[i].S_next.elim 0 (fun s => phi s ⬝ᵥ w) := by
  unfold ahead
  rw [smul_dotProduct, smul_eq_mul]
  cases rows[i].S_next <;> simp

theorem OnPolicy.feats {gamma : ℝ} {rows : List (Out σ (Fin n) ℝ)} (hp : OnPolicy gamma rows) (phi : σ → Fin d → ℝ) (w : Fin d → ℝ) :
    ∑ i, (ahead phi rows i ⬝ᵥ w) ^ 2 ≤ gamma ^ 2 * ∑ i, (feats phi rows i ⬝ᵥ w) ^ 2 := by
  simp only [ahead_dot]
  exact hp.shrinks fun s => phi s ⬝ᵥ w

theorem covered_eq (phi : σ → Fin d → ℝ) (rows : List (Out σ (Fin n) ℝ)) : covered phi rows = Submodule.span ℝ (Set.range (feats phi rows)) := by
  unfold covered
  congr 1
  ext x
  constructor
  · rintro ⟨o, ho, rfl⟩
    obtain ⟨i, hi, rfl⟩ := List.getElem_of_mem ho
    exact ⟨⟨i, hi⟩, rfl⟩
  · rintro ⟨i, rfl⟩
    exact ⟨rows[i], List.getElem_mem _, rfl⟩

theorem tdErr_sub {rows : List (Out σ (Fin n) ℝ)} (hs : ∀ o ∈ rows, o.S_next.isSome) (base : σ → ℝ) (phi : σ → Fin d → ℝ) (θ θ' : Fin d → ℝ) (i : Fin rows.length) :
    tdErr (lin base phi θ) rows[i] - tdErr (lin base phi θ') rows[i] = -(feats phi rows i ⬝ᵥ (θ - θ') - ahead phi rows i ⬝ᵥ (θ - θ')) := by
  obtain ⟨s, h⟩ := Option.isSome_iff_exists.1 (hs rows[i] (List.getElem_mem _))
  rw [ahead_dot]
  unfold tdErr
  rw [h]
  simp only [Option.elim_some, feats]
  rw [← lin_sub base, ← lin_sub base]
  ring

theorem projectedLin_iff {rows : List (Out σ (Fin n) ℝ)} (base : σ → ℝ) (phi : σ → Fin d → ℝ) (θ : Fin d → ℝ) : Projected base phi rows θ ↔ ∀ k, ∑ i : Fin rows.length, tdErr (lin base phi θ) rows[i] * feats phi rows i k = 0 := by
  unfold Projected
  refine forall_congr' fun k => ?_
  rw [sum_rows]
  rfl

theorem sum_tdErr {rows : List (Out σ (Fin n) ℝ)} (hs : ∀ o ∈ rows, o.S_next.isSome) (base : σ → ℝ) (phi : σ → Fin d → ℝ) (θ θ' : Fin d → ℝ) (k : Fin d) :
    ∑ i : Fin rows.length, tdErr (lin base phi θ) rows[i] * feats phi rows i k = ∑ i : Fin rows.length, tdErr (lin base phi θ') rows[i] * feats phi rows i k - resid (feats phi rows) (ahead phi rows) (θ - θ') k := by
  unfold resid
  rw [← Finset.sum_sub_distrib]
  refine Finset.sum_congr rfl fun i _ => ?_
  have := tdErr_sub hs base phi θ θ' i
  have e : tdErr (lin base phi θ) rows[i] = tdErr (lin base phi θ') rows[i] - (feats phi rows i ⬝ᵥ (θ - θ') - ahead phi rows i ⬝ᵥ (θ - θ')) := by linarith
  rw [e]
  ring

/-- Claim C149, the limit exists: some params give values that are the projection of what the transitions say about them. -/
theorem C149_exists {gamma : ℝ} (h0 : 0 ≤ gamma) (h1 : gamma < 1) {rows : List (Out σ (Fin n) ℝ)} (hp : OnPolicy gamma rows) (base : σ → ℝ) (phi : σ → Fin d → ℝ) : ∃ θ, Projected base phi rows θ := by
  obtain ⟨w, -, hw⟩ := resid_exists h0 h1 (hp.feats phi) fun i => tdErr (lin base phi 0) rows[i]
  refine ⟨w, (projectedLin_iff base phi w).2 fun k => ?_⟩
  rw [sum_tdErr hp.s_next base phi w 0 k, sub_zero, hw, sub_self]

/-- Claim C149, the limit is determined: any two such params give the same values, for all states of the batch and all those with features that are linear combinations of theirs. -/
theorem C149_unique {gamma : ℝ} (h0 : 0 ≤ gamma) (h1 : gamma < 1) {rows : List (Out σ (Fin n) ℝ)} (hp : OnPolicy gamma rows) {base : σ → ℝ} {phi : σ → Fin d → ℝ} {θ θ' : Fin d → ℝ} (h : Projected base phi rows θ) (h' : Projected base phi rows θ') :
    ∀ s, phi s ∈ covered phi rows → lin base phi θ s = lin base phi θ' s := by
  intro s hs
  rw [covered_eq] at hs
  rw [projectedLin_iff] at h h'
  have hr : resid (feats phi rows) (ahead phi rows) (θ - θ') = 0 := by
    funext k
    have := sum_tdErr hp.s_next base phi θ θ' k
    rw [h k, h' k] at this
    simpa using this.symm
  have := span_orth (resid_zero h0 h1 (hp.feats phi _) hr) hs
  rw [← sub_eq_zero, lin_sub]
  exact this

/-- One update with a batch of transitions whose weights are one. -/
theorem affineUpdate_resid (lr : ℝ) (base : σ → ℝ) (phi : σ → Fin d → ℝ) {rows : List (Out σ (Fin n) ℝ)} (hne : rows ≠ []) (hs : ∀ o ∈ rows, o.S_next.isSome) (hw : ∀ o ∈ rows, o.W = 1) {best : Fin d → ℝ} (hb : Projected base phi rows best)
    (θ : Fin d → ℝ) : affineUpdate lr mse1 base phi θ θ rows = .ok (θ - (lr / rows.length) • resid (feats phi rows) (ahead phi rows) (θ - best)) := by
  rw [C149_update lr base phi θ θ hne hs]
  congr 1
  funext k
  have e : (rows.map fun o => min (max o.W 0.1) 10 * ((o.Rn + o.In * o.S_next.elim 0 (lin base phi θ) - lin base phi θ o.S) * phi o.S k)) = rows.map fun o => tdErr (lin base phi θ) o * phi o.S k := by
    refine List.map_congr_left fun o ho => ?_
    rw [hw o ho]
    norm_num [tdErr]
  rw [e, sum_rows]
  have h2 := sum_tdErr hs base phi θ best k
  rw [(projectedLin_iff base phi best).1 hb k] at h2
  have h3 : ∑ i : Fin rows.length, tdErr (lin base phi θ) rows[i] * phi rows[i].S k = ∑ i : Fin rows.length, tdErr (lin base phi θ) rows[i] * feats phi rows i k := rfl
  rw [h3, h2, Pi.sub_apply, Pi.smul_apply, smul_eq_mul]
  ring

/-- Claim C149, convergence: if the transitions of a batch lead to its states as often as these occur, then repeated updates with a small learning rate converge to values that are the projection of what the transitions say about them.  Nothing
raises. -/
theorem C149_converges {gamma : ℝ} (h0 : 0 ≤ gamma) (h1 : gamma < 1) {rows : List (Out σ (Fin n) ℝ)} (hne : rows ≠ []) (hp : OnPolicy gamma rows) (base : σ → ℝ) (phi : σ → Fin d → ℝ) {F : ℝ} (hF : ∀ o ∈ rows, ∑ k, phi o.S k ^ 2 ≤ F) {lr : ℝ}
    (hlr : 0 < lr) (hs : lr * F * (1 + gamma) ^ 2 < 2 * (1 - gamma)) (θ0 : Fin d → ℝ) :
    ∃ θ : ℕ → Fin d → ℝ, (∀ t, affineLearn (fun _ => lr) mse1 base phi 0 θ0 (List.replicate t rows) = .ok (θ t)) ∧
      ∃ best, Projected base phi rows best ∧ ∀ s, phi s ∈ covered phi rows → Tendsto (fun t => lin base phi (θ t) s) atTop (𝓝 (lin base phi best s)) := by
  obtain ⟨best, hb⟩ := C149_exists h0 h1 hp base phi
  set step : (Fin d → ℝ) → Fin d → ℝ := fun θ => θ - (lr / rows.length) • resid (feats phi rows) (ahead phi rows) (θ - best) with hstep
  have hN : (0 : ℝ) < rows.length := by
    have := List.length_pos_iff.2 hne
    exact_mod_cast this
  have hlearn : ∀ t k θ, affineLearn (fun _ => lr) mse1 base phi k θ (List.replicate t rows) = .ok (step^[t] θ) := fun t => by
    induction t with
    | zero => intro k θ; rfl
    | succ t ih =>
      intro k θ
      rw [List.replicate_succ, affineLearn, affineUpdate_resid lr base phi hne hp.s_next hp.w hb θ]
      exact ih _ _
  refine ⟨fun t => step^[t] θ0, fun t => hlearn t 0 θ0, best, hb, fun s hs' => ?_⟩
  have hF' : ∀ i, feats phi rows i ⬝ᵥ feats phi rows i ≤ F := fun i => by
    have := hF rows[i] (List.getElem_mem _)
    simpa [dotProduct, feats, ← sq] using this
  have hF0 : 0 ≤ F := by
    obtain ⟨o, ho⟩ := List.exists_mem_of_ne_nil _ hne
    exact (Finset.sum_nonneg fun k _ => sq_nonneg _).trans (hF o ho)
  have hsmall : lr / rows.length * (Fintype.card (Fin rows.length) * F * (1 + gamma) ^ 2) < 2 * (1 - gamma) := by
    rw [Fintype.card_fin]
    have : lr / rows.length * (rows.length * F * (1 + gamma) ^ 2) = lr * F * (1 + gamma) ^ 2 := by field_simp
    rw [this]
    exact hs
  have hrec : ∀ t, step^[t + 1] θ0 - best = (step^[t] θ0 - best) - (lr / rows.length) • resid (feats phi rows) (ahead phi rows) (step^[t] θ0 - best) := fun t => by
    rw [Function.iterate_succ_apply', hstep]
    exact sub_right_comm _ _ _
  have hlim := resid_tendsto (w := fun t => step^[t] θ0 - best) h0 (div_pos hlr hN) hF' hF0 (hp.feats phi) hsmall hrec
  rw [covered_eq] at hs'
  have h2 := (span_tendsto hlim hs').add_const (lin base phi best s)
  rw [zero_add] at h2
  refine h2.congr fun t => ?_
  rw [← lin_sub base]
  ring

/-! ### How good the limit is -/

/-- Claim C149, the error: the sum of squared errors of the limit is at most `1 / (1 - gamma ^ 2)` times that of any params, relative to the values that the batch speaks for. -/
theorem C149_error {gamma : ℝ} (h0 : 0 ≤ gamma) (h1 : gamma < 1) {rows : List (Out σ (Fin n) ℝ)} (hp : OnPolicy gamma rows) {base : σ → ℝ} {phi : σ → Fin d → ℝ} {best : Fin d → ℝ} (hb : Projected base phi rows best) {u : σ → ℝ}
    (hu : Empirical rows u) (θ : Fin d → ℝ) :
    (1 - gamma ^ 2) * (rows.map fun o => (lin base phi best o.S - u o.S) ^ 2).sum ≤ (rows.map fun o => (lin base phi θ o.S - u o.S) ^ 2).sum := by
  -- the best approximation of `u`
  have hP0 : ∀ w, ∑ i, ((0 : Fin rows.length → Fin d → ℝ) i ⬝ᵥ w) ^ 2 ≤ (0 : ℝ) ^ 2 * ∑ i, (feats phi rows i ⬝ᵥ w) ^ 2 := fun w => by simp
  obtain ⟨w, -, hw⟩ := resid_exists le_rfl one_pos hP0 fun i => u rows[i].S - base rows[i].S
  have horth : ∀ v : Fin d → ℝ, ∑ i : Fin rows.length, (lin base phi w rows[i].S - u rows[i].S) * (phi rows[i].S ⬝ᵥ v) = 0 := fun v => by
    have e1 := resid_dot (feats phi rows) 0 w v
    have e2 : v ⬝ᵥ resid (feats phi rows) 0 w = ∑ i : Fin rows.length, (u rows[i].S - base rows[i].S) * (phi rows[i].S ⬝ᵥ v) := by
      rw [hw]
      simp only [dotProduct, Finset.mul_sum]
      rw [Finset.sum_comm]
      refine Finset.sum_congr rfl fun i _ => Finset.sum_congr rfl fun k _ => ?_
      show _ = (u rows[i].S - base rows[i].S) * (feats phi rows i k * v k)
      ring
    rw [e1] at e2
    rw [← sub_eq_zero, ← Finset.sum_sub_distrib] at e2
    rw [← e2]
    refine Finset.sum_congr rfl fun i _ => ?_
    simp only [feats, Pi.zero_apply, zero_dotProduct, sub_zero]
    unfold lin
    unfold dotProduct
    ring
  rw [sum_rows, sum_rows]
  set e : σ → ℝ := fun s => lin base phi best s - u s
  set f : σ → ℝ := fun s => lin base phi w s - u s
  -- the limit differs from it by little
  have hE : ∑ i : Fin rows.length, e rows[i].S ^ 2 = ∑ i : Fin rows.length, f rows[i].S ^ 2 + ∑ i : Fin rows.length, (phi rows[i].S ⬝ᵥ (best - w)) ^ 2 := by
    have := horth (best - w)
    rw [← Finset.sum_add_distrib, ← sub_eq_zero, ← Finset.sum_sub_distrib]
    have h2 : (2 : ℝ) * ∑ i : Fin rows.length, (lin base phi w rows[i].S - u rows[i].S) * (phi rows[i].S ⬝ᵥ (best - w)) = 0 := by rw [this, mul_zero]
    rw [Finset.mul_sum] at h2
    rw [← h2]
    refine Finset.sum_congr rfl fun i _ => ?_
    rw [← lin_sub base]
    simp only [e, f]
    ring
  have hT : ∑ i : Fin rows.length, f rows[i].S ^ 2 ≤ ∑ i : Fin rows.length, (lin base phi θ rows[i].S - u rows[i].S) ^ 2 := by
    have := horth (θ - w)
    have h2 : ∑ i : Fin rows.length, (lin base phi θ rows[i].S - u rows[i].S) ^ 2 = ∑ i : Fin rows.length, f rows[i].S ^ 2 + ∑ i : Fin rows.length, (phi rows[i].S ⬝ᵥ (θ - w)) ^ 2 := by
      rw [← Finset.sum_add_distrib, ← sub_eq_zero, ← Finset.sum_sub_distrib]
      have h2 : (2 : ℝ) * ∑ i : Fin rows.length, (lin base phi w rows[i].S - u rows[i].S) * (phi rows[i].S ⬝ᵥ (θ - w)) = 0 := by rw [this, mul_zero]
      rw [Finset.mul_sum] at h2
      rw [← h2]
      refine Finset.sum_congr rfl fun i _ => ?_
      rw [← lin_sub base]
      simp only [f]
      ring
    rw [h2]
    linarith [Finset.sum_nonneg fun (i : Fin rows.length) (_ : i ∈ Finset.univ) => sq_nonneg (phi rows[i].S ⬝ᵥ (θ - w))]
  set H : ℝ := ∑ i : Fin rows.length, (phi rows[i].S ⬝ᵥ (best - w)) ^ 2 with hH
  set E : ℝ := ∑ i : Fin rows.length, e rows[i].S ^ 2 with hEd
  -- orthogonality of the differences
  have hD : ∑ i : Fin rows.length, (e rows[i].S - rows[i].In * rows[i].S_next.elim 0 e) * (phi rows[i].S ⬝ᵥ (best - w)) = 0 := by
    have h2 : ∑ i : Fin rows.length, tdErr (lin base phi best) rows[i] * (phi rows[i].S ⬝ᵥ (best - w)) = 0 := by
      have h3 := (projectedLin_iff base phi best).1 hb
      have h4 : ∑ i : Fin rows.length, tdErr (lin base phi best) rows[i] * (phi rows[i].S ⬝ᵥ (best - w)) = ∑ k, (∑ i : Fin rows.length, tdErr (lin base phi best) rows[i] * feats phi rows i k) * (best - w) k := by
        simp only [dotProduct, Finset.mul_sum, Finset.sum_mul]
        rw [Finset.sum_comm]
        refine Finset.sum_congr rfl fun k _ => Finset.sum_congr rfl fun i _ => ?_
        show _ = tdErr (lin base phi best) rows[i] * phi rows[i].S k * (best - w) k
        ring
      rw [h4]
      exact Finset.sum_eq_zero fun k _ => by rw [h3 k, zero_mul]
    have h5 := hu fun s => phi s ⬝ᵥ (best - w)
    rw [sum_rows] at h5
    have h6 := congrArg₂ (· - ·) h5 h2
    simp only [sub_zero] at h6
    rw [← Finset.sum_sub_distrib] at h6
    rw [← h6]
    refine Finset.sum_congr rfl fun i _ => ?_
    obtain ⟨s, hs⟩ := Option.isSome_iff_exists.1 (hp.s_next rows[i] (List.getElem_mem _))
    unfold tdErr
    rw [hs]
    simp only [Option.elim_some, e]
    ring
  have hX : H = ∑ i : Fin rows.length, rows[i].In * rows[i].S_next.elim 0 e * (phi rows[i].S ⬝ᵥ (best - w)) := by
    have h2 := horth (best - w)
    have h4 := congrArg₂ (· - ·) hD h2
    simp only [sub_zero] at h4
    rw [← Finset.sum_sub_distrib] at h4
    rw [← sub_eq_zero, hH, ← Finset.sum_sub_distrib]
    refine Eq.trans ?_ h4
    refine Finset.sum_congr rfl fun i _ => ?_
    have h3 : e rows[i].S = f rows[i].S + phi rows[i].S ⬝ᵥ (best - w) := by
      rw [← lin_sub base]
      simp only [e, f]
      ring
    rw [h3]
    simp only [f]
    ring
  have hS := hp.shrinks e
  rw [← hEd] at hS
  have hC : H ^ 2 ≤ (gamma ^ 2 * E) * H := by
    have h2 := Finset.sum_mul_sq_le_sq_mul_sq Finset.univ (fun i : Fin rows.length => rows[i].In * rows[i].S_next.elim 0 e) fun i => phi rows[i].S ⬝ᵥ (best - w)
    rw [← hX, ← hH] at h2
    exact h2.trans (mul_le_mul_of_nonneg_right hS (Finset.sum_nonneg fun i _ => sq_nonneg _))
  have hH0 : 0 ≤ H := Finset.sum_nonneg fun i _ => sq_nonneg _
  have hE0 : 0 ≤ E := Finset.sum_nonneg fun i _ => sq_nonneg _
  have hHE : H ≤ gamma ^ 2 * E := by
    rcases hH0.eq_or_lt with h | h
    · rw [← h]; positivity
    · rw [sq] at hC
      exact le_of_mul_le_mul_right hC h
  refine le_trans ?_ hT
  show (1 - gamma ^ 2) * E ≤ _
  linarith

end Coax.Loop
