import Verif.Loop.LinearProps

/-! Property C149: which data linear value functions can be learned from. -/

namespace Coax.Loop

open Coax.RewardTracing Coax.TD Coax.Core Coax.Values Coax.Pol Filter Topology

variable {σ : Type _} {n d : Nat}

/-! ### Complete episodes -/

theorem endsN_false {dn : ℕ → Bool} {N t : ℕ} (h : endsN dn N t = false) {j : ℕ} (hj : j < N) : dn (t + j) = false := by
  induction N generalizing t j with
  | zero => omega
  | succ N ih =>
    rw [endsN, Bool.or_eq_false_iff] at h
    cases j with
    | zero => exact h.1
    | succ j =>
      rw [show t + (j + 1) = t + 1 + j by omega]
      exact ih h.2 (by omega)

theorem sum_shift (f : ℕ → ℝ) (hf : ∀ t, 0 ≤ f t) (T N : ℕ) : ∑ t ∈ Finset.range T, (if t + N < T then f (t + N) else 0) ≤ ∑ t ∈ Finset.range T, f t := by
  rw [← Finset.sum_filter]
  have h1 : ∑ t ∈ (Finset.range T).filter (fun t => t + N < T), f (t + N) = ∑ t ∈ ((Finset.range T).filter fun t => t + N < T).image (· + N), f t := by
    rw [Finset.sum_image]
    intro a _ b _ h
    simpa using h
  rw [h1]
  refine Finset.sum_le_sum_of_subset_of_nonneg ?_ fun t _ _ => hf t
  intro t ht
  obtain ⟨a, ha, rfl⟩ := Finset.mem_image.1 ht
  exact Finset.mem_range.2 (Finset.mem_filter.1 ha).2

theorem rowN_onPolicy {gamma : ℝ} (h0 : 0 ≤ gamma) (h1 : gamma ≤ 1) {N : ℕ} (hN : 0 < N) {xs : ℕ → Step σ (Fin n) ℝ} {dn : ℕ → Bool} {T : ℕ} (hT : dn T = true) (hw : ∀ t, (xs t).w = 1) :
    OnPolicy gamma ((List.range (T + 1)).map (rowN gamma N xs dn)) := by
  have hIn : ∀ t, (rowN gamma N xs dn t).In = if endsN dn N t then 0 else gamma ^ N := fun t => by
    show gamma ^ N * (1 - if endsN dn N t then 1 else 0) = _
    split <;> simp
  refine ⟨?_, ?_, ?_, ?_, ?_⟩
  · simp [rowN, hw]
  · simp only [List.mem_map, forall_exists_index, and_imp]
    rintro _ t _ rfl
    rw [hIn]
    split
    · exact le_rfl
    · positivity
  · simp only [List.mem_map, forall_exists_index, and_imp]
    rintro _ t _ rfl
    rw [hIn]
    split
    · exact h0
    · simpa using pow_le_pow_of_le_one h0 h1 (show 1 ≤ N by omega)
  · simp [rowN]
  · intro g hg
    simp only [List.map_map]
    have h2 : ∀ f : ℕ → ℝ, ((List.range (T + 1)).map f).sum = ∑ t ∈ Finset.range (T + 1), f t := fun f => by rw [Finset.sum_range]; simp [Fin.sum_univ_def, ← List.map_coe_finRange_eq_range, Function.comp_def]
    rw [h2, h2]
    refine le_trans (Finset.sum_le_sum fun t ht => ?_) (sum_shift (fun t => g (xs t).s) (fun t => hg _) (T + 1) N)
    simp only [Function.comp_apply]
    rw [hIn]
    have ht' : t < T + 1 := Finset.mem_range.1 ht
    cases he : endsN dn N t with
    | true =>
      simp only [if_true]
      split
      · exact hg _
      · exact le_rfl
    | false =>
      have hlt : t + N < T + 1 := by
        by_contra hc
        have := endsN_false he (j := T - t) (by omega)
        rw [show t + (T - t) = T by omega, hT] at this
        exact absurd this (by simp)
      rw [if_pos hlt]
      simp only [Bool.false_eq_true, if_false]
      have he' : (rowN gamma N xs dn t).S_next.elim 0 g = g (xs (t + N)).s := by simp [rowN, he]
      rw [he']
      split
      · exact hg _
      · exact le_rfl

theorem episodes_run {gamma : ℝ} (h0 : 0 ≤ gamma) (h1 : gamma ≤ 1) {N : ℕ} (hN : 0 < N) {steps : List (Step σ (Fin n) ℝ × Bool)} {x : Step σ (Fin n) ℝ} (hlast : steps.getLast? = some (x, true)) (hlogp : ∀ p ∈ steps, p.1.logp ≤ 0)
    (hw : ∀ p ∈ steps, p.1.w = 1) :
    ∃ (xs : ℕ → Step σ (Fin n) ℝ) (dn : ℕ → Bool) (T : ℕ), (List.range (T + 1)).map (fun t => (xs t, dn t)) = steps ∧ dn T = true ∧ (∀ t, (xs t).w = 1) ∧
      ∃ tracer k, onlineU (fun _ (acc : List (Out σ (Fin n) ℝ)) o => .ok (acc ++ [o])) (NStep.init N gamma false, [], 0) steps = .ok (tracer, (List.range (T + 1)).map (rowN gamma N xs dn), k) := by
  obtain ⟨T, hlen⟩ : ∃ T, steps.length = T + 1 := by
    cases steps with
    | nil => simp at hlast
    | cons p l => exact ⟨l.length, rfl⟩
  have hx : (x, true) ∈ steps := List.mem_of_getLast? hlast
  set xs : ℕ → Step σ (Fin n) ℝ := fun t => (steps.getD t (x, true)).1 with hxs
  set dn : ℕ → Bool := fun t => (steps.getD t (x, true)).2 with hdn
  have hmem : ∀ t, steps.getD t (x, true) ∈ steps := fun t => by
    by_cases ht : t < steps.length
    · rw [List.getD_eq_getElem?_getD, List.getElem?_eq_getElem ht]
      exact List.getElem_mem ht
    · rw [List.getD_eq_getElem?_getD, List.getElem?_eq_none (by omega)]
      exact hx
  have hsteps : (List.range (T + 1)).map (fun t => (xs t, dn t)) = steps := by
    refine List.ext_getElem (by simp [hlen]) fun i h2 h3 => ?_
    simp [hxs, hdn, List.getElem?_eq_getElem h3]
  have hdT : dn T = true := by
    rw [List.getLast?_eq_getElem?, hlen, Nat.add_sub_cancel] at hlast
    simp [hdn, List.getD_eq_getElem?_getD, hlast]
  obtain ⟨b, -, hrun⟩ := onlineU_lookahead (update := fun _ (acc : List (Out σ (Fin n) ℝ)) o => .ok (acc ++ [o])) (xs := xs) (dn := dn) (θ := fun j => (List.range j).map (rowN gamma N xs dn)) h0 h1 hN (fun t => hlogp _ (hmem t))
    (fun t => by rw [show (xs t).w = 1 from hw _ (hmem t)]; exact one_pos) (fun j => by simp [List.range_succ]) (T + 1)
  rw [hsteps] at hrun
  have hpop : poppedN dn N (T + 1) = T + 1 := by rw [poppedN, if_pos hdT]
  rw [hpop] at hrun
  exact ⟨xs, dn, T, hsteps, hdT, fun t => hw _ (hmem t), _, _, hrun⟩

/-- Claim C149, the data: the transitions that an `NStep` tracer makes of complete episodes lead to the states of the batch at most as often as these occur.  One transition starts in each step of the episodes. -/
theorem C149_episodes {gamma : ℝ} (h0 : 0 ≤ gamma) (h1 : gamma ≤ 1) {N : ℕ} (hN : 0 < N) {steps : List (Step σ (Fin n) ℝ × Bool)} {x : Step σ (Fin n) ℝ} (hlast : steps.getLast? = some (x, true)) (hlogp : ∀ p ∈ steps, p.1.logp ≤ 0)
    (hw : ∀ p ∈ steps, p.1.w = 1) :
    ∃ tracer rows k, onlineU (fun _ (acc : List (Out σ (Fin n) ℝ)) o => .ok (acc ++ [o])) (NStep.init N gamma false, [], 0) steps = .ok (tracer, rows, k) ∧ rows.map (·.S) = steps.map (·.1.s) ∧ rows ≠ [] ∧ OnPolicy gamma rows := by
  obtain ⟨xs, dn, T, hsteps, hdT, hw', tracer, k, hrun⟩ := episodes_run h0 h1 hN hlast hlogp hw
  refine ⟨_, _, _, hrun, ?_, by simp [List.range_succ], rowN_onPolicy h0 h1 hN hdT hw'⟩
  rw [← hsteps]
  simp [rowN, Function.comp_def]

/-- Claim C149, from episodes to values: with the transitions that an `NStep` tracer makes of complete episodes, repeated updates with a small learning rate converge, and the sum of squared errors of the limit is at most `1 / (1 - gamma ^ 2)` times
that of any params, relative to values that the transitions confirm on average. -/
theorem C149_pipeline {gamma : ℝ} (h0 : 0 ≤ gamma) (h1 : gamma < 1) {N : ℕ} (hN : 0 < N) {steps : List (Step σ (Fin n) ℝ × Bool)} {x : Step σ (Fin n) ℝ} (hlast : steps.getLast? = some (x, true)) (hlogp : ∀ p ∈ steps, p.1.logp ≤ 0)
    (hw : ∀ p ∈ steps, p.1.w = 1) (base : σ → ℝ) (phi : σ → Fin d → ℝ) {F : ℝ} (hF : ∀ p ∈ steps, ∑ k, phi p.1.s k ^ 2 ≤ F) {lr : ℝ} (hlr : 0 < lr) (hs : lr * F * (1 + gamma) ^ 2 < 2 * (1 - gamma)) (θ0 : Fin d → ℝ) :
    ∃ tracer rows k, onlineU (fun _ (acc : List (Out σ (Fin n) ℝ)) o => .ok (acc ++ [o])) (NStep.init N gamma false, [], 0) steps = .ok (tracer, rows, k) ∧
      ∃ (θ : ℕ → Fin d → ℝ) (best : Fin d → ℝ), (∀ t, affineLearn (fun _ => lr) mse1 base phi 0 θ0 (List.replicate t rows) = .ok (θ t)) ∧ (∀ p ∈ steps, Tendsto (fun t => lin base phi (θ t) p.1.s) atTop (𝓝 (lin base phi best p.1.s))) ∧
        ∀ u, Empirical rows u → ∀ θ', (1 - gamma ^ 2) * (steps.map fun p => (lin base phi best p.1.s - u p.1.s) ^ 2).sum ≤ (steps.map fun p => (lin base phi θ' p.1.s - u p.1.s) ^ 2).sum := by
  obtain ⟨tracer, rows, k, hrun, hS, hne, hp⟩ := C149_episodes h0 h1.le hN hlast hlogp hw
  refine ⟨tracer, rows, k, hrun, ?_⟩
  have hS1 : ∀ o ∈ rows, ∃ p ∈ steps, p.1.s = o.S := fun o ho => by
    have h2 : o.S ∈ rows.map (·.S) := List.mem_map_of_mem ho
    rw [hS] at h2
    simpa using h2
  have hS2 : ∀ p ∈ steps, ∃ o ∈ rows, o.S = p.1.s := fun p hp => by
    have h2 : p.1.s ∈ steps.map (·.1.s) := List.mem_map_of_mem (f := fun p : Step σ (Fin n) ℝ × Bool => p.1.s) hp
    rw [← hS] at h2
    simpa using h2
  have hF' : ∀ o ∈ rows, ∑ k, phi o.S k ^ 2 ≤ F := fun o ho => by
    obtain ⟨p, hp, e⟩ := hS1 o ho
    rw [← e]
    exact hF p hp
  obtain ⟨θ, hθ, best, hb, hlim⟩ := C149_converges h0 h1 hne hp base phi hF' hlr hs θ0
  refine ⟨θ, best, hθ, fun p hp => ?_, fun u hu θ' => ?_⟩
  · obtain ⟨o, ho, e⟩ := hS2 p hp
    rw [← e]
    exact hlim _ (Submodule.subset_span ⟨o, ho, rfl⟩)
  · have h2 := C149_error h0 h1 hp hb hu θ'
    have h3 : ∀ f : σ → ℝ, (rows.map fun o => f o.S).sum = (steps.map fun p => f p.1.s).sum := fun f => by
      have := congrArg (fun l => (l.map f).sum) hS
      simpa [Function.comp_def] using this
    rw [h3 fun s => (lin base phi best s - u s) ^ 2, h3 fun s => (lin base phi θ' s - u s) ^ 2] at h2
    exact h2

/-- Two steps of an episode. -/
example : ∃ (steps : List (Step Bool (Fin 1) ℝ × Bool)) (rows : List (Out Bool (Fin 1) ℝ)), steps.length = 2 ∧ OnPolicy (9 / 10) rows ∧ rows.map (·.S) = [false, true] := by
  obtain ⟨_, rows, _, -, hS, -, hp⟩ := C149_episodes (gamma := 9 / 10) (by norm_num) (by norm_num) (N := 1) one_pos (steps := [(⟨false, 0, 1, 0, 1⟩, false), (⟨true, 0, 2, 0, 1⟩, true)]) (x := (⟨true, 0, 2, 0, 1⟩ : Step Bool (Fin 1) ℝ)) rfl
    (by simp) (by simp)
  exact ⟨[(⟨false, 0, 1, 0, 1⟩, false), (⟨true, 0, 2, 0, 1⟩, true)], rows, rfl, hp, hS⟩

/-! ### Other data -/

/-- A transition without reward. -/
def hop (gamma : ℝ) (s s' : σ) : Out σ (Fin 1) ℝ := { S := s, A := 0, logP := 0, Rn := 0, In := gamma, S_next := some s', A_next := some 0, logP_next := some 0, W := 1, idx := 0, extraInfo := none }

/-- One feature: the value of one state is twice that of the other. -/
def double (s : Bool) (_ : Fin 1) : ℝ := if s then 2 else 1

theorem double_update (lr gamma : ℝ) (θT θ : Fin 1 → ℝ) :
    affineUpdate lr mse1 (fun _ => 0) double θT θ [hop gamma false true, hop gamma true true] = .ok fun _ => θ 0 + lr / 2 * (6 * gamma * θT 0 - 5 * θ 0) := by
  rw [C149_update lr _ _ θT θ (by simp) (by simp [hop])]
  congr 1
  funext k
  fin_cases k
  norm_num [hop, lin, double]
  ring

/-- Claim C149 is false without regard to where the transitions lead: two transitions without rewards, from either of two states to the second.  If the value of the second state is twice that of the first, then updates diverge with every learning rate
and from all values except zero, though zero is the value of both states. -/
theorem C149_off_policy_counterexample {gamma : ℝ} (hg : 5 / 6 < gamma) {lr : ℝ} (hlr : 0 < lr) {x : ℝ} (hx : x ≠ 0) :
    Empirical [hop gamma false true, hop gamma true true] (lin (fun _ => 0) double 0) ∧
    ∃ θ : ℕ → Fin 1 → ℝ, (∀ t, affineLearn (fun _ => lr) mse1 (fun _ => 0) double 0 (fun _ => x) (List.replicate t [hop gamma false true, hop gamma true true]) = .ok (θ t)) ∧ ∀ s, Tendsto (fun t => |lin (fun _ => 0) double (θ t) s|) atTop atTop := by
  refine ⟨fun g => by simp [hop, tdErr, lin], ?_⟩
  set r : ℝ := 1 + lr / 2 * (6 * gamma - 5) with hr
  have hr1 : 1 < r := by
    have : 0 < lr / 2 * (6 * gamma - 5) := mul_pos (by linarith) (by linarith)
    linarith
  refine ⟨fun t _ => x * r ^ t, fun t => ?_, fun s => ?_⟩
  · generalize 0 = k
    induction t generalizing x k with
    | zero => simp [affineLearn]
    | succ t ih =>
      rw [List.replicate_succ, affineLearn, double_update]
      have e : (fun _ : Fin 1 => x + lr / 2 * (6 * gamma * x - 5 * x)) = fun _ => x * r := by
        funext _
        rw [hr]
        ring
      simp only [e]
      rw [ih (x := x * r) (mul_ne_zero hx (by linarith)) (k + 1)]
      congr 1
      funext _
      ring
  · have h2 : ∀ t : ℕ, |lin (fun _ => 0) double (fun _ => x * r ^ t) s| = double s 0 * |x| * r ^ t := fun t => by
      have hd : 0 < double s 0 := by unfold double; split <;> norm_num
      simp only [lin, Finset.univ_unique, Fin.default_eq_zero, Finset.sum_singleton, zero_add, abs_mul, abs_of_pos hd, abs_of_pos (pow_pos (show 0 < r by linarith) t)]
      ring
    simp only [h2]
    have hd : 0 < double s 0 * |x| := mul_pos (by unfold double; split <;> norm_num) (abs_pos.2 hx)
    exact (tendsto_pow_atTop_atTop_of_one_lt hr1).const_mul_atTop hd

/-- A target network does not help, however slowly it follows. -/
theorem C149_target_counterexample {gamma : ℝ} (hg : 5 / 6 < gamma) {lr : ℝ} (hlr : 0 < lr) (hlr' : lr ≤ 2 / 5) {tau : ℝ} (ht : 0 < tau) (ht' : tau ≤ 1) {x : ℝ} (hx : 0 < x) :
    ∃ θ θT : ℕ → Fin 1 → ℝ, (∀ t, affineLearnT (fun _ => lr) tau mse1 (fun _ => 0) double 0 (fun _ => x, fun _ => x) (List.replicate t [hop gamma false true, hop gamma true true]) = .ok (θ t, θT t)) ∧
      ∀ s, Tendsto (fun t => lin (fun _ => 0) double (θ t) s) atTop atTop := by
  have hk : 0 < lr / 2 * (6 * gamma - 5) := mul_pos (by linarith) (by linarith)
  set r : ℝ := 1 + tau * (lr / 2 * (6 * gamma - 5)) with hr
  have hr1 : 1 < r := by
    have := mul_pos ht hk
    linarith
  have key : ∀ t (k : ℕ) (a b c : ℝ), 0 < c → c ≤ a → c ≤ b → ∃ a' b' : ℝ, c * r ^ t ≤ a' ∧ affineLearnT (fun _ => lr) tau mse1 (fun _ => 0) double k (fun _ => a, fun _ => b) (List.replicate t [hop gamma false true, hop gamma true true]) = .ok (fun _ => a', fun _ => b') := by
    intro t
    induction t with
    | zero => exact fun k a b c _ ha _ => ⟨a, b, by simpa using ha, rfl⟩
    | succ t ih =>
      intro k a b c hc ha hb
      have h1 : c * (1 + lr / 2 * (6 * gamma - 5)) ≤ a + lr / 2 * (6 * gamma * b - 5 * a) := by
        have e1 : 0 ≤ (1 - 5 * lr / 2) * (a - c) := mul_nonneg (by linarith) (by linarith)
        have e2 : 0 ≤ 3 * lr * gamma * (b - c) := mul_nonneg (by positivity) (by linarith)
        nlinarith
      have h2 : c * r ≤ a + lr / 2 * (6 * gamma * b - 5 * a) := by
        refine le_trans (mul_le_mul_of_nonneg_left ?_ hc.le) h1
        rw [hr]
        nlinarith
      have h3 : c * r ≤ (1 - tau) * b + tau * (a + lr / 2 * (6 * gamma * b - 5 * a)) := by
        have e1 : 0 ≤ (1 - tau) * (b - c) := mul_nonneg (by linarith) (by linarith)
        have e2 := mul_le_mul_of_nonneg_left h1 ht.le
        rw [hr]
        nlinarith
      obtain ⟨a', b', h4, h5⟩ := ih (k + 1) _ _ (c * r) (mul_pos hc (by linarith)) h2 h3
      refine ⟨a', b', by rw [pow_succ]; nlinarith, ?_⟩
      rw [List.replicate_succ, affineLearnT, double_update]
      exact h5
  choose a b h1 h2 using fun t => key t 0 x x x hx le_rfl le_rfl
  refine ⟨fun t _ => a t, fun t _ => b t, h2, fun s => ?_⟩
  have hd : 0 < double s 0 := by unfold double; split <;> norm_num
  have h3 : ∀ t : ℕ, x * double s 0 * r ^ t ≤ lin (fun _ => 0) double (fun _ => a t) s := fun t => by
    simp only [lin, Finset.univ_unique, Fin.default_eq_zero, Finset.sum_singleton, zero_add]
    have := mul_le_mul_of_nonneg_left (h1 t) hd.le
    linarith
  exact tendsto_atTop_mono h3 ((tendsto_pow_atTop_atTop_of_one_lt hr1).const_mul_atTop (mul_pos hx hd))

end Coax.Loop
