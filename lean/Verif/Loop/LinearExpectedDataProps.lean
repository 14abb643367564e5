import Verif.Loop.LinearExpectedTargetProps
import Mathlib.Algebra.BigOperators.Group.Finset.Basic

/-! Property C152: complete episodes in which actions occur as often as the policy takes them. -/

namespace Coax.Loop

open Coax.RewardTracing Coax.TD Coax.Core Coax.Values Coax.Pol Filter Topology

variable {σ : Type _} [DecidableEq σ] {n d : Nat}

/-- In each state, each action occurs as often as its probability says. -/
def AsOften (pi : σ → Fin n → ℝ) (l : List (σ × Fin n)) : Prop := ∀ s a, (l.count (s, a) : ℝ) = pi s a * (l.map Prod.fst).count s

theorem AsOften.sum {pi : σ → Fin n → ℝ} {l : List (σ × Fin n)} (h : AsOften pi l) (g : σ → Fin n → ℝ) : (l.map fun p => g p.1 p.2).sum = (l.map fun p => ∑ a, pi p.1 a * g p.1 a).sum := by
  have e1 : (l.map fun p => g p.1 p.2).sum = ∑ s ∈ (l.map Prod.fst).toFinset, ∑ a, (l.count (s, a) : ℝ) * g s a := by
    have h1 : ∑ p ∈ (l.map Prod.fst).toFinset ×ˢ (Finset.univ : Finset (Fin n)), (l.count p : ℝ) * g p.1 p.2 = ∑ s ∈ (l.map Prod.fst).toFinset, ∑ a, (l.count (s, a) : ℝ) * g s a := Finset.sum_product _ _ _
    rw [← h1, Finset.sum_list_map_count l fun p => g p.1 p.2]
    simp only [nsmul_eq_mul]
    have h2 : l.toFinset ⊆ (l.map Prod.fst).toFinset ×ˢ (Finset.univ : Finset (Fin n)) := fun p hp => by
      rw [List.mem_toFinset] at hp
      rw [Finset.mem_product, List.mem_toFinset]
      exact ⟨List.mem_map_of_mem hp, Finset.mem_univ _⟩
    have h3 : ∀ p ∈ (l.map Prod.fst).toFinset ×ˢ (Finset.univ : Finset (Fin n)), p ∉ l.toFinset → (l.count p : ℝ) * g p.1 p.2 = 0 := fun p _ hp => by
      rw [List.mem_toFinset] at hp
      rw [List.count_eq_zero.2 hp]
      simp
    have h4 : ∀ p, @List.count _ instBEqOfDecidableEq p l = l.count p := fun p => by
      unfold List.count
      exact List.countP_congr fun x _ => by simp
    simp only [h4]
    exact Finset.sum_subset (M := ℝ) h2 h3
  have e2 : (l.map fun p => ∑ a, pi p.1 a * g p.1 a).sum = ((l.map Prod.fst).map fun s => ∑ a, pi s a * g s a).sum := by
    rw [List.map_map]
    rfl
  rw [e1, e2, Finset.sum_list_map_count (l.map Prod.fst) fun s => ∑ a, pi s a * g s a]
  refine Finset.sum_congr rfl fun s _ => ?_
  rw [nsmul_eq_mul, Finset.mul_sum]
  refine Finset.sum_congr rfl fun a _ => ?_
  rw [h s a]
  ring

/-- The transitions of complete episodes in which actions occur as often as the policy takes them. -/
theorem episodesE {gamma : ℝ} (h0 : 0 ≤ gamma) (h1 : gamma ≤ 1) {N : ℕ} (hN : 0 < N) {steps : List (Step σ (Fin n) ℝ × Bool)} {x : Step σ (Fin n) ℝ} (hlast : steps.getLast? = some (x, true)) (hlogp : ∀ p ∈ steps, p.1.logp ≤ 0)
    (hw : ∀ p ∈ steps, p.1.w = 1) {pi : σ → Fin n → ℝ} (hpi : ∀ s a, 0 ≤ pi s a) (ho : AsOften pi (steps.map fun p => (p.1.s, p.1.a))) :
    ∃ tracer rows k, onlineU (fun _ (acc : List (Out σ (Fin n) ℝ)) o => .ok (acc ++ [o])) (NStep.init N gamma false, [], 0) steps = .ok (tracer, rows, k) ∧ rows.map (fun o => (o.S, o.A)) = steps.map (fun p => (p.1.s, p.1.a)) ∧ rows ≠ [] ∧
      OnPolicyE gamma pi rows := by
  obtain ⟨xs, dn, T, hsteps, hdT, hw', tracer, k, hrun⟩ := episodes_run h0 h1 hN hlast hlogp hw
  have hS : ((List.range (T + 1)).map (rowN gamma N xs dn)).map (fun o => (o.S, o.A)) = steps.map (fun p => (p.1.s, p.1.a)) := by
    rw [← hsteps]
    simp [rowN, Function.comp_def]
  have hp := rowN_onPolicy h0 h1 hN hdT hw'
  refine ⟨_, _, _, hrun, hS, by simp [List.range_succ], hp.w, hp.in_nonneg, hp.in_le, by simp [rowN], fun g hg => ?_⟩
  have h2 := hp.visits (fun s => ∑ a, pi s a * g s a) fun s => Finset.sum_nonneg fun a _ => mul_nonneg (hpi s a) (hg s a)
  refine h2.trans (le_of_eq ?_)
  rw [← hS] at ho
  have h3 := ho.sum g
  generalize (List.range (T + 1)).map (rowN gamma N xs dn) = l at h3 ⊢
  rw [List.map_map, List.map_map] at h3
  exact h3.symm

/-- Claim C152, complete episodes: with the transitions that an `NStep` tracer makes of complete episodes in which, in each state, actions occur as often as the policy takes them, `ExpectedSarsa` updates with a small learning rate converge
for all states and actions of the episodes, to values that the transitions confirm, without a target network and with one.  Nothing raises. -/
theorem C152_episodes {gamma : ℝ} (h0 : 0 ≤ gamma) (h1 : gamma < 1) {N : ℕ} (hN : 0 < N) {steps : List (Step σ (Fin n) ℝ × Bool)} {x : Step σ (Fin n) ℝ} (hlast : steps.getLast? = some (x, true)) (hlogp : ∀ p ∈ steps, p.1.logp ≤ 0)
    (hw : ∀ p ∈ steps, p.1.w = 1) (logits : σ → Fin n → ℝ) (ho : AsOften (probs logits) (steps.map fun p => (p.1.s, p.1.a))) (type1 : Bool) (base : σ → Fin n → ℝ) (phi : σ → Fin n → Fin d → ℝ) {F : ℝ} (hF : ∀ p ∈ steps, ∑ k, phi p.1.s p.1.a k ^ 2 ≤ F)
    {lr : ℝ} (hlr : 0 < lr) (hs : 7 * (lr * F) < 1 - gamma) {tau : ℝ} (ht : 0 < tau) (ht1 : tau ≤ 1) (θ0 θT0 : Fin d → ℝ) :
    ∃ tracer rows k, onlineU (fun _ (acc : List (Out σ (Fin n) ℝ)) o => .ok (acc ++ [o])) (NStep.init N gamma false, [], 0) steps = .ok (tracer, rows, k) ∧
      ∃ (θ θ' θT : ℕ → Fin d → ℝ) (best : Fin d → ℝ), ProjectedE (probs logits) base phi rows best ∧
        (∀ t, affineLearnQ (fun _ => lr) mse1 (expectedOf logits) type1 base phi 0 θ0 (List.replicate t rows) = .ok (θ t)) ∧
        (∀ t, affineLearnTQ (fun _ => lr) tau mse1 (expectedOf logits) type1 base phi 0 (θ0, θT0) (List.replicate t rows) = .ok (θ' t, θT t)) ∧
        ∀ p ∈ steps, Tendsto (fun t => linQ base phi (θ t) p.1.s p.1.a) atTop (𝓝 (linQ base phi best p.1.s p.1.a)) ∧ Tendsto (fun t => linQ base phi (θ' t) p.1.s p.1.a) atTop (𝓝 (linQ base phi best p.1.s p.1.a)) ∧
          Tendsto (fun t => linQ base phi (θT t) p.1.s p.1.a) atTop (𝓝 (linQ base phi best p.1.s p.1.a)) := by
  have hn : 0 < n := Nat.pos_of_ne_zero fun h => by
    subst h
    exact x.a.elim0
  have hpi := probs_law hn logits
  obtain ⟨tracer, rows, k, hrun, hS, hne, hp⟩ := episodesE h0 h1.le hN hlast hlogp hw (fun s a => (hpi s).1 a) ho
  have hF' : ∀ o ∈ rows, ∑ k, phi o.S o.A k ^ 2 ≤ F := fun o ho' => by
    have h2 : (o.S, o.A) ∈ rows.map fun o => (o.S, o.A) := List.mem_map_of_mem (f := fun o : Out σ (Fin n) ℝ => (o.S, o.A)) ho'
    rw [hS] at h2
    obtain ⟨p, hp', e⟩ := List.mem_map.1 h2
    obtain ⟨e1, e2⟩ := Prod.mk.inj e
    rw [← e1, ← e2]
    exact hF p hp'
  have hF0 : 0 ≤ F := by
    obtain ⟨o, ho⟩ := List.exists_mem_of_ne_nil _ hne
    exact (Finset.sum_nonneg fun k _ => sq_nonneg _).trans (hF' o ho)
  have hsmall : lr * F * (1 + gamma) ^ 2 < 2 * (1 - gamma) := by
    have h3 : 0 ≤ lr * F := mul_nonneg hlr.le hF0
    have h4 : (1 + gamma) ^ 2 ≤ 4 := by nlinarith
    nlinarith
  obtain ⟨θ, hθ, best, hb, hlim⟩ := C152_converges h0 h1 logits hne hp type1 base phi hF' hlr hsmall θ0
  obtain ⟨θ', θT, hθ', best', hb', hlim'⟩ := C152_target h0 h1 logits hne hp type1 base phi hF' hlr hs ht ht1 θ0 θT0
  refine ⟨tracer, rows, k, hrun, θ, θ', θT, best, hb, hθ, hθ', fun p hp' => ?_⟩
  have hc : phi p.1.s p.1.a ∈ coveredQ phi rows := by
    have h2 : (p.1.s, p.1.a) ∈ steps.map fun p => (p.1.s, p.1.a) := List.mem_map_of_mem (f := fun p : Step σ (Fin n) ℝ × Bool => (p.1.s, p.1.a)) hp'
    rw [← hS] at h2
    obtain ⟨o, ho', e⟩ := List.mem_map.1 h2
    obtain ⟨e1, e2⟩ := Prod.mk.inj e
    exact Submodule.subset_span ⟨o, ho', by rw [e1, e2]⟩
  have e := C152_unique h0 h1 hpi hp hb hb' _ _ hc
  refine ⟨hlim _ _ hc, ?_, ?_⟩
  · rw [e]
    exact (hlim' _ _ hc).1
  · rw [e]
    exact (hlim' _ _ hc).2

/-! ### Cases -/

/-- Two episodes of two steps, in which a policy that is uniform takes each action once in each state. -/
def evenSteps : List (Step Bool (Fin 2) ℝ × Bool) := [(⟨false, 0, 1, 0, 1⟩, false), (⟨true, 1, 0, 0, 1⟩, true), (⟨false, 1, 0, 0, 1⟩, false), (⟨true, 0, 2, 0, 1⟩, true)]

theorem evenSteps_asOften : AsOften (probs fun (_ : Bool) (_ : Fin 2) => (0 : ℝ)) (evenSteps.map fun p => (p.1.s, p.1.a)) := by
  have h : ∀ s a, probs (fun (_ : Bool) (_ : Fin 2) => (0 : ℝ)) s a = 1 / 2 := fun s a => by simp [probs]
  intro s a
  rw [h]
  cases s <;> fin_cases a <;> norm_num [evenSteps, List.count_cons]

example : ∃ tracer rows k, onlineU (fun _ (acc : List (Out Bool (Fin 2) ℝ)) o => .ok (acc ++ [o])) (NStep.init 1 (1 / 2) false, [], 0) evenSteps = .ok (tracer, rows, k) ∧
    ∃ (θ : ℕ → Fin 1 → ℝ) (best : Fin 1 → ℝ), (∀ t, affineLearnQ (fun _ => 1 / 100) mse1 (expectedOf fun _ _ => 0) true (fun _ _ => 0) tempting 0 (fun _ => 5) (List.replicate t rows) = .ok (θ t)) ∧
      Tendsto (fun t => linQ (fun _ _ => 0) tempting (θ t) true 0) atTop (𝓝 (linQ (fun _ _ => 0) tempting best true 0)) := by
  have hF : ∀ p ∈ evenSteps, ∑ k, tempting p.1.s p.1.a k ^ 2 ≤ 4 := by
    simp only [evenSteps, List.forall_mem_cons, List.not_mem_nil, IsEmpty.forall_iff, implies_true, and_true]
    norm_num [tempting]
  obtain ⟨tracer, rows, k, h, θ, θ', θT, best, -, h2, -, h3⟩ := C152_episodes (gamma := 1 / 2) (by norm_num) (by norm_num) (N := 1) one_pos (steps := evenSteps) (x := ⟨true, 0, 2, 0, 1⟩) rfl (by simp [evenSteps]) (by simp [evenSteps]) (fun _ _ => 0) evenSteps_asOften
    true (fun _ _ => 0) tempting hF (lr := 1 / 100) (by norm_num) (by norm_num) (tau := 1 / 10) (by norm_num) (by norm_num) (fun _ => 5) fun _ => 7
  exact ⟨tracer, rows, k, h, θ, best, h2, (h3 (⟨true, 0, 2, 0, 1⟩, true) (by simp [evenSteps])).1⟩

end Coax.Loop
