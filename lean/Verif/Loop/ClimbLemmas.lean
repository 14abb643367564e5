import Verif.Loop.ReinforceLemmas

/-! Lemmas for property C137: the training loop of `VanillaPG` along one path, and its random process. -/

namespace Coax.Loop

open Coax.RewardTracing Coax.TD Coax.Core Coax.Values Coax.Pol Coax.Dists Filter Topology MeasureTheory

variable {X σ Ω V : Type _} {n m : Nat} {m0 : MeasurableSpace Ω} [DecidableEq σ]

/-! ### One step -/

/-- What the tracer is given. -/
def Climb.traced (e : Mdp X n m) (obs : X → σ) (c : Climb X σ n) (a : Fin n) (j : Fin m) : Step σ (Fin n) ℝ := ⟨obs c.x, a, e.reward c.x a j, 0, 1⟩

/-- The next state of the loop as a function of the action and the outcome, if nothing raises. -/
noncomputable def Climb.after (lr : ℕ → ℝ) (e : Mdp X n m) (obs : X → σ) (c : Climb X σ n) (a : Fin n) (j : Fin m) : Climb X σ n :=
  match c.tracer.add (c.traced e obs a j) (e.ends c.x a j) with
  | (_, some _) => c
  | (tracer, none) =>
    match pgPops lr (tracer.len + 1) tracer c.logits c.updates with
    | .error _ => c
    | .ok (tracer, logits, updates) => ⟨e.next c.x a j, tracer, logits, updates⟩

/-- What holds before each step. -/
structure Climb.Good (c : Climb X σ n) (gamma R : ℝ) (rank : X → ℕ) (H : ℕ) : Prop where
  gamma_eq : c.tracer.gamma = gamma
  done : c.tracer.done = true → c.tracer.list = []
  steps : ∀ x ∈ c.tracer.list, |x.r| ≤ R ∧ x.logp = 0 ∧ x.w = 1
  short : rank c.x + c.tracer.list.length < H

/-- How far the sum of the updates of an episode is from the sum without change of the params in between. -/
noncomputable def off (σ : Type _) [Fintype σ] (n H : ℕ) (R x y : ℝ) : ℝ := H * ((x - y) * (H * R) + x * (H * R) * (‖dot σ n‖ * (H * (x * (H * R)))))

theorem Climb.after_spec [Fintype σ] {gamma R : ℝ} {rank : X → ℕ} {H : ℕ} {c : Climb X σ n} (hc : c.Good gamma R rank H) (h0 : 0 ≤ gamma) (h1 : gamma ≤ 1) {lr : ℕ → ℝ} (hl0 : ∀ k, 0 ≤ lr k) (hl : Antitone lr) (hR : 0 ≤ R) {e : Mdp X n m} {obs : X → σ}
    (hre : ∀ x a j, |e.reward x a j| ≤ R) (hr : ∀ x a j, e.ends x a j = false → rank (e.next x a j) < rank x) (hH : ∀ x, rank x < H) (a : Fin n) (j : Fin m) :
    (c.after lr e obs a j).Good gamma R rank H ∧ (c.after lr e obs a j).x = e.next c.x a j ∧
    (∀ {draw : List (Fin n) → Option (Fin n)} {tau : ℝ} {env : Game X n V} {w : (Fin n → ℝ) × V}, (policyCall draw tau w.1 (c.logits (obs c.x))).1 = some a → (env.step c.x a w.2).2.1 = e.reward c.x a j → (env.step c.x a w.2).2.2 = e.ends c.x a j →
      (if (env.step c.x a w.2).2.2 then env.reset w.2 else (env.step c.x a w.2).1) = e.next c.x a j → Climb.step lr draw tau env obs c w = .ok (c.after lr e obs a j)) ∧
    (e.ends c.x a j = false → (c.after lr e obs a j).logits = c.logits ∧ (c.after lr e obs a j).updates = c.updates ∧ (c.after lr e obs a j).tracer.list = c.tracer.list ++ [c.traced e obs a j]) ∧
    (e.ends c.x a j = true → (c.after lr e obs a j).updates = c.updates + (c.tracer.list.length + 1) ∧ (c.after lr e obs a j).tracer.list = [] ∧
      ‖(c.after lr e obs a j).logits - c.logits - lr c.updates • (eligible gamma c.logits (c.tracer.list ++ [c.traced e obs a j])).1‖ ≤ off σ n H R (lr c.updates) (lr (c.after lr e obs a j).updates)) := by
  obtain ⟨x, ⟨gam, l, dn, g⟩, θ, u⟩ := c
  obtain ⟨hgam, hdn, hst, hsh⟩ := hc
  simp only at hgam hdn hst hsh ⊢
  subst hgam
  have hadd : ∀ (y : Step σ (Fin n) ℝ) d, (⟨gam, l, dn, g⟩ : MonteCarlo σ (Fin n) ℝ).add y d = (⟨gam, l ++ [y], d, if d then 0 else g⟩, none) := by
    intro y d
    unfold MonteCarlo.add MonteCarlo.len
    cases dn
    · simp
    · simp [hdn rfl]
  set y : Step σ (Fin n) ℝ := ⟨obs x, a, e.reward x a j, 0, 1⟩ with hy
  have hyt : ∀ t θ u, Climb.traced e obs ⟨x, t, θ, u⟩ a j = y := fun _ _ _ => rfl
  have hst' : ∀ z ∈ l ++ [y], |z.r| ≤ R ∧ z.logp = 0 ∧ z.w = 1 := by
    intro z hz
    rcases List.mem_append.1 hz with h | h
    · exact hst z h
    · rw [List.mem_singleton] at h
      subst h
      exact ⟨hre _ _ _, rfl, rfl⟩
  have hstep : ∀ {draw : List (Fin n) → Option (Fin n)} {tau : ℝ} {env : Game X n V} {w : (Fin n → ℝ) × V} {t' θ' u'}, (policyCall draw tau w.1 (θ (obs x))).1 = some a → (env.step x a w.2).2.1 = e.reward x a j → (env.step x a w.2).2.2 = e.ends x a j →
      (if (env.step x a w.2).2.2 then env.reset w.2 else (env.step x a w.2).1) = e.next x a j → pgPops lr (l.length + 1 + 1) ⟨gam, l ++ [y], e.ends x a j, if e.ends x a j then 0 else g⟩ θ u = .ok (t', θ', u') →
      Climb.step lr draw tau env obs ⟨x, ⟨gam, l, dn, g⟩, θ, u⟩ w = .ok ⟨e.next x a j, t', θ', u'⟩ := by
    intro draw tau env w t' θ' u' hpi h2 h3 h4 h5
    unfold Climb.step
    simp only [hpi, hadd, h2, h3, MonteCarlo.len, List.length_append, List.length_singleton]
    rw [h5]
    rw [h3] at h4
    simp only [h4]
  have haft : ∀ {t' θ' u'}, pgPops lr (l.length + 1 + 1) ⟨gam, l ++ [y], e.ends x a j, if e.ends x a j then 0 else g⟩ θ u = .ok (t', θ', u') → Climb.after lr e obs ⟨x, ⟨gam, l, dn, g⟩, θ, u⟩ a j = ⟨e.next x a j, t', θ', u'⟩ := by
    intro t' θ' u' h5
    unfold Climb.after
    simp only [hyt, hadd, MonteCarlo.len, List.length_append, List.length_singleton]
    rw [h5]
  cases hj : e.ends x a j
  · have hp : pgPops lr (l.length + 1 + 1) ⟨gam, l ++ [y], e.ends x a j, if e.ends x a j then 0 else g⟩ θ u = .ok (⟨gam, l ++ [y], false, g⟩, θ, u) := by
      rw [pgPops, hj]
      simp [MonteCarlo.bool]
    rw [haft hp]
    have hlt := hr x a j hj
    refine ⟨⟨rfl, by simp, hst', ?_⟩, rfl, ?_, fun _ => ⟨rfl, rfl, rfl⟩, by simp⟩
    · simp only [List.length_append, List.length_singleton]
      omega
    · intro draw tau env w hpi h2 h3 h4
      exact hstep hpi h2 (h3.trans hj.symm) h4 hp
  · obtain ⟨g', θ2, hp, hb⟩ := pgPops_ok h0 h1 hl0 hl hR (H := H) (l ++ [y]) hst' 0 θ u (l.length + 1 + 1) (by simp)
    have hp' : pgPops lr (l.length + 1 + 1) ⟨gam, l ++ [y], e.ends x a j, if e.ends x a j then 0 else g⟩ θ u = .ok (⟨gam, [], true, g'⟩, θ2, u + (l.length + 1)) := by
      rw [hj]
      simpa using hp
    rw [haft hp']
    refine ⟨⟨rfl, fun _ => rfl, by simp, by simpa using hH _⟩, rfl, ?_, by simp, fun _ => ⟨rfl, rfl, ?_⟩⟩
    · intro draw tau env w hpi h2 h3 h4
      exact hstep hpi h2 (h3.trans hj.symm) h4 hp'
    · have hlen : (l ++ [y]).length ≤ H := by
        rw [List.length_append, List.length_singleton]
        omega
      have := hb θ u 0 rfl (by omega) (by simp) (by simp)
      rw [zero_smul, add_zero] at this
      refine this.trans ?_
      unfold off
      simp only [List.length_append, List.length_singleton] at hlen ⊢
      refine mul_le_mul_of_nonneg_right (by exact_mod_cast hlen) ?_
      have g1 := hl0 u
      have g2 : 0 ≤ lr u - lr (u + (l.length + 1)) := sub_nonneg.2 (hl (by omega))
      positivity

/-! ### The mean of the next step -/

section mean

variable (e : Mdp X n m) (obs : X → σ) (gamma : ℝ) (H : ℕ)

/-- What the sum of the updates of this episode is expected to be. -/
noncomputable def Climb.hope (c : Climb X σ n) : σ → Fin n → ℝ :=
  way e obs gamma 1 H c.logits c.x + (eligible gamma c.logits c.tracer.list).1 + val e obs gamma H c.logits c.x • (eligible gamma c.logits c.tracer.list).2

/-- The same, after an action and an outcome. -/
noncomputable def Climb.then (c : Climb X σ n) (a : Fin n) (j : Fin m) : σ → Fin n → ℝ :=
  (eligible gamma c.logits (c.tracer.list ++ [c.traced e obs a j])).1 +
    if e.ends c.x a j then 0 else way e obs gamma 1 H c.logits (e.next c.x a j) + val e obs gamma H c.logits (e.next c.x a j) • (eligible gamma c.logits (c.tracer.list ++ [c.traced e obs a j])).2

variable {e obs gamma H}

theorem Climb.hope_mean (hn : 0 < n) (he : e.Proper) {rank : X → ℕ} (hr : ∀ x a j, e.ends x a j = false → rank (e.next x a j) < rank x) (hH : ∀ x, rank x < H) (c : Climb X σ n) (s : σ) (b : Fin n) :
    c.hope e obs gamma H s b = ∑ a, meanRow (c.logits (obs c.x)) a * ∑ j, e.prob c.x a j * c.then e obs gamma H a j s b := by
  set E := eligible gamma c.logits c.tracer.list with hE
  have h1 : ∀ a j, c.then e obs gamma H a j s b = E.1 s b + (e.reward c.x a j + if e.ends c.x a j then 0 else gamma * val e obs gamma H c.logits (e.next c.x a j)) * (E.2 s b + scoreAt c.logits (obs c.x) a s b) +
      if e.ends c.x a j then 0 else 1 * way e obs gamma 1 H c.logits (e.next c.x a j) s b := by
    intro a j
    unfold Climb.then
    rw [eligible_append, ← hE]
    simp only [Climb.traced]
    split
    · simp only [Pi.add_apply, Pi.smul_apply, smul_eq_mul, Pi.zero_apply]
      ring
    · simp only [Pi.add_apply, Pi.smul_apply, smul_eq_mul]
      ring
  have h2 : ∀ a, ∑ j, e.prob c.x a j * c.then e obs gamma H a j s b = E.1 s b + act e obs gamma H c.logits c.x a * (E.2 s b + scoreAt c.logits (obs c.x) a s b) +
      ∑ j, e.prob c.x a j * if e.ends c.x a j then 0 else 1 * way e obs gamma 1 H c.logits (e.next c.x a j) s b := by
    intro a
    simp only [h1, mul_add (e.prob c.x a _), Finset.sum_add_distrib]
    congr 1
    rw [← Finset.sum_mul, he.total, one_mul]
    congr 1
    unfold act
    rw [Finset.sum_mul]
    refine Finset.sum_congr rfl fun j _ => ?_
    ring
  have h3 := (C49_probabilities (c.logits (obs c.x))).2 hn
  simp only [h2]
  unfold Climb.hope
  simp only [Pi.add_apply, Pi.smul_apply, smul_eq_mul]
  rw [way_apply hr hH, val_eq hr hH]
  simp only [mul_add, Finset.sum_add_distrib, ← Finset.sum_mul, ← hE]
  rw [h3, one_mul, Finset.sum_mul]
  have h4 : ∀ a, meanRow (c.logits (obs c.x)) a * (act e obs gamma H c.logits c.x a * E.2 s b) = meanRow (c.logits (obs c.x)) a * act e obs gamma H c.logits c.x a * E.2 s b := fun a => by ring
  have h5 : ∀ a, meanRow (c.logits (obs c.x)) a * (act e obs gamma H c.logits c.x a * scoreAt c.logits (obs c.x) a s b) = act e obs gamma H c.logits c.x a * (meanRow (c.logits (obs c.x)) a * scoreAt c.logits (obs c.x) a s b) := fun a => by ring
  simp only [h4, h5]
  ring

end mean

end Coax.Loop
