import Verif.Loop.ClosedLemmas
import Mathlib.Probability.Independence.InfinitePi

/-! Property C131: an agent that acts with the values it is learning, in an environment that answers at random, learns the optimal values. -/

namespace Coax.Loop

open Coax.RewardTracing Coax.TD Coax.Core Coax.Values Coax.Pol Coax.Dists Filter Topology MeasureTheory

variable {σ Ω U V : Type _} {n m : Nat} {m0 : MeasurableSpace Ω}

/-! ### Specification -/

/-- Random numbers for the agent (`u`) and for the environment (`v`), drawn in turns; each is independent of everything before. -/
structure Variates [MeasurableSpace U] [MeasurableSpace V] (μ : Measure Ω) (ℋ : Filtration ℕ m0) (νU : Measure U) (νV : Measure V) (u : ℕ → Ω → U) (v : ℕ → Ω → V) : Prop where
  u_known : ∀ t, Measurable[ℋ (2 * t + 1)] (u t)
  v_known : ∀ t, Measurable[ℋ (2 * t + 2)] (v t)
  u_new : ∀ t, ProbabilityTheory.Indep (MeasurableSpace.comap (u t) inferInstance) (ℋ (2 * t)) μ
  v_new : ∀ t, ProbabilityTheory.Indep (MeasurableSpace.comap (v t) inferInstance) (ℋ (2 * t + 1)) μ
  u_law : ∀ t, μ.map (u t) = νU
  v_law : ∀ t, μ.map (v t) = νV

/-- The environment computes rewards, ends of episodes and states of the decision process `e`: with random numbers of law `νV` the outcomes have the probabilities of `e`.  After the end of an episode the next state is the one of `env.reset()`. -/
structure Game.Is [MeasurableSpace V] (env : Game σ n V) (νV : Measure V) (e : Mdp σ n m) (chance : σ → Fin n → V → Fin m) : Prop where
  measurable : ∀ s a j, MeasurableSet {v | chance s a v = j}
  law : ∀ s a j, νV.real {v | chance s a v = j} = e.prob s a j
  reward : ∀ s a v, (env.step s a v).2.1 = e.reward s a (chance s a v)
  ends : ∀ s a v, (env.step s a v).2.2 = e.ends s a (chance s a v)
  next : ∀ s a v, (if (env.step s a v).2.2 then env.reset v else (env.step s a v).1) = e.next s a (chance s a v)

/-- The policy always gives an action, and tries every action with at least some probability as long as the values of the actions are bounded. -/
structure Tries [MeasurableSpace U] (νU : Measure U) (pi : ℕ → (Fin n → ℝ) → U → Option (Fin n)) : Prop where
  answers : ∀ ep row u, ∃ a, pi ep row u = some a
  measurable : ∀ ep row a, MeasurableSet {u | pi ep row u = some a}
  explores : ∀ B, ∃ eps, 0 < eps ∧ ∀ ep row a, (∀ b, |row b| ≤ B) → eps ≤ νU.real {u | pi ep row u = some a}

/-- Learning rates that decrease slowly. -/
structure Slow (lr : ℕ → ℝ) : Prop where
  nonneg : ∀ t, 0 ≤ lr t
  le : ∀ t, lr t ≤ 1
  squares : Summable fun t => lr t ^ 2
  infinite : ¬ Summable lr
  slow : ∃ C, ∀ t, lr t ≤ C * lr (t + 1)

/-! ### One path -/

variable [DecidableEq σ]

section path

variable (lr : ℕ → ℝ) (L : LossFn) (updateRule : QFn (σ → Fin n → ℝ) σ (List ℝ) → QFn (σ → Fin n → ℝ) σ (List ℝ) → TBatch σ (List ℝ) → Except Err (List ℝ)) (type1 : Bool)

/-- What a step does if it does not raise. -/
noncomputable def Play.move (pi : ℕ → (Fin n → ℝ) → U → Option (Fin n)) (env : Game σ n V) (x : Play σ n) (w : U × V) : Play σ n :=
  match Play.step lr L updateRule type1 pi env x w with
  | .ok y => y
  | .error _ => x

/-- The states of the loop. -/
noncomputable def Play.path (pi : ℕ → (Fin n → ℝ) → U → Option (Fin n)) (env : Game σ n V) (x0 : Play σ n) (ws : ℕ → U × V) : ℕ → Play σ n
  | 0 => x0
  | t + 1 => Play.move lr L updateRule type1 pi env (Play.path pi env x0 ws t) (ws t)

/-- The step that is given to the tracer. -/
def Play.traced (A : ℕ → (Fin n → ℝ) → U → Fin n) (env : Game σ n V) (x : Play σ n) (w : U × V) : Step σ (Fin n) ℝ :=
  ⟨x.s, A x.ep (x.q x.s) w.1, (env.step x.s (A x.ep (x.q x.s) w.1) w.2).2.1, 0, 1⟩

/-- Whether the episode ends. -/
def Play.over (A : ℕ → (Fin n → ℝ) → U → Fin n) (env : Game σ n V) (x : Play σ n) (w : U × V) : Bool := (env.step x.s (A x.ep (x.q x.s) w.1) w.2).2.2

theorem Play.step_eq {pi : ℕ → (Fin n → ℝ) → U → Option (Fin n)} {A : ℕ → (Fin n → ℝ) → U → Fin n} (hA : ∀ ep row u, pi ep row u = some (A ep row u)) (env : Game σ n V) (x : Play σ n) (w : U × V) :
    Play.step lr L updateRule type1 pi env x w = match onlineS lr L updateRule type1 (x.tracer, x.q, x.updates) [(x.traced A env w, x.over A env w)] with
      | .error e => .error e
      | .ok (tracer, q, updates) => .ok ⟨if x.over A env w then x.ep + 1 else x.ep, if x.over A env w then env.reset w.2 else (env.step x.s (A x.ep (x.q x.s) w.1) w.2).1, tracer, q, updates⟩ := by
  unfold Play.step
  rw [hA]
  rfl

theorem Play.run_append {pi : ℕ → (Fin n → ℝ) → U → Option (Fin n)} {env : Game σ n V} {x y : Play σ n} {ws : List (U × V)} (h : Play.run lr L updateRule type1 pi env x ws = .ok y) (w : U × V) :
    Play.run lr L updateRule type1 pi env x (ws ++ [w]) = Play.step lr L updateRule type1 pi env y w := by
  induction ws generalizing x with
  | nil =>
    cases h
    simp only [List.nil_append, Play.run]
    split <;> simp_all
  | cons w' ws ih =>
    rw [Play.run] at h
    rw [List.cons_append, Play.run]
    split at h
    · cases h
    · exact ih h

variable {updateRule type1}

theorem Play.path_ok {P : ℝ → ℝ → Prop} {gamma : ℝ} (hr : Updates (σ := σ) updateRule type1 gamma P) (h0 : 0 ≤ gamma) (h1 : gamma ≤ 1) {pi : ℕ → (Fin n → ℝ) → U → Option (Fin n)} {A : ℕ → (Fin n → ℝ) → U → Fin n}
    (hA : ∀ ep row u, pi ep row u = some (A ep row u)) (env : Game σ n V) (s0 : σ) (θ0 : σ → Fin n → ℝ) (ws : ℕ → U × V) (k : ℕ) :
    (onlineS lr mse1 updateRule type1 (NStep.init 1 gamma false, θ0, 0)
        ((List.range k).map fun t => ((Play.path lr mse1 updateRule type1 pi env (Play.init gamma s0 θ0) ws t).traced A env (ws t), (Play.path lr mse1 updateRule type1 pi env (Play.init gamma s0 θ0) ws t).over A env (ws t))) =
      .ok ((Play.path lr mse1 updateRule type1 pi env (Play.init gamma s0 θ0) ws k).tracer, (Play.path lr mse1 updateRule type1 pi env (Play.init gamma s0 θ0) ws k).q,
        (Play.path lr mse1 updateRule type1 pi env (Play.init gamma s0 θ0) ws k).updates)) ∧
    Play.step lr mse1 updateRule type1 pi env (Play.path lr mse1 updateRule type1 pi env (Play.init gamma s0 θ0) ws k) (ws k) = .ok (Play.path lr mse1 updateRule type1 pi env (Play.init gamma s0 θ0) ws (k + 1)) ∧
    ∀ R B, (∀ t, 0 ≤ lr t) → (∀ t, lr t ≤ 1) → (∀ s a v, |(env.step s a v).2.1| ≤ R) → P R B → (∀ s a, |θ0 s a| ≤ B) →
      ∀ s a, |(Play.path lr mse1 updateRule type1 pi env (Play.init gamma s0 θ0) ws k).q s a| ≤ B := by
  set X := Play.path lr mse1 updateRule type1 pi env (Play.init gamma s0 θ0) ws with hX
  let xs : ℕ → Step σ (Fin n) ℝ := fun t => (X t).traced A env (ws t)
  let dn : ℕ → Bool := fun t => (X t).over A env (ws t)
  choose F hF1 hF2 using fun j θ => hr (lr j) (xs j) (xs (j + 1)) (dn j) rfl θ
  let θ : ℕ → σ → Fin n → ℝ := fun j => Nat.rec θ0 (fun j θ => F j θ) j
  have main := onlineS_learn (dn := dn) (xs := xs) (θ := θ) h0 h1 (fun t => le_rfl) (fun t => zero_lt_one) rfl (fun j => hF1 j (θ j))
  set st : ℕ → NStep σ (Fin n) ℝ × (σ → Fin n → ℝ) × ℕ := fun k => match k with
        | 0 => (tracerWith gamma [] false, θ 0, 0)
        | j + 1 => if dn j then (tracerWith gamma [] true, θ (j + 1), j + 1) else (tracerWith gamma [xs j] false, θ j, j) with hst
  have hstep : ∀ k, onlineS lr mse1 updateRule type1 (st k) [(xs k, dn k)] = .ok (st (k + 1)) := by
    intro k
    have := main (k + 1)
    rw [List.range_succ, List.map_append, onlineS_append (main k)] at this
    exact this
  have next : ∀ k, ((X k).tracer, (X k).q, (X k).updates) = st k → Play.step lr mse1 updateRule type1 pi env (X k) (ws k) = .ok (X (k + 1)) ∧ ((X (k + 1)).tracer, (X (k + 1)).q, (X (k + 1)).updates) = st (k + 1) := by
    intro k hk
    have h2 := Play.step_eq lr mse1 updateRule type1 hA env (X k) (ws k)
    rw [hk, show onlineS lr mse1 updateRule type1 (st k) [((X k).traced A env (ws k), (X k).over A env (ws k))] = _ from hstep k] at h2
    have h3 : X (k + 1) = Play.move lr mse1 updateRule type1 pi env (X k) (ws k) := rfl
    rw [Play.move, h2] at h3
    rw [h2, h3]
    exact ⟨rfl, rfl⟩
  have same : ∀ k, ((X k).tracer, (X k).q, (X k).updates) = st k := by
    intro k
    induction k with
    | zero =>
      show (NStep.init 1 gamma false, θ0, 0) = (tracerWith gamma [] false, θ0, 0)
      simp [NStep.init, NStep.reset, tracerWith]
    | succ k ih => exact (next k ih).2
  refine ⟨?_, (next k (same k)).1, ?_⟩
  · rw [same k]
    exact main k
  · intro R B l0 l1 hR hB hθ0 s a
    have hθ : ∀ j s a, |θ j s a| ≤ B := by
      intro j
      induction j with
      | zero => exact hθ0
      | succ j ih => exact hF2 j (θ j) R B (l0 j) (l1 j) (hR _ _ _) hB ih
    have hq : (X k).q = (st k).2.1 := by rw [← same k]
    rw [hq]
    cases k with
    | zero => exact hθ 0 s a
    | succ j =>
      simp only [hst]
      split
      · exact hθ (j + 1) s a
      · exact hθ j s a

end path

/-! ### What is known when -/

/-- The next state of the loop as a function of the action and the outcome. -/
noncomputable def Play.after (lr : ℕ → ℝ) (L : LossFn) (updateRule : QFn (σ → Fin n → ℝ) σ (List ℝ) → QFn (σ → Fin n → ℝ) σ (List ℝ) → TBatch σ (List ℝ) → Except Err (List ℝ)) (type1 : Bool) (e : Mdp σ n m) (x : Play σ n) (a : Fin n) (j : Fin m) :
    Play σ n :=
  match onlineS lr L updateRule type1 (x.tracer, x.q, x.updates) [(⟨x.s, a, e.reward x.s a j, 0, 1⟩, e.ends x.s a j)] with
  | .error _ => x
  | .ok (tracer, q, updates) => ⟨if e.ends x.s a j then x.ep + 1 else x.ep, e.next x.s a j, tracer, q, updates⟩

theorem Play.move_eq [MeasurableSpace V] {lr : ℕ → ℝ} {L : LossFn} {updateRule} {type1 : Bool} {pi : ℕ → (Fin n → ℝ) → U → Option (Fin n)} {A : ℕ → (Fin n → ℝ) → U → Fin n} (hA : ∀ ep row u, pi ep row u = some (A ep row u)) {env : Game σ n V}
    {νV : Measure V} {e : Mdp σ n m} {chance : σ → Fin n → V → Fin m} (hg : env.Is νV e chance) (x : Play σ n) (w : U × V) :
    Play.move lr L updateRule type1 pi env x w = Play.after lr L updateRule type1 e x (A x.ep (x.q x.s) w.1) (chance x.s (A x.ep (x.q x.s) w.1) w.2) := by
  unfold Play.move Play.after
  rw [Play.step_eq lr L updateRule type1 hA]
  have e1 : x.traced A env w = ⟨x.s, A x.ep (x.q x.s) w.1, e.reward x.s (A x.ep (x.q x.s) w.1) (chance x.s (A x.ep (x.q x.s) w.1) w.2), 0, 1⟩ := by
    rw [← hg.reward]; rfl
  have e2 : x.over A env w = e.ends x.s (A x.ep (x.q x.s) w.1) (chance x.s (A x.ep (x.q x.s) w.1) w.2) := hg.ends _ _ _
  have e3 := hg.next x.s (A x.ep (x.q x.s) w.1) w.2
  rw [show (env.step x.s (A x.ep (x.q x.s) w.1) w.2).2.2 = x.over A env w from rfl] at e3
  rw [e1, e3, e2]
  split
  · rename_i h; split at h
    · cases h
    · cases h; rfl
  · rename_i h; split at h
    · rfl
    · cases h

section known

variable [MeasurableSpace U] [MeasurableSpace V] {μ : Measure Ω} {ℋ : Filtration ℕ m0} {νU : Measure U} {νV : Measure V} {u : ℕ → Ω → U} {v : ℕ → Ω → V} {lr : ℕ → ℝ} {L : LossFn}
  {updateRule : QFn (σ → Fin n → ℝ) σ (List ℝ) → QFn (σ → Fin n → ℝ) σ (List ℝ) → TBatch σ (List ℝ) → Except Err (List ℝ)} {type1 : Bool} {pi : ℕ → (Fin n → ℝ) → U → Option (Fin n)} {A : ℕ → (Fin n → ℝ) → U → Fin n}
  {env : Game σ n V} {e : Mdp σ n m} {chance : σ → Fin n → V → Fin m} {x0 : Play σ n}

omit [DecidableEq σ] in
theorem knows_action (hv : Variates μ ℋ νU νV u v) (hA : ∀ ep row u, pi ep row u = some (A ep row u)) (hm : ∀ ep row a, MeasurableSet {u | pi ep row u = some a}) {X : Ω → Play σ n} {t : ℕ} (hX : Knows (ℋ (2 * t)) X) :
    Knows (ℋ (2 * t + 1)) fun ω => A (X ω).ep ((X ω).q (X ω).s) (u t ω) := by
  refine ⟨Set.to_countable _, fun a => ?_⟩
  have := hX.draw (ℋ.mono (by omega)) (hv.u_known t) (E := fun x => {u | pi x.ep (x.q x.s) u = some a}) fun x => hm _ _ _
  refine (congrArg (MeasurableSet[ℋ (2 * t + 1)]) ?_).mpr this
  ext ω
  simp [hA]

omit [DecidableEq σ] in
theorem knows_outcome (hv : Variates μ ℋ νU νV u v) (hg : env.Is νV e chance) {S : Ω → σ} {a : Ω → Fin n} {t : ℕ} (hS : Knows (ℋ (2 * t + 1)) S) (ha : Knows (ℋ (2 * t + 1)) a) : Knows (ℋ (2 * t + 2)) fun ω => chance (S ω) (a ω) (v t ω) :=
  ⟨Set.to_countable _, fun j => (hS.pair ha).draw (ℋ.mono (by omega)) (hv.v_known t) (E := fun p => {v | chance p.1 p.2 v = j}) fun p => hg.measurable _ _ _⟩

theorem Play.knows (hv : Variates μ ℋ νU νV u v) (hA : ∀ ep row u, pi ep row u = some (A ep row u)) (hm : ∀ ep row a, MeasurableSet {u | pi ep row u = some a}) (hg : env.Is νV e chance) (t : ℕ) :
    Knows (ℋ (2 * t)) fun ω => Play.path lr L updateRule type1 pi env x0 (fun t => (u t ω, v t ω)) t := by
  induction t with
  | zero => exact Knows.const _ _
  | succ t ih =>
    have ha := knows_action hv hA hm ih
    have hj := knows_outcome hv hg ((ih.map fun x => x.s).mono (ℋ.mono (by omega : 2 * t ≤ 2 * t + 1))) ha
    have h := (((ih.mono (ℋ.mono (by omega : 2 * t ≤ 2 * t + 2))).pair (ha.mono (ℋ.mono (by omega : 2 * t + 1 ≤ 2 * t + 2)))).pair hj).map fun p => Play.after lr L updateRule type1 e p.1.1 p.1.2 p.2
    refine (congrArg (Knows (ℋ (2 * (t + 1)))) (funext fun ω => ?_)).mpr h
    exact Play.move_eq hA hg _ _

end known

/-! ### Convergence -/

theorem Play.steps [MeasurableSpace U] [MeasurableSpace V] {μ : Measure Ω} [IsProbabilityMeasure μ] {ℋ : Filtration ℕ m0} {νU : Measure U} {νV : Measure V} {u : ℕ → Ω → U} {v : ℕ → Ω → V} (hv : Variates μ ℋ νU νV u v)
    {updateRule} {type1 : Bool} {gamma : ℝ} {P : ℝ → ℝ → Prop} (hr : Updates (σ := σ) updateRule type1 gamma P) {e : Mdp σ n m} {env : Game σ n V} {chance : σ → Fin n → V → Fin m} (hg : env.Is νV e chance)
    {pi : ℕ → (Fin n → ℝ) → U → Option (Fin n)} (hpi : Tries νU pi) {A : ℕ → (Fin n → ℝ) → U → Fin n} (hA : ∀ ep row u, pi ep row u = some (A ep row u)) (h0 : 0 ≤ gamma) (h1 : gamma ≤ 1) (lr : ℕ → ℝ) (s0 : σ) (θ0 : σ → Fin n → ℝ) :
    ∃ (X : ℕ → Ω → Play σ n) (xs : ℕ → Ω → Step σ (Fin n) ℝ) (out : ℕ → Ω → Fin m),
      (∀ k ω, Play.run lr mse1 updateRule type1 pi env (Play.init gamma s0 θ0) ((List.range k).map fun t => (u t ω, v t ω)) = .ok (X k ω)) ∧
      Steps e μ ℋ xs out ∧
      (∀ k ω, (xs k ω).s = (X k ω).s) ∧
      (∀ k ω, (xs (k + 1) ω).s = e.next (xs k ω).s (xs k ω).a (out k ω)) ∧
      (∀ k a, μ[Set.indicator {ω | (xs k ω).a = a} (fun _ => (1 : ℝ)) | ℋ (2 * k)] =ᵐ[μ] fun ω => νU.real {u | pi (X k ω).ep ((X k ω).q (X k ω).s) u = some a}) ∧
      (∀ k ω, onlineS lr mse1 updateRule type1 (NStep.init 1 gamma false, θ0, 0) ((List.range k).map fun t => (xs t ω, e.ends (xs t ω).s (xs t ω).a (out t ω))) = .ok ((X k ω).tracer, (X k ω).q, (X k ω).updates)) ∧
      (∀ k ω, (X (k + 1) ω).ep = if e.ends (xs k ω).s (xs k ω).a (out k ω) then (X k ω).ep + 1 else (X k ω).ep) ∧
      (∀ k ω, (xs k ω).w = 1) ∧
      (∀ k, Knows (ℋ (2 * k)) (X k)) ∧
      ∀ R B, (∀ t, 0 ≤ lr t) → (∀ t, lr t ≤ 1) → (∀ s a j, |e.reward s a j| ≤ R) → P R B → (∀ s a, |θ0 s a| ≤ B) → ∀ k ω s a, |(X k ω).q s a| ≤ B := by
  let ws : Ω → ℕ → U × V := fun ω t => (u t ω, v t ω)
  let X : ℕ → Ω → Play σ n := fun t ω => Play.path lr mse1 updateRule type1 pi env (Play.init gamma s0 θ0) (ws ω) t
  have ok := fun ω k => Play.path_ok lr hr h0 h1 hA env s0 θ0 (ws ω) k
  have hX : ∀ t, Knows (ℋ (2 * t)) (X t) := fun t => Play.knows hv hA hpi.measurable hg t
  let xs : ℕ → Ω → Step σ (Fin n) ℝ := fun t ω => (X t ω).traced A env (ws ω t)
  let out : ℕ → Ω → Fin m := fun t ω => chance (xs t ω).s (xs t ω).a (v t ω)
  have hs : ∀ t, Knows (ℋ (2 * t)) fun ω => (xs t ω).s := fun t => (hX t).map fun x => x.s
  have ha : ∀ t, Knows (ℋ (2 * t + 1)) fun ω => (xs t ω).a := fun t => knows_action hv hA hpi.measurable (hX t)
  have hs' : ∀ t, Knows (ℋ (2 * t + 1)) fun ω => (xs t ω).s := fun t => (hs t).mono (ℋ.mono (by omega))
  have ho : ∀ t, Knows (ℋ (2 * t + 2)) (out t) := fun t => knows_outcome hv hg (hs' t) (ha t)
  have hnext : ∀ t ω, (xs (t + 1) ω).s = e.next (xs t ω).s (xs t ω).a (out t ω) := by
    intro t ω
    have h2 := (ok ω t).2.1
    rw [Play.step_eq lr mse1 updateRule type1 hA] at h2
    split at h2
    · cases h2
    · have h3 := congrArg Play.s (Except.ok.inj h2)
      exact h3.symm.trans (hg.next _ _ _)
  have hends : ∀ t ω, (X t ω).over A env (ws ω t) = e.ends (xs t ω).s (xs t ω).a (out t ω) := fun t ω => hg.ends _ _ _
  have hep : ∀ t ω, (X (t + 1) ω).ep = if e.ends (xs t ω).s (xs t ω).a (out t ω) then (X t ω).ep + 1 else (X t ω).ep := by
    intro t ω
    have h2 := (ok ω t).2.1
    rw [Play.step_eq lr mse1 updateRule type1 hA] at h2
    split at h2
    · cases h2
    · have h3 := congrArg Play.ep (Except.ok.inj h2)
      rw [← hends t ω]
      exact h3.symm
  refine ⟨X, xs, out, fun k ω => ?_, {
      s_known := fun t s => (hs t).fiber s
      a_known := fun t a => (ha t).fiber a
      w_known := fun t => measurable_const
      out_known := fun t j => (ho t).fiber j
      law := fun t j => by
        have h2 := freeze (μ := μ) (ℋ.le (2 * t + 1)) ((hs' t).pair (ha t)) ((hv.v_known t).mono (ℋ.le _) le_rfl) (hv.v_new t) (hv.v_law t) (E := fun p => {v | chance p.1 p.2 v = j}) fun p => hg.measurable _ _ _
        refine h2.trans (Eventually.of_forall fun ω => ?_)
        exact hg.law _ _ _
      reward := fun t ω => hg.reward _ _ _
      next := fun t ω _ => hnext t ω
      logp := fun t ω => le_rfl
      w := fun t ω => zero_lt_one }, fun k ω => rfl, hnext, fun t a => ?_, fun k ω => ?_, hep, fun k ω => rfl, hX, fun R B l0 l1 hR hB hθ k ω => (ok ω k).2.2 R B l0 l1 (fun s a v => by rw [hg.reward]; exact hR _ _ _) hB hθ⟩
  · induction k with
    | zero => rfl
    | succ k ih =>
      rw [List.range_succ, List.map_append, List.map_singleton, Play.run_append _ _ _ _ ih]
      exact (ok ω k).2.1
  · have h2 := freeze (μ := μ) (ℋ.le (2 * t)) (hX t) ((hv.u_known t).mono (ℋ.le _) le_rfl) (hv.u_new t) (hv.u_law t) (E := fun x => {u | pi x.ep (x.q x.s) u = some a}) fun x => hpi.measurable _ _ _
    have h3 : {ω | (xs t ω).a = a} = {ω | u t ω ∈ {u | pi (X t ω).ep ((X t ω).q (X t ω).s) u = some a}} := by
      ext ω
      simp [hA, xs, Play.traced, ws]
    rw [h3]
    exact h2
  · have h4 := (ok ω k).1
    rwa [show (fun t => ((Play.path lr mse1 updateRule type1 pi env (Play.init gamma s0 θ0) (ws ω) t).traced A env (ws ω t), (Play.path lr mse1 updateRule type1 pi env (Play.init gamma s0 θ0) (ws ω) t).over A env (ws ω t))) =
        fun t => (xs t ω, e.ends (xs t ω).s (xs t ω).a (out t ω)) from funext fun t => Prod.ext rfl (hends t ω)] at h4

theorem Play.converges [Fintype σ] [MeasurableSpace U] [MeasurableSpace V] {μ : Measure Ω} [IsProbabilityMeasure μ] {ℋ : Filtration ℕ m0} {νU : Measure U} {νV : Measure V} {u : ℕ → Ω → U} {v : ℕ → Ω → V} (hv : Variates μ ℋ νU νV u v)
    {updateRule} {type1 : Bool} {boot : σ → (Fin n → ℝ) → ℝ → Prop} (hr : Rule updateRule type1 boot) (hn : 0 < n) {e : Mdp σ n m} (he : e.Proper) (hc : e.Connected) {env : Game σ n V} {chance : σ → Fin n → V → Fin m} (hg : env.Is νV e chance)
    {pi : ℕ → (Fin n → ℝ) → U → Option (Fin n)} (hpi : Tries νU pi) {gamma : ℝ} (h0 : 0 ≤ gamma) (h1 : gamma < 1) {lr : ℕ → ℝ} (hl : Slow lr) {best : σ → Fin n → ℝ} (hbest : e.Solves gamma boot best) (s0 : σ) (θ0 : σ → Fin n → ℝ) :
    ∃ X : ℕ → Ω → Play σ n, (∀ k ω, Play.run lr mse1 updateRule type1 pi env (Play.init gamma s0 θ0) ((List.range k).map fun t => (u t ω, v t ω)) = .ok (X k ω)) ∧
      ∀ᵐ ω ∂μ, ∀ s a, Tendsto (fun k => (X k ω).q s a) atTop (𝓝 (best s a)) := by
  choose A hA using hpi.answers
  obtain ⟨X, xs, out, hrun, hsteps, hs, hnext, ha, hon, hep, hw, -, hbound⟩ := Play.steps hv (hr.updates hn h0) hg hpi hA h0 h1.le lr s0 θ0
  -- bounds
  obtain ⟨R, hR⟩ := bounded fun p : σ × Fin n × Fin m => e.reward p.1 p.2.1 p.2.2
  obtain ⟨T, hT⟩ := bounded fun p : σ × Fin n => θ0 p.1 p.2
  choose val hval using hr.value
  obtain ⟨c, hcc⟩ := bounded fun s : σ => val s fun _ => 0
  obtain ⟨B, hB⟩ : ∃ B, ∀ t ω s a, |(X t ω).q s a| ≤ B := by
    have hc0 : 0 ≤ c := (abs_nonneg _).trans (hcc s0)
    have g1 : 0 < 1 - gamma := by linarith
    refine ⟨max T ((R + gamma * c) / (1 - gamma)), hbound R _ hl.nonneg hl.le (fun s a j => hR (s, a, j)) ⟨c, hc0, fun s z hz => ?_, ?_⟩ (fun s a => (hT (s, a)).trans (le_max_left _ _))⟩
    · rw [hr.unique hz (hval s _)]; exact hcc s
    · have h2 := (div_le_iff₀ g1).1 (le_max_right T ((R + gamma * c) / (1 - gamma)))
      linarith
  obtain ⟨eps, heps, hexp⟩ := hpi.explores B
  have hx : Explorer e μ ℋ xs out lr := {
    steps := hsteps
    explores := by
      refine ⟨eps, heps, fun t a => ?_⟩
      filter_upwards [ha t a] with ω h4
      rw [h4]
      exact hexp _ _ _ fun b => hB t ω _ b
    connected := hc
    reset := hnext
    schedule := ⟨hl.nonneg, fun t ω => by
      rw [hw]
      have : min (max (1 : ℝ) 0.1) 10 = 1 := by norm_num
      rw [this, mul_one]; exact hl.le t, hl.squares⟩
    infinite := hl.infinite
    slow := hl.slow }
  obtain ⟨θ, hrun', hconv⟩ := Explorer.converges hr hn he h0 h1 hx hbest θ0
  refine ⟨X, hrun, ?_⟩
  filter_upwards [hconv] with ω h2 s a
  have e1 : ∀ k, (X k ω).q = θ k ω := by
    intro k
    obtain ⟨t, c, h3⟩ := hrun' k ω
    have h4 := hon k ω
    rw [h3] at h4
    exact (congrArg (fun p => p.2.1) (Except.ok.inj h4)).symm
  simp only [e1]
  exact h2 s a

/-! ### The policies -/

theorem call_measurable (draw : List (Fin n) → Option (Fin n)) (tau : ℝ) (z : Fin n → ℝ) (a : Fin n) : MeasurableSet {u : Fin n → ℝ | (policyCall draw tau u z).1 = some a} := by
  have hx : ∀ j, Measurable fun u : Fin n → ℝ => sampleRow tau u z j := by
    intro j
    unfold sampleRow Dists.softmax
    fun_prop
  have hb : Measurable fun u : Fin n → ℝ => fun k => decide (∀ j, sampleRow tau u z j ≤ sampleRow tau u z k) := by
    refine measurable_pi_lambda _ fun k => measurable_to_bool ?_
    have : (fun u : Fin n → ℝ => decide (∀ j, sampleRow tau u z j ≤ sampleRow tau u z k)) ⁻¹' {true} = ⋂ j, {u | sampleRow tau u z j ≤ sampleRow tau u z k} := by
      ext u
      simp
    rw [this]
    exact MeasurableSet.iInter fun j => measurableSet_le (hx j) (hx k)
  exact hb (Set.Countable.measurableSet (Set.to_countable {p : Fin n → Bool | draw ((List.finRange n).filter p) = some a}))

/-- An epsilon-greedy policy tries every action. -/
theorem tries_epsilon_greedy (hn : 0 < n) {draw : List (Fin n) → Option (Fin n)} (hd : Draws draw) {tau : ℝ} (htau : 0 < tau) {epsilon : ℕ → ℝ} (h0 : ∀ ep, 0 ≤ epsilon ep) (h1 : ∀ ep, epsilon ep ≤ 1) :
    Tries (uniforms n) (epsilonGreedyPi draw tau epsilon) where
  answers ep row u := by
    obtain ⟨a, ha, -⟩ := (C49_sample hd hn htau u (epsilonGreedyLogits (epsilon ep) row)).2.2
    exact ⟨a, ha⟩
  measurable ep row a := call_measurable draw tau _ a
  explores B := by
    refine ⟨1e-15 / (1 + n * 1e-15), by positivity, fun ep row a _ => ?_⟩
    unfold epsilonGreedyPi
    have h2 : 0 ≤ epsilonGreedy (epsilon ep) row a := by
      unfold epsilonGreedy
      have h3 := h0 ep
      have h4 : 0 ≤ 1 - epsilon ep := by linarith [h1 ep]
      split <;> positivity
    rw [Measure.real, C52_sampled hd htau (h0 ep) (h1 ep), ENNReal.toReal_ofReal (by positivity)]
    refine div_le_div_of_nonneg_right ?_ (by positivity)
    linarith

/-- A Boltzmann policy tries every action if the temperatures are bounded below. -/
theorem tries_boltzmann (hn : 0 < n) {draw : List (Fin n) → Option (Fin n)} (hd : Draws draw) {tau : ℝ} (htau : 0 < tau) {temperature : ℕ → ℝ} {τ : ℝ} (hτ : 0 < τ) (h : ∀ ep, τ ≤ temperature ep) : Tries (uniforms n) (boltzmannPi draw tau temperature) where
  answers ep row u := by
    obtain ⟨a, ha, -⟩ := (C49_sample hd hn htau u (boltzmannLogits (temperature ep) row)).2.2
    exact ⟨a, ha⟩
  measurable ep row a := call_measurable draw tau _ a
  explores B := by
    refine ⟨1 / n * Real.exp (-(2 * |B| / τ)), by positivity, fun ep row a hB => ?_⟩
    unfold boltzmannPi
    rw [Measure.real, show uniforms n {u | (policyCall draw tau u (boltzmannLogits (temperature ep) row)).1 = some a} = _ from C62_sample_distribution hd htau _ a,
      ENNReal.toReal_ofReal ((C49_probabilities _).1 a).le]
    have ht : 0 < temperature ep := hτ.trans_le (h ep)
    refine le_trans ?_ ((C53_limits ht row a).2 (2 * |B|) fun b => ?_)
    · refine mul_le_mul_of_nonneg_left (Real.exp_le_exp.2 (neg_le_neg ?_)) (by positivity)
      exact div_le_div_of_nonneg_left (by positivity) hτ (h ep)
    · have g1 := (abs_le.1 (hB b)).2
      have g2 := (abs_le.1 (hB a)).1
      have g3 := le_abs_self B
      linarith

/-! ### The properties -/

/-- Once the values are close enough, the modes of the policies are optimal. -/
theorem Play.eventually_optimal [Fintype σ] {e : Mdp σ n m} (he : e.Proper) (hn : 0 < n) {gamma : ℝ} (h0 : 0 ≤ gamma) (h1 : gamma < 1) {best : σ → Fin n → ℝ} (hbest : e.Solves gamma Greedy best) {X : ℕ → Play σ n}
    (hX : ∀ s a, Tendsto (fun k => (X k).q s a) atTop (𝓝 (best s a))) {draw : List (Fin n) → Option (Fin n)} (hd : Draws draw) {tau ε τ : ℝ} (htau : 0 < tau) (hε0 : 0 ≤ ε) (hε1 : ε < 1) (hτ : 0 < τ) :
    ∃ K, ∀ k, K ≤ k → ∀ s, ∃ x, e.Worth gamma 0 (always fun s => policyMode draw tau (epsilonGreedyLogits ε ((X k).q s))) s x ∧ e.Worth gamma 0 (always fun s => policyMode draw tau (boltzmannLogits τ ((X k).q s))) s x ∧
        ∀ (pi : Policy σ n m) y, pi.Proper → e.Worth gamma 0 pi s y → y ≤ x := by
  obtain ⟨v, hv, hu, ho⟩ := C121_optimal he h0 h1 hbest
  obtain ⟨K, hK⟩ := C104_greedy_policy hX
  refine ⟨K, fun k hk s => ?_⟩
  have key : ∀ f : σ → Option (Fin n), (∀ s, ∃ a, f s = some a ∧ ∀ j, (X k).q s j ≤ (X k).q s a) → e.Worth gamma 0 (always f) s (v s) := by
    intro f hf
    refine ho _ (always_proper fun s => (hf s).imp fun a h => h.1) (fun h s a ha => ?_) s
    obtain ⟨b, hb, hmax⟩ := hf s
    have : f s = some a := by
      by_contra hne
      simp [always, hne] at ha
    rw [hb] at this
    cases this
    exact hK k hk s _ hmax
  exact ⟨v s, key _ fun s => C52_mode hd hn htau hε0 hε1 _, key _ fun s => C53_mode hd hn htau hτ _, fun pi y hpi hy => hu pi s y hpi hy⟩

/-- **C131**, the loop of `doc/examples/stubs/qlearning.py` with a table: actions are drawn from the epsilon-greedy policy on the values that have been learned so far, with any schedule of `epsilon`, and outcomes by an environment that is connected.  Nothing
raises.  Almost surely the values converge to the solution of the Bellman equation, from some step on the modes of the policy are optimal, and the policy that acts is worth as much as any other, up to what it explores. -/
theorem C131_epsilon_greedy [Fintype σ] [MeasurableSpace V] (hn : 0 < n) {e : Mdp σ n m} (he : e.Proper) (hc : e.Connected) {gamma : ℝ} (h0 : 0 ≤ gamma) (h1 : gamma < 1) {νV : Measure V} {env : Game σ n V} {chance : σ → Fin n → V → Fin m}
    (hg : env.Is νV e chance) {lr : ℕ → ℝ} (hl : Slow lr) {draw : List (Fin n) → Option (Fin n)} (hd : Draws draw) {tau : ℝ} (htau : 0 < tau) {epsilon : ℕ → ℝ} (hε0 : ∀ ep, 0 ≤ epsilon ep) (hε1 : ∀ ep, epsilon ep ≤ 1)
    {μ : Measure Ω} [IsProbabilityMeasure μ] {ℋ : Filtration ℕ m0} {u : ℕ → Ω → Fin n → ℝ} {v : ℕ → Ω → V} (hv : Variates μ ℋ (uniforms n) νV u v) (type1 : Bool) (s0 : σ) (θ0 : σ → Fin n → ℝ) :
    ∃ best, e.Solves gamma Greedy best ∧ ∃ X : ℕ → Ω → Play σ n,
      (∀ k ω, Play.run lr mse1 (qLearning n) type1 (epsilonGreedyPi draw tau epsilon) env (Play.init gamma s0 θ0) ((List.range k).map fun t => (u t ω, v t ω)) = .ok (X k ω)) ∧
      ∀ᵐ ω ∂μ, (∀ s a, Tendsto (fun k => (X k ω).q s a) atTop (𝓝 (best s a))) ∧
        (∀ ε, 0 ≤ ε → ε < 1 → ∃ K, ∀ k, K ≤ k → ∀ s, ∃ x, e.Worth gamma 0 (always fun s => policyMode draw tau (epsilonGreedyLogits ε ((X k ω).q s))) s x ∧
          ∀ (pi : Policy σ n m) y, pi.Proper → e.Worth gamma 0 pi s y → y ≤ x) ∧
        ∀ δ w, 0 < δ → (∀ s a b, best s a - best s b ≤ w) → ∃ K, ∀ k, K ≤ k → ∀ s, ∃ x, e.Worth gamma 0 (calls draw tau fun s => epsilonGreedyLogits (epsilon (X k ω).ep) ((X k ω).q s)) s x ∧
          ∀ (pi : Policy σ n m) y, pi.Proper → e.Worth gamma 0 pi s y → y ≤ x + (2 * δ + (epsilon (X k ω).ep + n * 1e-15) * w) / (1 - gamma) := by
  obtain ⟨best, hbest, -⟩ := mdp_solution (rule_qLearning (σ := σ) hn false) he h0 h1
  obtain ⟨X, hrun, hconv⟩ := Play.converges hv (rule_qLearning hn type1) hn he hc hg (tries_epsilon_greedy hn hd htau hε0 hε1) h0 h1 hl hbest s0 θ0
  refine ⟨best, hbest, X, hrun, ?_⟩
  filter_upwards [hconv] with ω hω
  refine ⟨hω, fun ε g0 g1 => ?_, fun δ w hδ hw => ?_⟩
  · obtain ⟨K, hK⟩ := Play.eventually_optimal he hn h0 h1 hbest hω hd htau g0 g1 zero_lt_one
    exact ⟨K, fun k hk s => (hK k hk s).imp fun x h => ⟨h.1, h.2.2⟩⟩
  · have hclose : ∀ᶠ k in atTop, ∀ s a, |(X k ω).q s a - best s a| ≤ δ := by
      refine eventually_all.2 fun s => eventually_all.2 fun a => ?_
      filter_upwards [Metric.tendsto_nhds.1 (hω s a) δ hδ] with k hk
      exact hk.le
    obtain ⟨K, hK⟩ := eventually_atTop.1 hclose
    exact ⟨K, fun k hk s => C121_epsilon_loss he hn h0 h1 hbest (hε0 _) (hε1 _) (hK k hk) hw hd htau s⟩

/-- **C131**, the loop of `doc/examples/frozen_lake/qlearning.py` with a table: actions are drawn from the Boltzmann policy on the values that have been learned so far.  The temperatures need only be bounded below. -/
theorem C131_boltzmann [Fintype σ] [MeasurableSpace V] (hn : 0 < n) {e : Mdp σ n m} (he : e.Proper) (hc : e.Connected) {gamma : ℝ} (h0 : 0 ≤ gamma) (h1 : gamma < 1) {νV : Measure V} {env : Game σ n V} {chance : σ → Fin n → V → Fin m}
    (hg : env.Is νV e chance) {lr : ℕ → ℝ} (hl : Slow lr) {draw : List (Fin n) → Option (Fin n)} (hd : Draws draw) {tau : ℝ} (htau : 0 < tau) {temperature : ℕ → ℝ} {τ : ℝ} (hτ : 0 < τ) (ht : ∀ ep, τ ≤ temperature ep)
    {μ : Measure Ω} [IsProbabilityMeasure μ] {ℋ : Filtration ℕ m0} {u : ℕ → Ω → Fin n → ℝ} {v : ℕ → Ω → V} (hv : Variates μ ℋ (uniforms n) νV u v) (type1 : Bool) (s0 : σ) (θ0 : σ → Fin n → ℝ) :
    ∃ best, e.Solves gamma Greedy best ∧ ∃ X : ℕ → Ω → Play σ n,
      (∀ k ω, Play.run lr mse1 (qLearning n) type1 (boltzmannPi draw tau temperature) env (Play.init gamma s0 θ0) ((List.range k).map fun t => (u t ω, v t ω)) = .ok (X k ω)) ∧
      ∀ᵐ ω ∂μ, (∀ s a, Tendsto (fun k => (X k ω).q s a) atTop (𝓝 (best s a))) ∧
        ∀ τ', 0 < τ' → ∃ K, ∀ k, K ≤ k → ∀ s, ∃ x, e.Worth gamma 0 (always fun s => policyMode draw tau (boltzmannLogits τ' ((X k ω).q s))) s x ∧ ∀ (pi : Policy σ n m) y, pi.Proper → e.Worth gamma 0 pi s y → y ≤ x := by
  obtain ⟨best, hbest, -⟩ := mdp_solution (rule_qLearning (σ := σ) hn false) he h0 h1
  obtain ⟨X, hrun, hconv⟩ := Play.converges hv (rule_qLearning hn type1) hn he hc hg (tries_boltzmann hn hd htau hτ ht) h0 h1 hl hbest s0 θ0
  refine ⟨best, hbest, X, hrun, ?_⟩
  filter_upwards [hconv] with ω hω
  refine ⟨hω, fun τ' g0 => ?_⟩
  obtain ⟨K, hK⟩ := Play.eventually_optimal (ε := 0) he hn h0 h1 hbest hω hd htau le_rfl zero_lt_one g0
  exact ⟨K, fun k hk s => (hK k hk s).imp fun x h => ⟨h.2.1, h.2.2⟩⟩

/-- **C131**, the loop of `doc/examples/stubs/soft_qlearning.py` with a table: `SoftQLearning` with actions from the Boltzmann policy on the values that have been learned so far.  The values converge to those of which the Boltzmann policy with
the temperature of the updater has the largest entropy-regularized worth. -/
theorem C131_soft_q_learning [Fintype σ] [MeasurableSpace V] (hn : 0 < n) {e : Mdp σ n m} (he : e.Proper) (hc : e.Connected) {gamma : ℝ} (h0 : 0 ≤ gamma) (h1 : gamma < 1) {temp : ℝ} (htemp : 0 < temp) {νV : Measure V} {env : Game σ n V}
    {chance : σ → Fin n → V → Fin m} (hg : env.Is νV e chance) {lr : ℕ → ℝ} (hl : Slow lr) {draw : List (Fin n) → Option (Fin n)} (hd : Draws draw) {tau : ℝ} (htau : 0 < tau) {temperature : ℕ → ℝ} {τ : ℝ} (hτ : 0 < τ) (ht : ∀ ep, τ ≤ temperature ep)
    {μ : Measure Ω} [IsProbabilityMeasure μ] {ℋ : Filtration ℕ m0} {u : ℕ → Ω → Fin n → ℝ} {v : ℕ → Ω → V} (hv : Variates μ ℋ (uniforms n) νV u v) (type1 : Bool) (s0 : σ) (θ0 : σ → Fin n → ℝ) :
    ∃ best, e.Solves gamma (Soft temp) best ∧ ∃ X : ℕ → Ω → Play σ n,
      (∀ k ω, Play.run lr mse1 (fun q qTarg => softQLearning n temp q qTarg) type1 (boltzmannPi draw tau temperature) env (Play.init gamma s0 θ0) ((List.range k).map fun t => (u t ω, v t ω)) = .ok (X k ω)) ∧
      (∀ᵐ ω ∂μ, ∀ s a, Tendsto (fun k => (X k ω).q s a) atTop (𝓝 (best s a))) ∧
      ∀ s, ∃ x, e.Worth gamma temp (calls draw tau fun s => boltzmannLogits temp (best s)) s x ∧ ∀ (pi : Policy σ n m) y, pi.Proper → e.Worth gamma temp pi s y → y ≤ x := by
  obtain ⟨best, hbest, -⟩ := mdp_solution (rule_softQLearning (σ := σ) hn false htemp) he h0 h1
  obtain ⟨X, hrun, hconv⟩ := Play.converges hv (rule_softQLearning hn type1 htemp) hn he hc hg (tries_boltzmann hn hd htau hτ ht) h0 h1 hl hbest s0 θ0
  exact ⟨best, hbest, X, hrun, hconv, fun s => (C121_soft_optimal he hn h0 h1 htemp hbest hd htau s).imp fun x h => h.2⟩

omit [DecidableEq σ] in
/-- **C131**, such random numbers exist, whatever their laws. -/
theorem C131_variates {U V : Type} [MeasurableSpace U] [MeasurableSpace V] (νU : Measure U) [IsProbabilityMeasure νU] (νV : Measure V) [IsProbabilityMeasure νV] :
    ∃ (ℋ : Filtration ℕ (MeasurableSpace.pi : MeasurableSpace (ℕ → U × V))) (u : ℕ → (ℕ → U × V) → U) (v : ℕ → (ℕ → U × V) → V), Variates (Measure.infinitePi fun _ : ℕ => νU.prod νV) ℋ νU νV u v := by
  let coord : ℕ → MeasurableSpace (ℕ → U × V) := fun i => MeasurableSpace.comap (fun ω => ω i) inferInstance
  have hle : ∀ i, coord i ≤ MeasurableSpace.pi := fun i => (measurable_pi_apply i).comap_le
  let ℋ : Filtration ℕ (MeasurableSpace.pi : MeasurableSpace (ℕ → U × V)) := ⟨fun k => ⨆ i ∈ Set.Iic k, coord i, fun a b h => biSup_mono fun i (hi : i ≤ a) => hi.trans h, fun k => iSup₂_le fun i _ => hle i⟩
  have hind : ProbabilityTheory.iIndep coord (Measure.infinitePi fun _ : ℕ => νU.prod νV) :=
    ProbabilityTheory.iIndepFun_infinitePi (P := fun _ : ℕ => νU.prod νV) (X := fun _ x => x) fun _ => measurable_id
  have hnew : ∀ k, ProbabilityTheory.Indep (coord (k + 1)) (ℋ k) (Measure.infinitePi fun _ : ℕ => νU.prod νV) := by
    intro k
    have := ProbabilityTheory.indep_iSup_of_disjoint hle hind (S := {k + 1}) (T := Set.Iic k) (by rw [Set.disjoint_singleton_left]; simp)
    rwa [iSup_singleton] at this
  have hmeas : ∀ k, Measurable[ℋ k] fun ω : ℕ → U × V => ω k := fun k => Measurable.of_comap_le (le_biSup coord (Set.mem_Iic.2 le_rfl))
  refine ⟨ℋ, fun t ω => (ω (2 * t + 1)).1, fun t ω => (ω (2 * t + 2)).2, ⟨fun t => (hmeas _).fst, fun t => (hmeas _).snd, fun t => ?_, fun t => ?_, fun t => ?_, fun t => ?_⟩⟩
  · refine ProbabilityTheory.indep_of_indep_of_le_left (hnew (2 * t)) ?_
    exact Measurable.comap_le (m₁ := coord (2 * t + 1)) (Measurable.fst (Measurable.of_comap_le le_rfl))
  · refine ProbabilityTheory.indep_of_indep_of_le_left (hnew (2 * t + 1)) ?_
    exact Measurable.comap_le (m₁ := coord (2 * t + 1 + 1)) (Measurable.snd (Measurable.of_comap_le le_rfl))
  · have h := Measure.infinitePi_map_eval (fun _ : ℕ => νU.prod νV) (2 * t + 1)
    rw [show (fun ω : ℕ → U × V => (ω (2 * t + 1)).1) = Prod.fst ∘ (fun ω => ω (2 * t + 1)) from rfl, ← Measure.map_map measurable_fst (measurable_pi_apply _), h, Measure.map_fst_prod]
    simp
  · have h := Measure.infinitePi_map_eval (fun _ : ℕ => νU.prod νV) (2 * t + 2)
    rw [show (fun ω : ℕ → U × V => (ω (2 * t + 2)).2) = Prod.snd ∘ (fun ω => ω (2 * t + 2)) from rfl, ← Measure.map_map measurable_snd (measurable_pi_apply _), h, Measure.map_snd_prod]
    simp

/-- **C131**, what happens in the loop: its actions and outcomes are steps in the environment, where the action has the probabilities of the policy for the episode and the values of that time; the tracer and the updater get these steps; and
an episode is counted when it ends. -/
theorem C131_trajectory [MeasurableSpace V] (hn : 0 < n) {e : Mdp σ n m} {gamma : ℝ} (h0 : 0 ≤ gamma) (h1 : gamma ≤ 1) {νV : Measure V} {env : Game σ n V} {chance : σ → Fin n → V → Fin m} (hg : env.Is νV e chance) (lr : ℕ → ℝ)
    {draw : List (Fin n) → Option (Fin n)} (hd : Draws draw) {tau : ℝ} (htau : 0 < tau) {epsilon : ℕ → ℝ} (hε0 : ∀ ep, 0 ≤ epsilon ep) (hε1 : ∀ ep, epsilon ep ≤ 1)
    {μ : Measure Ω} [IsProbabilityMeasure μ] {ℋ : Filtration ℕ m0} {u : ℕ → Ω → Fin n → ℝ} {v : ℕ → Ω → V} (hv : Variates μ ℋ (uniforms n) νV u v) (type1 : Bool) (s0 : σ) (θ0 : σ → Fin n → ℝ) :
    ∃ (X : ℕ → Ω → Play σ n) (xs : ℕ → Ω → Step σ (Fin n) ℝ) (out : ℕ → Ω → Fin m),
      (∀ k ω, Play.run lr mse1 (qLearning n) type1 (epsilonGreedyPi draw tau epsilon) env (Play.init gamma s0 θ0) ((List.range k).map fun t => (u t ω, v t ω)) = .ok (X k ω)) ∧
      Steps e μ ℋ xs out ∧
      (∀ ω, (xs 0 ω).s = s0 ∧ (X 0 ω).ep = 0) ∧
      (∀ k ω, (xs (k + 1) ω).s = e.next (xs k ω).s (xs k ω).a (out k ω)) ∧
      (∀ k a, μ[Set.indicator {ω | (xs k ω).a = a} (fun _ => (1 : ℝ)) | ℋ (2 * k)] =ᵐ[μ] fun ω => (epsilonGreedy (epsilon (X k ω).ep) ((X k ω).q (xs k ω).s) a + 1e-15) / (1 + n * 1e-15)) ∧
      (∀ k ω, onlineS lr mse1 (qLearning n) type1 (NStep.init 1 gamma false, θ0, 0) ((List.range k).map fun t => (xs t ω, e.ends (xs t ω).s (xs t ω).a (out t ω))) = .ok ((X k ω).tracer, (X k ω).q, (X k ω).updates)) ∧
      ∀ k ω, (X (k + 1) ω).ep = if e.ends (xs k ω).s (xs k ω).a (out k ω) then (X k ω).ep + 1 else (X k ω).ep := by
  have hpi := tries_epsilon_greedy hn hd htau hε0 hε1
  choose A hA using hpi.answers
  obtain ⟨X, xs, out, hrun, hsteps, hs, hnext, ha, hon, hep, -⟩ := Play.steps hv ((rule_qLearning hn type1).updates hn h0) hg hpi hA h0 h1 lr s0 θ0
  refine ⟨X, xs, out, hrun, hsteps, fun ω => ?_, hnext, fun k a => ?_, hon, hep⟩
  · have := Except.ok.inj (hrun 0 ω)
    rw [hs, ← this]
    exact ⟨rfl, rfl⟩
  · refine (ha k a).trans (Eventually.of_forall fun ω => ?_)
    show (uniforms n).real {u | (policyCall draw tau u (epsilonGreedyLogits (epsilon (X k ω).ep) ((X k ω).q (X k ω).s))).1 = some a} = _
    have h2 : 0 ≤ epsilonGreedy (epsilon (X k ω).ep) ((X k ω).q (X k ω).s) a := by
      unfold epsilonGreedy
      have h3 := hε0 (X k ω).ep
      have h4 : 0 ≤ 1 - epsilon (X k ω).ep := by linarith [hε1 (X k ω).ep]
      split <;> positivity
    rw [Measure.real, C52_sampled hd htau (hε0 _) (hε1 _), ENNReal.toReal_ofReal (by positivity), ← hs]

/-! ### A case -/

/-- An environment for the decision process `gamble`, with a coin. -/
noncomputable def gambleEnv : Game Unit 2 Bool where
  step := fun _ a coin => ((), if a = 0 then (if coin then 1 else 0) else 1 / 4, a == 0 && coin)
  reset := fun _ => ()

theorem gambleEnv_is : gambleEnv.Is (PMF.uniformOfFintype Bool).toMeasure gamble (fun _ _ coin => if coin then 0 else 1) where
  measurable _ _ _ := Set.Countable.measurableSet (Set.to_countable _)
  law _ a j := by
    have : {v : Bool | (if v then (0 : Fin 2) else 1) = j} = {j == 0} := by
      ext v
      fin_cases j <;> cases v <;> simp
    rw [this, Measure.real, coin_real]
    simp [gamble]
  reward _ a v := by
    by_cases h : v = true <;> simp [gambleEnv, gamble, h]
  ends _ a v := by
    by_cases h : v = true <;> simp [gambleEnv, gamble, h]
  next _ a v := rfl

/-- Learning rates `1 / (t + 1)`. -/
theorem slow_harmonic : Slow fun t => 1 / ((t : ℝ) + 1) where
  nonneg t := by positivity
  le t := by rw [div_le_one (by positivity)]; linarith [Nat.cast_nonneg (α := ℝ) t]
  squares := by
    have := (summable_nat_add_iff 1).2 (Real.summable_one_div_nat_pow.2 (show 1 < 2 by norm_num))
    refine this.congr fun t => ?_
    rw [div_pow, one_pow]
    push_cast
    rfl
  infinite h := by
    refine Real.not_summable_one_div_natCast ((summable_nat_add_iff 1).1 (h.congr fun t => ?_))
    push_cast
    rfl
  slow := ⟨2, fun t => by
    have : (0 : ℝ) ≤ t := Nat.cast_nonneg t
    push_cast
    rw [div_le_iff₀ (by positivity)]
    field_simp
    linarith⟩

/-- **C131**, a case: the agent in `gamble` learns that the first action is worth 2/3 and the second 7/12. -/
theorem C131_example {draw : List (Fin 2) → Option (Fin 2)} (hd : Draws draw) (θ0 : Unit → Fin 2 → ℝ) :
    ∃ (u : ℕ → (ℕ → (Fin 2 → ℝ) × Bool) → Fin 2 → ℝ) (v : ℕ → (ℕ → (Fin 2 → ℝ) × Bool) → Bool) (X : ℕ → (ℕ → (Fin 2 → ℝ) × Bool) → Play Unit 2),
      (∀ k ω, Play.run (fun t => 1 / ((t : ℝ) + 1)) mse1 (qLearning 2) false (epsilonGreedyPi draw 1 fun ep => 1 / (ep + 1)) gambleEnv (Play.init (1 / 2) () θ0) ((List.range k).map fun t => (u t ω, v t ω)) = .ok (X k ω)) ∧
      ∀ᵐ ω ∂(Measure.infinitePi fun _ : ℕ => (uniforms 2).prod (PMF.uniformOfFintype Bool).toMeasure), Tendsto (fun k => (X k ω).q () 0) atTop (𝓝 (2 / 3)) ∧ Tendsto (fun k => (X k ω).q () 1) atTop (𝓝 (7 / 12)) := by
  obtain ⟨ℋ, u, v, hv⟩ := C131_variates (uniforms 2) (PMF.uniformOfFintype Bool).toMeasure
  obtain ⟨X, hrun, hconv⟩ := Play.converges hv (rule_qLearning (by norm_num) false) (by norm_num) gamble_proper (fun _ _ => .refl) gambleEnv_is
    (tries_epsilon_greedy (by norm_num) hd one_pos (epsilon := fun ep => 1 / (ep + 1)) (fun ep => by positivity) (fun ep => by rw [div_le_one (by positivity)]; linarith [Nat.cast_nonneg (α := ℝ) ep])) (by norm_num) (by norm_num) slow_harmonic
    gamble_solves () θ0
  refine ⟨u, v, X, hrun, ?_⟩
  filter_upwards [hconv] with ω hω
  exact ⟨by simpa using hω () 0, by simpa using hω () 1⟩

end Coax.Loop
