import Verif.Loop.Acting
import Verif.Loop.OnlineTargetProps
import Verif.Loop.ClosedProps

/-! The loop for objects with any params: its paths, and what is known when. -/

namespace Coax.Loop

open Coax.RewardTracing Coax.TD Coax.Core Coax.Values Coax.Pol Coax.Dists Filter Topology MeasureTheory

variable {Θ σ Ω U V : Type _} {n m : Nat} {m0 : MeasurableSpace Ω}

/-! ### One path -/

/-- The update with one transition of weight 1 does not raise, and keeps what holds of the params if rewards are bounded by `R`. -/
def Accepts (update : ℕ → Θ → Out σ (Fin n) ℝ → Except Err Θ) (gamma : ℝ) (P : ℝ → Θ → Prop) : Prop :=
  ∀ (k : ℕ) (x y : Step σ (Fin n) ℝ) (d : Bool), x.w = 1 → ∀ θ, ∃ θ', update k θ (rowOf gamma x y d) = .ok θ' ∧ ∀ R, |x.r| ≤ R → P R θ → P R θ'

section path

variable {update : ℕ → Θ → Out σ (Fin n) ℝ → Except Err Θ} {pi : ℕ → Θ → σ → U → Option (Fin n)} {A : ℕ → Θ → σ → U → Fin n}

/-- What a step does if it does not raise. -/
noncomputable def Acting.move (update : ℕ → Θ → Out σ (Fin n) ℝ → Except Err Θ) (pi : ℕ → Θ → σ → U → Option (Fin n)) (env : Game σ n V) (x : Acting Θ σ n) (w : U × V) : Acting Θ σ n :=
  match Acting.step update pi env x w with
  | .ok y => y
  | .error _ => x

/-- The states of the loop. -/
noncomputable def Acting.path (update : ℕ → Θ → Out σ (Fin n) ℝ → Except Err Θ) (pi : ℕ → Θ → σ → U → Option (Fin n)) (env : Game σ n V) (x0 : Acting Θ σ n) (ws : ℕ → U × V) : ℕ → Acting Θ σ n
  | 0 => x0
  | t + 1 => Acting.move update pi env (Acting.path update pi env x0 ws t) (ws t)

/-- The action. -/
def Acting.act (A : ℕ → Θ → σ → U → Fin n) (x : Acting Θ σ n) (w : U × V) : Fin n := A x.ep x.params x.s w.1

/-- The step that is given to the tracer. -/
def Acting.traced (A : ℕ → Θ → σ → U → Fin n) (env : Game σ n V) (x : Acting Θ σ n) (w : U × V) : Step σ (Fin n) ℝ := ⟨x.s, x.act A w, (env.step x.s (x.act A w) w.2).2.1, 0, 1⟩

/-- Whether the episode ends. -/
def Acting.over (A : ℕ → Θ → σ → U → Fin n) (env : Game σ n V) (x : Acting Θ σ n) (w : U × V) : Bool := (env.step x.s (x.act A w) w.2).2.2

theorem Acting.step_eq (hA : ∀ ep θ s u, pi ep θ s u = some (A ep θ s u)) (env : Game σ n V) (x : Acting Θ σ n) (w : U × V) :
    Acting.step update pi env x w = match onlineU update (x.tracer, x.params, x.updates) [(x.traced A env w, x.over A env w)] with
      | .error e => .error e
      | .ok (tracer, params, updates) => .ok ⟨if x.over A env w then x.ep + 1 else x.ep, if x.over A env w then env.reset w.2 else (env.step x.s (x.act A w) w.2).1, tracer, params, updates⟩ := by
  unfold Acting.step
  rw [hA]
  rfl

theorem Acting.run_append {env : Game σ n V} {x y : Acting Θ σ n} {ws : List (U × V)} (h : Acting.run update pi env x ws = .ok y) (w : U × V) : Acting.run update pi env x (ws ++ [w]) = Acting.step update pi env y w := by
  induction ws generalizing x with
  | nil =>
    cases h
    simp only [List.nil_append, Acting.run]
    split <;> simp_all
  | cons w' ws ih =>
    rw [Acting.run] at h
    rw [List.cons_append, Acting.run]
    split at h
    · cases h
    · exact ih h

theorem Acting.path_ok {P : ℝ → Θ → Prop} {gamma : ℝ} (hu : Accepts update gamma P) (h0 : 0 ≤ gamma) (h1 : gamma ≤ 1) (hA : ∀ ep θ s u, pi ep θ s u = some (A ep θ s u)) (env : Game σ n V) (s0 : σ) (θ0 : Θ) (ws : ℕ → U × V) (k : ℕ) :
    (onlineU update (NStep.init 1 gamma false, θ0, 0)
        ((List.range k).map fun t => ((Acting.path update pi env (Acting.init gamma s0 θ0) ws t).traced A env (ws t), (Acting.path update pi env (Acting.init gamma s0 θ0) ws t).over A env (ws t))) =
      .ok ((Acting.path update pi env (Acting.init gamma s0 θ0) ws k).tracer, (Acting.path update pi env (Acting.init gamma s0 θ0) ws k).params, (Acting.path update pi env (Acting.init gamma s0 θ0) ws k).updates)) ∧
    Acting.step update pi env (Acting.path update pi env (Acting.init gamma s0 θ0) ws k) (ws k) = .ok (Acting.path update pi env (Acting.init gamma s0 θ0) ws (k + 1)) ∧
    ∀ R, (∀ s a v, |(env.step s a v).2.1| ≤ R) → P R θ0 → P R (Acting.path update pi env (Acting.init gamma s0 θ0) ws k).params := by
  set X := Acting.path update pi env (Acting.init gamma s0 θ0) ws with hX
  let xs : ℕ → Step σ (Fin n) ℝ := fun t => (X t).traced A env (ws t)
  let dn : ℕ → Bool := fun t => (X t).over A env (ws t)
  choose F hF1 hF2 using fun j θ => hu j (xs j) (xs (j + 1)) (dn j) rfl θ
  let θ : ℕ → Θ := fun j => Nat.rec θ0 (fun j θ => F j θ) j
  have main := onlineU_learn (update := update) (dn := dn) (xs := xs) (θ := θ) h0 h1 (fun t => le_rfl) (fun t => zero_lt_one) (fun j => hF1 j (θ j))
  set st : ℕ → NStep σ (Fin n) ℝ × Θ × ℕ := fun k => match k with
        | 0 => (tracerWith gamma [] false, θ 0, 0)
        | j + 1 => if dn j then (tracerWith gamma [] true, θ (j + 1), j + 1) else (tracerWith gamma [xs j] false, θ j, j) with hst
  have hstep : ∀ k, onlineU update (st k) [(xs k, dn k)] = .ok (st (k + 1)) := by
    intro k
    have := main (k + 1)
    rw [List.range_succ, List.map_append, onlineU_append (main k)] at this
    exact this
  have next : ∀ k, ((X k).tracer, (X k).params, (X k).updates) = st k → Acting.step update pi env (X k) (ws k) = .ok (X (k + 1)) ∧ ((X (k + 1)).tracer, (X (k + 1)).params, (X (k + 1)).updates) = st (k + 1) := by
    intro k hk
    have h2 := Acting.step_eq (update := update) hA env (X k) (ws k)
    rw [hk, show onlineU update (st k) [((X k).traced A env (ws k), (X k).over A env (ws k))] = _ from hstep k] at h2
    have h3 : X (k + 1) = Acting.move update pi env (X k) (ws k) := rfl
    rw [Acting.move, h2] at h3
    rw [h2, h3]
    exact ⟨rfl, rfl⟩
  have same : ∀ k, ((X k).tracer, (X k).params, (X k).updates) = st k := by
    intro k
    induction k with
    | zero =>
      show (NStep.init 1 gamma false, θ0, 0) = (tracerWith gamma [] false, θ0, 0)
      simp [NStep.init, NStep.reset, tracerWith]
    | succ k ih => exact (next k ih).2
  refine ⟨?_, (next k (same k)).1, ?_⟩
  · rw [same k]
    exact main k
  · intro R hR hP
    have hθ : ∀ j, P R (θ j) := by
      intro j
      induction j with
      | zero => exact hP
      | succ j ih => exact hF2 j (θ j) R (hR _ _ _) ih
    have hq : (X k).params = (st k).2.1 := by rw [← same k]
    rw [hq]
    cases k with
    | zero => exact hθ 0
    | succ j =>
      simp only [hst]
      split
      · exact hθ (j + 1)
      · exact hθ j

end path

/-! ### What is known when -/

/-- The next state of the loop as a function of the action and the outcome. -/
noncomputable def Acting.after (update : ℕ → Θ → Out σ (Fin n) ℝ → Except Err Θ) (e : Mdp σ n m) (x : Acting Θ σ n) (a : Fin n) (j : Fin m) : Acting Θ σ n :=
  match onlineU update (x.tracer, x.params, x.updates) [(⟨x.s, a, e.reward x.s a j, 0, 1⟩, e.ends x.s a j)] with
  | .error _ => x
  | .ok (tracer, params, updates) => ⟨if e.ends x.s a j then x.ep + 1 else x.ep, e.next x.s a j, tracer, params, updates⟩

section known

variable [MeasurableSpace U] [MeasurableSpace V] {μ : Measure Ω} {ℋ : Filtration ℕ m0} {νU : Measure U} {νV : Measure V} {u : ℕ → Ω → U} {v : ℕ → Ω → V}
  {update : ℕ → Θ → Out σ (Fin n) ℝ → Except Err Θ} {pi : ℕ → Θ → σ → U → Option (Fin n)} {A : ℕ → Θ → σ → U → Fin n}
  {env : Game σ n V} {e : Mdp σ n m} {chance : σ → Fin n → V → Fin m} {x0 : Acting Θ σ n}

omit [MeasurableSpace U] in
theorem Acting.move_eq (hA : ∀ ep θ s u, pi ep θ s u = some (A ep θ s u)) (hg : env.Is νV e chance) (x : Acting Θ σ n) (w : U × V) :
    Acting.move update pi env x w = Acting.after update e x (x.act A w) (chance x.s (x.act A w) w.2) := by
  unfold Acting.move Acting.after
  rw [Acting.step_eq hA]
  have e1 : x.traced A env w = ⟨x.s, x.act A w, e.reward x.s (x.act A w) (chance x.s (x.act A w) w.2), 0, 1⟩ := by
    rw [← hg.reward]; rfl
  have e2 : x.over A env w = e.ends x.s (x.act A w) (chance x.s (x.act A w) w.2) := hg.ends _ _ _
  have e3 := hg.next x.s (x.act A w) w.2
  rw [show (env.step x.s (x.act A w) w.2).2.2 = x.over A env w from rfl] at e3
  rw [e1, e3, e2]
  split
  · rename_i h; split at h
    · cases h
    · cases h; rfl
  · rename_i h; split at h
    · rfl
    · cases h

theorem Acting.knows_action (hv : Variates μ ℋ νU νV u v) (hA : ∀ ep θ s u, pi ep θ s u = some (A ep θ s u)) (hm : ∀ ep θ s a, MeasurableSet {u | pi ep θ s u = some a}) {X : Ω → Acting Θ σ n} {t : ℕ} (hX : Knows (ℋ (2 * t)) X) :
    Knows (ℋ (2 * t + 1)) fun ω => (X ω).act A (u t ω, v t ω) := by
  refine ⟨Set.to_countable _, fun a => ?_⟩
  have := hX.draw (ℋ.mono (by omega)) (hv.u_known t) (E := fun x => {u | pi x.ep x.params x.s u = some a}) fun x => hm _ _ _ _
  refine (congrArg (MeasurableSet[ℋ (2 * t + 1)]) ?_).mpr this
  ext ω
  simp [hA, Acting.act]

theorem Acting.knows (hv : Variates μ ℋ νU νV u v) (hA : ∀ ep θ s u, pi ep θ s u = some (A ep θ s u)) (hm : ∀ ep θ s a, MeasurableSet {u | pi ep θ s u = some a}) (hg : env.Is νV e chance) (t : ℕ) :
    Knows (ℋ (2 * t)) fun ω => Acting.path update pi env x0 (fun t => (u t ω, v t ω)) t := by
  induction t with
  | zero => exact Knows.const _ _
  | succ t ih =>
    have ha := Acting.knows_action hv hA hm ih
    have hj := knows_outcome hv hg ((ih.map fun x => x.s).mono (ℋ.mono (by omega : 2 * t ≤ 2 * t + 1))) ha
    have h := (((ih.mono (ℋ.mono (by omega : 2 * t ≤ 2 * t + 2))).pair (ha.mono (ℋ.mono (by omega : 2 * t + 1 ≤ 2 * t + 2)))).pair hj).map fun p => Acting.after update e p.1.1 p.1.2 p.2
    refine (congrArg (Knows (ℋ (2 * (t + 1)))) (funext fun ω => ?_)).mpr h
    exact Acting.move_eq hA hg _ _

/-- The loop as a sequence of steps in the environment. -/
theorem Acting.steps [IsProbabilityMeasure μ] (hv : Variates μ ℋ νU νV u v) {gamma : ℝ} {P : ℝ → Θ → Prop} (hu : Accepts update gamma P) (hg : env.Is νV e chance) (hm : ∀ ep θ s a, MeasurableSet {u | pi ep θ s u = some a})
    (hA : ∀ ep θ s u, pi ep θ s u = some (A ep θ s u)) (h0 : 0 ≤ gamma) (h1 : gamma ≤ 1) (s0 : σ) (θ0 : Θ) :
    ∃ (X : ℕ → Ω → Acting Θ σ n) (xs : ℕ → Ω → Step σ (Fin n) ℝ) (out : ℕ → Ω → Fin m),
      (∀ k ω, Acting.run update pi env (Acting.init gamma s0 θ0) ((List.range k).map fun t => (u t ω, v t ω)) = .ok (X k ω)) ∧
      Steps e μ ℋ xs out ∧
      (∀ k ω, (xs k ω).s = (X k ω).s) ∧
      (∀ k ω, (xs (k + 1) ω).s = e.next (xs k ω).s (xs k ω).a (out k ω)) ∧
      (∀ k a, μ[Set.indicator {ω | (xs k ω).a = a} (fun _ => (1 : ℝ)) | ℋ (2 * k)] =ᵐ[μ] fun ω => νU.real {u | pi (X k ω).ep (X k ω).params (X k ω).s u = some a}) ∧
      (∀ k ω, onlineU update (NStep.init 1 gamma false, θ0, 0) ((List.range k).map fun t => (xs t ω, e.ends (xs t ω).s (xs t ω).a (out t ω))) = .ok ((X k ω).tracer, (X k ω).params, (X k ω).updates)) ∧
      (∀ k ω, (X (k + 1) ω).ep = if e.ends (xs k ω).s (xs k ω).a (out k ω) then (X k ω).ep + 1 else (X k ω).ep) ∧
      (∀ k ω, (xs k ω).w = 1) ∧
      (∀ k, Knows (ℋ (2 * k)) (X k)) ∧
      ∀ R, (∀ s a j, |e.reward s a j| ≤ R) → P R θ0 → ∀ k ω, P R (X k ω).params := by
  let ws : Ω → ℕ → U × V := fun ω t => (u t ω, v t ω)
  let X : ℕ → Ω → Acting Θ σ n := fun t ω => Acting.path update pi env (Acting.init gamma s0 θ0) (ws ω) t
  have ok := fun ω k => Acting.path_ok hu h0 h1 hA env s0 θ0 (ws ω) k
  have hX : ∀ t, Knows (ℋ (2 * t)) (X t) := fun t => Acting.knows hv hA hm hg t
  let xs : ℕ → Ω → Step σ (Fin n) ℝ := fun t ω => (X t ω).traced A env (ws ω t)
  let out : ℕ → Ω → Fin m := fun t ω => chance (xs t ω).s (xs t ω).a (v t ω)
  have hs : ∀ t, Knows (ℋ (2 * t)) fun ω => (xs t ω).s := fun t => (hX t).map fun x => x.s
  have ha : ∀ t, Knows (ℋ (2 * t + 1)) fun ω => (xs t ω).a := fun t => Acting.knows_action hv hA hm (hX t)
  have hs' : ∀ t, Knows (ℋ (2 * t + 1)) fun ω => (xs t ω).s := fun t => (hs t).mono (ℋ.mono (by omega))
  have ho : ∀ t, Knows (ℋ (2 * t + 2)) (out t) := fun t => knows_outcome hv hg (hs' t) (ha t)
  have hnext : ∀ t ω, (xs (t + 1) ω).s = e.next (xs t ω).s (xs t ω).a (out t ω) := by
    intro t ω
    have h2 := (ok ω t).2.1
    rw [Acting.step_eq hA] at h2
    split at h2
    · cases h2
    · have h3 := congrArg Acting.s (Except.ok.inj h2)
      exact h3.symm.trans (hg.next _ _ _)
  have hends : ∀ t ω, (X t ω).over A env (ws ω t) = e.ends (xs t ω).s (xs t ω).a (out t ω) := fun t ω => hg.ends _ _ _
  have hep : ∀ t ω, (X (t + 1) ω).ep = if e.ends (xs t ω).s (xs t ω).a (out t ω) then (X t ω).ep + 1 else (X t ω).ep := by
    intro t ω
    have h2 := (ok ω t).2.1
    rw [Acting.step_eq hA] at h2
    split at h2
    · cases h2
    · have h3 := congrArg Acting.ep (Except.ok.inj h2)
      rw [← hends t ω]
      exact h3.symm
  refine ⟨X, xs, out, fun k ω => ?_, {
      s_known := fun t s => (hs t).fiber s
      a_known := fun t a => (ha t).fiber a
      w_known := fun t => measurable_const
      out_known := fun t j => (ho t).fiber j
      law := fun t j => by
        have h2 := freeze (μ := μ) (ℋ.le (2 * t + 1)) ((hs' t).pair (ha t)) ((hv.v_known t).mono (ℋ.le _) le_rfl) (hv.v_new t) (hv.v_law t) (E := fun p => {v | chance p.1 p.2 v = j}) fun p => hg.measurable _ _ _
        refine h2.trans (Eventually.of_forall fun ω => ?_)
        exact hg.law _ _ _
      reward := fun t ω => hg.reward _ _ _
      next := fun t ω _ => hnext t ω
      logp := fun t ω => le_rfl
      w := fun t ω => zero_lt_one }, fun k ω => rfl, hnext, fun t a => ?_, fun k ω => ?_, hep, fun k ω => rfl, hX, fun R hR hP k ω => (ok ω k).2.2 R (fun s a v => by rw [hg.reward]; exact hR _ _ _) hP⟩
  · induction k with
    | zero => rfl
    | succ k ih =>
      rw [List.range_succ, List.map_append, List.map_singleton, Acting.run_append ih]
      exact (ok ω k).2.1
  · have h2 := freeze (μ := μ) (ℋ.le (2 * t)) (hX t) ((hv.u_known t).mono (ℋ.le _) le_rfl) (hv.u_new t) (hv.u_law t) (E := fun x => {u | pi x.ep x.params x.s u = some a}) fun x => hm _ _ _ _
    have h3 : {ω | (xs t ω).a = a} = {ω | u t ω ∈ {u | pi (X t ω).ep (X t ω).params (X t ω).s u = some a}} := by
      ext ω
      simp [hA, xs, Acting.traced, Acting.act, ws]
    rw [h3]
    exact h2
  · have h4 := (ok ω k).1
    rwa [show (fun t => ((Acting.path update pi env (Acting.init gamma s0 θ0) (ws ω) t).traced A env (ws ω t), (Acting.path update pi env (Acting.init gamma s0 θ0) (ws ω) t).over A env (ws ω t))) =
        fun t => (xs t ω, e.ends (xs t ω).s (xs t ω).a (out t ω)) from funext fun t => Prod.ext rfl (hends t ω)] at h4

end known

end Coax.Loop
