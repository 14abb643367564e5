import Verif.Wrappers.MetaPolicy

/-! Property C91: playing with a meta-policy is playing the chosen arms. -/

namespace Coax.Wrappers

variable {E R σ α X : Type _}

/-- One decision written out by hand: the arm looks at the present observation, its action goes to the environment.  The log-propensity is that of the arm if the arm
can tell, and zero otherwise. -/
structure Played (inner : Inner E σ α X) (p : Arm R σ α) (e : E) (g : R) (s : σ) (e' : E) (g' : R) (o : StepOut σ α X) : Prop where
  out : ∃ a info, inner.step e a = (e', o.s, o.r, o.done, o.truncated, info) ∧
    ("return_logp" ∈ p.args → ∃ l, p.callLogp g s = (g', a, l) ∧ getKey "a" o.info = some (.action a) ∧ getKey "logp" o.info = some (.logp l)) ∧
    ("return_logp" ∉ p.args → p.call g s = (g', a) ∧ getKey "a" o.info = some (.action a) ∧ getKey "logp" o.info = some (.logp 0)) ∧
    ∀ k, k ≠ "a" → k ≠ "logp" → getKey k o.info = info.bind (getKey k)

/-- A whole episode, in which the arms numbered `as` are used one after the other, each on the observation that came before. -/
inductive Plays (inner : Inner E σ α X) (arms : List (Arm R σ α)) : E → R → σ → List Int → List (StepOut σ α X) → E → R → Prop
  | nil (e g s) : Plays inner arms e g s [] [] e g
  | cons {e g s e₁ g₁ e' g' o as os} {a : Nat} {p : Arm R σ α} : arms[a]? = some p → Played inner p e g s e₁ g₁ o → Plays inner arms e₁ g₁ o.s as os e' g' →
      Plays inner arms e g s ((a : Int) :: as) (o :: os) e' g'

theorem getKey_setKey (k k' : String) (v : InfoVal α X) (d : Info α X) : getKey k' (setKey k v d) = if k' = k then some v else getKey k' d := by
  induction d with
  | nil =>
    simp only [setKey, getKey, List.find?_cons, List.find?_nil]
    by_cases h : k' = k
    · simp [h]
    · simp [h, Ne.symm h]
  | cons q d ih =>
    obtain ⟨k'', v''⟩ := q
    simp only [setKey]
    by_cases h : k'' = k
    · rw [if_pos h]
      simp only [getKey, List.find?_cons]
      by_cases h' : k' = k
      · simp [h']
      · simp [h', Ne.symm h', h]
    · rw [if_neg h]
      simp only [getKey, List.find?_cons] at ih ⊢
      by_cases h' : k'' = k'
      · subst h'
        simp [h]
      · simp only [h', decide_false]
        exact ih

theorem step_played {m : Meta E R σ α X} {s : σ} (hs : m.s = some s) {a : Nat} {p : Arm R σ α} (hp : m.arms[a]? = some p) (hsp : p.special = false) :
    ∃ e g o, m.step true a = ({ m with env := e, rng := g, s := some o.s }, .ok o) ∧ Played m.inner p m.env m.rng s e g o := by
  have hlt : a < m.arms.length := (List.getElem?_eq_some_iff.1 hp).1
  have hstep : m.step true a = (fun ra : R × α × ℝ => (fun es : E × σ × ℝ × Bool × Bool × Option (Info α X) =>
      (({ m with env := es.1, rng := ra.1, s := some es.2.1 } : Meta E R σ α X), (Except.ok ⟨es.2.1, es.2.2.1, es.2.2.2.1, es.2.2.2.2.1,
        setKey "logp" (.logp ra.2.2) (setKey "a" (.action ra.2.1) (es.2.2.2.2.2.getD []))⟩ : Except Err (StepOut σ α X)))) (m.inner.step m.env ra.2.1)) (p.act m.rng s) := by
    unfold Meta.step
    rw [if_neg (by simp; omega), hs]
    simp only [Int.toNat_natCast, hp]
    simp [hsp]
  refine ⟨(m.inner.step m.env (p.act m.rng s).2.1).1, (p.act m.rng s).1, ⟨_, _, _, _, _⟩, hstep, ⟨(p.act m.rng s).2.1, (m.inner.step m.env (p.act m.rng s).2.1).2.2.2.2.2, rfl, ?_, ?_, ?_⟩⟩
  · intro h
    have e : p.act m.rng s = p.callLogp m.rng s := by simp [Arm.act, h]
    refine ⟨(p.act m.rng s).2.2, by rw [e], ?_, ?_⟩ <;> simp [getKey_setKey]
  · intro h
    have e : p.act m.rng s = ((p.call m.rng s).1, (p.call m.rng s).2, 0) := by simp [Arm.act, h]
    refine ⟨by rw [e], ?_, ?_⟩
    · simp [getKey_setKey]
    · simp [getKey_setKey, e]
  · intro k h1 h2
    simp only [getKey_setKey, h1, h2, if_false]
    cases (m.inner.step m.env (p.act m.rng s).2.1).2.2.2.2.2 <;> simp [getKey]

/-- C91.  Where `inspect.getargspec` exists, and for arms that are plain functions: after `reset`, any sequence of valid meta-actions has the effects and results of playing the
chosen arms by hand. -/
theorem C91_plays {m m' : Meta E R σ α X} {s : σ} {info : Info α X} (hr : m.reset [] = (m', .ok (s, info))) (harm : ∀ p ∈ m.arms, p.special = false)
    (as : List Int) (has : ∀ a ∈ as, 0 ≤ a ∧ a < m.arms.length) :
    (m'.env, s, info) = m.inner.reset m.env ∧ ∃ m'' os, m'.steps true as = (m'', .ok os) ∧ Plays m.inner m.arms m'.env m'.rng s as os m''.env m''.rng := by
  have hm : m' = { m with env := (m.inner.reset m.env).1, s := some s } ∧ (m.inner.reset m.env).2 = (s, info) := by
    simp only [Meta.reset, ne_eq, not_true_eq_false, if_false, Prod.mk.injEq, Except.ok.injEq] at hr
    obtain ⟨h1, h2, h3⟩ := hr
    refine ⟨by rw [← h1, ← h2], Prod.ext h2 h3⟩
  obtain ⟨h1, h2⟩ := hm
  constructor
  · rw [h1]
    exact Prod.ext rfl h2.symm
  · have hs : m'.s = some s := by rw [h1]
    have hi : m'.inner = m.inner := by rw [h1]
    have ha : m'.arms = m.arms := by rw [h1]
    clear h1 h2 hr
    rw [← ha] at harm has
    rw [← hi, ← ha]
    clear hi ha
    clear m
    induction as generalizing m' s with
    | nil => exact ⟨m', [], rfl, .nil _ _ _⟩
    | cons a as ih =>
      obtain ⟨h0, hlt⟩ := has a (by simp)
      obtain ⟨a, rfl⟩ := Int.eq_ofNat_of_zero_le h0
      have hlt' : a < m'.arms.length := by simpa using hlt
      obtain ⟨e, g, o, hst, hpl⟩ := step_played hs (List.getElem?_eq_getElem hlt') (harm _ (List.getElem_mem _))
      obtain ⟨m'', os, h3, h4⟩ := ih (m' := { m' with env := e, rng := g, s := some o.s }) harm (fun b hb => has b (List.mem_cons_of_mem _ hb)) rfl
      refine ⟨m'', o :: os, ?_, .cons (List.getElem?_eq_getElem hlt') hpl h4⟩
      unfold Meta.steps
      rw [hst]
      simp only
      rw [h3]

/-- C91, what is rejected: nothing happens to the environment if `step` is called before `reset`, or with an invalid meta-action; and `reset` cannot be called with a seed. -/
theorem C91_rejects (m : Meta E R σ α X) (g : Bool) (a : Int) :
    (m.s = none → m.step g a = (m, .error .assertionError)) ∧
    (a < 0 ∨ (m.arms.length : Int) ≤ a → m.step g a = (m, .error .assertionError)) ∧
    m.reset ["seed"] = (m, .error .typeError) := by
  refine ⟨?_, ?_, by simp [Meta.reset]⟩
  · intro h
    unfold Meta.step
    rw [h]
    simp
  · intro h
    unfold Meta.step
    rw [if_pos (by omega)]

/-- C91, from Python 3.11 on every valid call of `step` raises `AttributeError`. -/
theorem C91_no_getargspec {m : Meta E R σ α X} {s : σ} (hs : m.s = some s) {a : Int} (ha : 0 ≤ a ∧ a < m.arms.length) : m.step false a = (m, .error .attributeError) := by
  obtain ⟨a, rfl⟩ := Int.eq_ofNat_of_zero_le ha.1
  have hlt : a < m.arms.length := by simpa using ha.2
  unfold Meta.step
  rw [if_neg (by simpa using hlt), hs]
  simp only [Int.toNat_natCast, List.getElem?_eq_getElem hlt]
  simp

/-- A case that meets the hypotheses: two arms, one of which can tell its log-propensity. -/
def exMeta : Meta Nat Nat Nat Nat Unit :=
  Meta.init ⟨fun e => (e, e, []), fun e a => (e + a, e + a, 0, false, false, none)⟩
    [⟨["s"], false, fun g s => (g, s), fun g s => (g, s, 0)⟩, ⟨["self", "s", "return_logp"], false, fun g _ => (g + 1, g), fun g _ => (g + 1, g, -1)⟩] 7 100

example : ∃ m' s info, exMeta.reset [] = (m', .ok (s, info)) ∧ (∀ p ∈ exMeta.arms, p.special = false) ∧ (∀ a ∈ ([1, 0] : List Int), 0 ≤ a ∧ a < exMeta.arms.length) := by
  refine ⟨_, _, _, rfl, ?_, ?_⟩ <;> simp [exMeta, Meta.init]

end Coax.Wrappers
