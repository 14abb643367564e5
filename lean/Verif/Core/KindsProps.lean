import Verif.Core.Kinds
import Mathlib.Tactic.Tauto

/-!
# C110: what constructors accept, and whether it can be used
-/

namespace Coax.Kinds

/-! ### Specification -/

/-- The classes of state values, state-action values, and so on, written out. -/
def StateValue (c : Cls) : Prop := c = .v ∨ c = .stochasticV

/-- State-action values; reward functions are among them. -/
def ActionValue (c : Cls) : Prop := c = .q ∨ c = .rewardFunction ∨ c = .stochasticQ ∨ c = .stochasticRewardFunction ∨ c = .successorStateQ

/-- Functions that return distribution parameters. -/
def Stochastic (c : Cls) : Prop :=
  c = .policy ∨ c = .stochasticV ∨ c = .stochasticQ ∨ c = .stochasticRewardFunction ∨ c = .stochasticTransitionModel

/-- Policies with distribution parameters. -/
def ParamPolicy (c : Cls) : Prop := c = .policy ∨ c = .epsilonGreedy ∨ c = .boltzmann

/-- The target function that an updater will use: the function itself if none is given. -/
def usedTarg (f : Obj) : Targ → Option Obj
  | .none => some f
  | .obj o => some o
  | .list => none

/-! ### The predicates -/

/-- C110: the predicates recognise the classes that they are about.  A reward function counts as a q-function; `SuccessorStateQ`, value-based policies and
`RandomPolicy` do not count as stochastic, and `RandomPolicy` not as a policy. -/
theorem C110_predicates (c : Cls) :
    (isVFunction c = true ↔ StateValue c) ∧ (isQFunction c = true ↔ ActionValue c) ∧ (isStochastic c = true ↔ Stochastic c) ∧
    (isPolicy c = true ↔ ParamPolicy c) ∧ (isRewardFunction c = true ↔ c = .rewardFunction ∨ c = .stochasticRewardFunction) ∧
    (isTransitionModel c = true ↔ c = .transitionModel ∨ c = .stochasticTransitionModel) := by
  cases c <;> simp [isVFunction, isQFunction, isStochastic, isPolicy, isRewardFunction, isTransitionModel, isinstance, base, StateValue, ActionValue, Stochastic,
    ParamPolicy]

/-! ### The constructors -/

theorem isV_iff (c : Cls) : isVFunction c = true ↔ StateValue c := (C110_predicates c).1
theorem isQ_iff (c : Cls) : isQFunction c = true ↔ ActionValue c := (C110_predicates c).2.1
theorem isS_iff (c : Cls) : isStochastic c = true ↔ Stochastic c := (C110_predicates c).2.2.1
theorem isP_iff (c : Cls) : isPolicy c = true ↔ ParamPolicy c := (C110_predicates c).2.2.2.1

theorem updater_eq (u : Updater) (f : Obj) (t : Obj ⊕ Unit) : (⟨f, t⟩ : Updater) = u ↔ u.f = f ∧ u.fTarg = t := by
  cases u; simp [eq_comm]

/-- C110: what `SimpleTD` accepts, and the updater that results. -/
theorem C110_simple_td (v : Obj) (vTarg : Targ) (reg : RegArg) (u : Updater) :
    tdV v vTarg reg = .ok u ↔
      StateValue v.cls ∧ reg ≠ .other ∧ u.f = v ∧ ∃ t, usedTarg v vTarg = some t ∧ StateValue t.cls ∧ u.fTarg = .inl t := by
  by_cases hv : isVFunction v.cls = true
  · have hv' := (isV_iff v.cls).1 hv
    cases vTarg with
    | none =>
      cases reg <;> simp [tdV, hv, baseTD, usedTarg, hv', updater_eq]
    | obj o =>
      by_cases ho : isVFunction o.cls = true
      · have ho' := (isV_iff o.cls).1 ho
        cases reg <;> simp [tdV, hv, ho, baseTD, usedTarg, hv', ho', updater_eq]
      · have ho' := mt (isV_iff o.cls).2 ho
        simp [tdV, hv, ho, usedTarg, ho']
    | list => simp [tdV, hv, usedTarg]
  · have hv' := mt (isV_iff v.cls).2 hv
    simp [tdV, hv, hv']

/-- C110: what `Sarsa` accepts: a list in the place of the target function is accepted too. -/
theorem C110_sarsa (q : Obj) (qTarg : Targ) (reg : RegArg) (u : Updater) :
    tdQ q qTarg reg = .ok u ↔
      ActionValue q.cls ∧ reg ≠ .other ∧ u.f = q ∧
        ((∃ t, usedTarg q qTarg = some t ∧ ActionValue t.cls ∧ u.fTarg = .inl t) ∨ (qTarg = .list ∧ u.fTarg = .inr ())) := by
  by_cases hq : isQFunction q.cls = true
  · have hq' := (isQ_iff q.cls).1 hq
    cases qTarg with
    | none => cases reg <;> simp [tdQ, hq, baseTD, usedTarg, hq', updater_eq]
    | obj o =>
      by_cases ho : isQFunction o.cls = true
      · have ho' := (isQ_iff o.cls).1 ho
        cases reg <;> simp [tdQ, hq, ho, baseTD, usedTarg, hq', ho', updater_eq]
      · have ho' := mt (isQ_iff o.cls).2 ho
        simp [tdQ, hq, ho, usedTarg, ho']
    | list => cases reg <;> simp [tdQ, hq, baseTD, usedTarg, hq', updater_eq]
  · have hq' := mt (isQ_iff q.cls).2 hq
    simp [tdQ, hq, hq']

/-- C110: the target policy: `QLearning` and `DoubleQLearning` want one for actions that are not discrete, `ExpectedSarsa` always, and `ExpectedSarsa` and `SoftQLearning`
want discrete actions; otherwise they accept what `Sarsa` accepts. -/
theorem C110_other_td (q : Obj) (pi : Option Obj) (qTarg : Targ) (reg : RegArg) (u : Updater) :
    (qLearning q pi qTarg reg = .ok u ↔
      tdQ q qTarg reg = .ok u ∧ (∀ p ∈ pi, ParamPolicy p.cls) ∧ (pi = none → q.discrete = true)) ∧
    (expectedSarsa q pi qTarg reg = .ok u ↔
      tdQ q qTarg reg = .ok u ∧ q.discrete = true ∧ ∃ p, pi = some p ∧ ParamPolicy p.cls) ∧
    (softQLearning q qTarg reg = .ok u ↔ tdQ q qTarg reg = .ok u ∧ q.discrete = true ∧ ¬ Stochastic q.cls) := by
  have hspace : tdQ q qTarg reg = .ok u → q.hasActionSpace = true := by
    intro h
    have := ((C110_sarsa q qTarg reg u).1 h).1
    rcases this with h | h | h | h | h <;> simp [Obj.hasActionSpace, h]
  refine ⟨?_, ?_, ?_⟩
  · cases pi with
    | none =>
      cases h : tdQ q qTarg reg with
      | error e => simp [qLearning, tdQPi, h]
      | ok u' => cases hd : q.discrete <;> simp [qLearning, tdQPi, h, hd]
    | some p =>
      by_cases hp : isPolicy p.cls = true
      · have hp' := (isP_iff p.cls).1 hp
        cases h : tdQ q qTarg reg <;> simp [qLearning, tdQPi, h, hp, hp']
      · have hp' := mt (isP_iff p.cls).2 hp
        simp [qLearning, tdQPi, hp, hp']
  · cases hs : q.hasActionSpace with
    | false =>
      have : ¬ tdQ q qTarg reg = .ok u := fun h => by rw [hspace h] at hs; exact absurd hs (by simp)
      simp [expectedSarsa, hs, this]
    | true =>
      cases hd : q.discrete with
      | false => simp [expectedSarsa, hs, hd]
      | true =>
        cases pi with
        | none => simp [expectedSarsa, hs, hd]
        | some p =>
          by_cases hp : isPolicy p.cls = true
          · have hp' := (isP_iff p.cls).1 hp
            simp [expectedSarsa, hs, hd, tdQPi, hp, hp']
          · have hp' := mt (isP_iff p.cls).2 hp
            simp [expectedSarsa, hs, hd, tdQPi, hp, hp']
  · cases hs : q.hasActionSpace with
    | false =>
      have : ¬ tdQ q qTarg reg = .ok u := fun h => by rw [hspace h] at hs; exact absurd hs (by simp)
      simp [softQLearning, hs, this]
    | true =>
      by_cases hst : isStochastic q.cls = true
      · have hst' := (isS_iff q.cls).1 hst
        cases hd : q.discrete <;> simp [softQLearning, hs, hd, hst, hst']
      · have hst' := mt (isS_iff q.cls).2 hst
        cases hd : q.discrete <;> simp [softQLearning, hs, hd, hst, hst']

/-- C110: what `ClippedDoubleQLearning` accepts: at least two target functions for discrete actions; otherwise policies and target functions that make at least two pairs. -/
theorem C110_clipped (q : Obj) (pis qs : ListArg) (reg : RegArg) :
    (∃ r, clippedDoubleQ q pis qs reg = .ok r) ↔
      ActionValue q.cls ∧ reg ≠ .other ∧ ∃ ql, qs = .list ql ∧ (∀ o ∈ ql, ActionValue o.cls) ∧
        ((q.discrete = true ∧ 2 ≤ ql.length) ∨
          (q.discrete = false ∧ ∃ pl, pis = .list pl ∧ (∀ p ∈ pl, ParamPolicy p.cls) ∧ 2 ≤ ql.length * pl.length)) := by
  have htd : (∃ u, tdQ q .none reg = .ok u) ↔ ActionValue q.cls ∧ reg ≠ .other := by
    constructor
    · rintro ⟨u, h⟩
      have := (C110_sarsa q .none reg u).1 h
      exact ⟨this.1, this.2.1⟩
    · rintro ⟨h₁, h₂⟩
      exact ⟨⟨q, .inl q⟩, (C110_sarsa q .none reg _).2 ⟨h₁, h₂, rfl, Or.inl ⟨q, rfl, h₁, rfl⟩⟩⟩
  have hqs : ∀ ql, checkQs qs = .ok ql ↔ qs = .list ql ∧ ql ≠ [] ∧ ∀ o ∈ ql, ActionValue o.cls := by
    intro ql
    cases qs with
    | none => simp [checkQs]
    | other => simp [checkQs]
    | list l =>
      cases l with
      | nil =>
        constructor
        · intro h; simp [checkQs] at h
        · rintro ⟨h, hne, _⟩; cases h; exact absurd rfl hne
      | cons a l =>
        by_cases hall : (a :: l).all (fun o => isQFunction o.cls) = true
        · have hall' : ∀ o ∈ a :: l, ActionValue o.cls := fun o ho => (isQ_iff _).1 (by simpa using List.all_eq_true.1 hall o ho)
          simp only [checkQs, hall, List.isEmpty_cons, Bool.false_eq_true, if_false, if_true]
          constructor
          · intro h; cases h; exact ⟨rfl, by simp, hall'⟩
          · rintro ⟨h, _, _⟩; cases h; rfl
        · have hall' : ¬ ∀ o ∈ a :: l, ActionValue o.cls := fun h => hall (List.all_eq_true.2 fun o ho => by simpa using (isQ_iff _).2 (h o ho))
          simp only [checkQs, hall, List.isEmpty_cons, Bool.false_eq_true, if_false]
          constructor
          · intro h; cases h
          · rintro ⟨h, _, h'⟩; cases h; exact absurd h' hall'
  have hpis : q.discrete = false → ∀ pl, checkPis q.discrete pis = .ok pl ↔ pis = .list pl ∧ pl ≠ [] ∧ ∀ o ∈ pl, ParamPolicy o.cls := by
    intro hd pl
    rw [hd]
    cases pis with
    | none => simp [checkPis]
    | other => simp [checkPis]
    | list l =>
      cases l with
      | nil =>
        constructor
        · intro h; simp [checkPis] at h
        · rintro ⟨h, hne, _⟩; cases h; exact absurd rfl hne
      | cons a l =>
        by_cases hall : (a :: l).all (fun o => isPolicy o.cls) = true
        · have hall' : ∀ o ∈ a :: l, ParamPolicy o.cls := fun o ho => (isP_iff _).1 (by simpa using List.all_eq_true.1 hall o ho)
          simp only [checkPis, hall, List.isEmpty_cons, Bool.false_eq_true, if_false, if_true]
          constructor
          · intro h; cases h; exact ⟨rfl, by simp, hall'⟩
          · rintro ⟨h, _, _⟩; cases h; rfl
        · have hall' : ¬ ∀ o ∈ a :: l, ParamPolicy o.cls := fun h => hall (List.all_eq_true.2 fun o ho => by simpa using (isP_iff _).2 (h o ho))
          simp only [checkPis, hall, List.isEmpty_cons, Bool.false_eq_true, if_false]
          constructor
          · intro h; cases h
          · rintro ⟨h, _, h'⟩; cases h; exact absurd h' hall'
  have hpisd : q.discrete = true → ∃ pl, checkPis q.discrete pis = .ok pl := by
    intro hd
    rw [hd]
    cases pis <;> simp [checkPis]
  cases htq : tdQ q .none reg with
  | error e =>
    have : ¬ (ActionValue q.cls ∧ reg ≠ .other) := by
      intro h
      obtain ⟨u, hu⟩ := htd.2 h
      rw [htq] at hu
      exact absurd hu (by simp)
    simp only [clippedDoubleQ, htq]
    constructor
    · rintro ⟨r, h⟩; cases h
    · rintro ⟨h₁, h₂, _⟩; exact absurd ⟨h₁, h₂⟩ this
  | ok u =>
    have hacc := htd.1 ⟨u, htq⟩
    simp only [clippedDoubleQ, htq]
    cases hd : q.discrete with
    | true =>
      obtain ⟨pl, hpl⟩ := hpisd hd
      rw [hd] at hpl
      simp only [hpl]
      cases hq : checkQs qs with
      | error e =>
        simp only
        constructor
        · rintro ⟨r, h⟩; cases h
        · rintro ⟨_, _, ql, hql, hav, h | h⟩
          · have := (hqs ql).2 ⟨hql, by rintro rfl; simp at h, hav⟩
            rw [hq] at this; cases this
          · exact absurd h.1 (by simp)
      | ok ql =>
        obtain ⟨h₁, h₂, h₃⟩ := (hqs ql).1 hq
        by_cases hlen : ql.length < 2
        · simp only [hlen, if_true]
          constructor
          · rintro ⟨r, h⟩; cases h
          · rintro ⟨_, _, ql', hql', _, h | h⟩
            · rw [h₁] at hql'; cases hql'; omega
            · exact absurd h.1 (by simp)
        · simp only [hlen, if_true, if_false]
          exact ⟨fun _ => ⟨hacc.1, hacc.2, ql, h₁, h₃, Or.inl ⟨trivial, by omega⟩⟩, fun _ => ⟨_, rfl⟩⟩
    | false =>
      rw [hd] at hpis
      cases hp : checkPis false pis with
      | error e =>
        simp only
        constructor
        · rintro ⟨r, h⟩; cases h
        · rintro ⟨_, _, ql, _, _, h | ⟨_, pl, hpl, hpp, hlen⟩⟩
          · exact absurd h.1 (by simp)
          · have := (hpis rfl pl).2 ⟨hpl, by rintro rfl; simp at hlen, hpp⟩
            rw [hp] at this; cases this
      | ok pl =>
        obtain ⟨hp₁, hp₂, hp₃⟩ := (hpis rfl pl).1 hp
        simp only
        cases hq : checkQs qs with
        | error e =>
          simp only
          constructor
          · rintro ⟨r, h⟩; cases h
          · rintro ⟨_, _, ql, hql, hav, h | ⟨_, pl', _, _, hlen⟩⟩
            · exact absurd h.1 (by simp)
            · have := (hqs ql).2 ⟨hql, by rintro rfl; simp at hlen, hav⟩
              rw [hq] at this; cases this
        | ok ql =>
          obtain ⟨h₁, h₂, h₃⟩ := (hqs ql).1 hq
          simp only [Bool.false_eq_true, if_false]
          by_cases hlen : ql.length * pl.length < 2
          · simp only [hlen, if_true]
            constructor
            · rintro ⟨r, h⟩; cases h
            · rintro ⟨_, _, ql', hql', _, h | ⟨_, pl', hpl', _, h⟩⟩
              · exact absurd h.1 (by simp)
              · rw [h₁] at hql'; cases hql'
                rw [hp₁] at hpl'; cases hpl'
                omega
          · simp only [hlen, if_false]
            exact ⟨fun _ => ⟨hacc.1, hacc.2, ql, h₁, h₃, Or.inr ⟨trivial, pl, hp₁, hp₃, by omega⟩⟩, fun _ => ⟨_, rfl⟩⟩

/-- C110: what the other constructors accept. -/
theorem C110_others (pi q v p r f : Obj) (reg : RegArg) :
    (policyObjective pi reg = .ok () ↔ pi.cls = .policy ∧ reg ≠ .other) ∧
    (deterministicPG pi q reg = .ok () ↔
      pi.cls = .policy ∧ reg ≠ .other ∧ ActionValue q.cls ∧ q.cls ≠ .successorStateQ ∧ q.modeltype = 1) ∧
    (modelUpdater f reg = .ok () ↔
      (f.cls = .rewardFunction ∨ f.cls = .stochasticRewardFunction ∨ f.cls = .transitionModel ∨ f.cls = .stochasticTransitionModel) ∧ reg ≠ .other) ∧
    (regularizer f = .ok () ↔ Stochastic f.cls) ∧
    (valueBasedPolicy q = .ok () ↔ ActionValue q.cls ∧ q.discrete = true) ∧
    (successorStateQ v p r = .ok () ↔
      StateValue v.cls ∧ (p.cls = .transitionModel ∨ p.cls = .stochasticTransitionModel) ∧ (r.cls = .rewardFunction ∨ r.cls = .stochasticRewardFunction)) := by
  have hpo : policyObjective pi reg = .ok () ↔ pi.cls = .policy ∧ reg ≠ .other := by
    obtain ⟨c, d, a, m⟩ := pi
    cases c <;> cases reg <;> simp [policyObjective, isinstance, base]
  refine ⟨hpo, ?_, ?_, ?_, ?_, ?_⟩
  · by_cases hq : isQFunction q.cls = true
    · have hq' := (isQ_iff _).1 hq
      by_cases hs : q.cls = .successorStateQ
      · simp only [deterministicPG, hq, if_true]
        simp [hs]
      · by_cases hm : q.modeltype = 1
        · simp [deterministicPG, hq, hs, hm, hpo, hq']
        · simp [deterministicPG, hq, hs, hm]
    · have hq' := mt (isQ_iff _).2 hq
      simp [deterministicPG, hq, hq']
  · obtain ⟨c, d, a, m⟩ := f
    cases c <;> cases reg <;> simp [modelUpdater, isRewardFunction, isTransitionModel, isinstance, base]
  · rw [← isS_iff]
    by_cases h : isStochastic f.cls = true <;> simp [regularizer, h]
  · rw [← isQ_iff]
    by_cases h : isQFunction q.cls = true <;> cases hd : q.discrete <;> simp [valueBasedPolicy, h, hd]
  · rw [← isV_iff, ← (C110_predicates p.cls).2.2.2.2.2, ← (C110_predicates r.cls).2.2.2.2.1]
    by_cases h₁ : isVFunction v.cls = true <;> by_cases h₂ : isTransitionModel p.cls = true <;> by_cases h₃ : isRewardFunction r.cls = true <;>
      simp [successorStateQ, h₁, h₂, h₃]

/-! ### Using what was accepted -/

/-- C110: which updaters can be used: the target function must be a function (not a list), be stochastic exactly if the main function is, and have parameters of the
same structure; for `update`, the main function must not be a `SuccessorStateQ`. -/
theorem C110_usable (algo : Algo) (u : Updater) :
    (tdError algo u = .ok () ↔ ∃ t, u.fTarg = .inl t ∧ (Stochastic u.f.cls ↔ Stochastic t.cls) ∧ u.f.arch = t.arch) ∧
    (update algo u = .ok () ↔ tdError algo u = .ok () ∧ u.f.cls ≠ .successorStateQ) := by
  constructor
  · obtain ⟨f, t | t⟩ := u
    · by_cases hf : isStochastic f.cls = true <;> by_cases ht : isStochastic t.cls = true
      · have hf' := (isS_iff _).1 hf
        have ht' := (isS_iff _).1 ht
        by_cases ha : f.arch = t.arch <;> simp [tdError, targetFunc, applyWith, hf, ht, hf', ht', ha]
      · have hf' := (isS_iff _).1 hf
        have ht' := mt (isS_iff _).2 ht
        simp [tdError, targetFunc, hf, ht, hf', ht']
      · have hf' := mt (isS_iff _).2 hf
        have ht' := (isS_iff _).1 ht
        cases algo <;> simp [tdError, targetFunc, hf, ht, hf', ht']
      · have hf' := mt (isS_iff _).2 hf
        have ht' := mt (isS_iff _).2 ht
        by_cases ha : f.arch = t.arch <;> simp [tdError, targetFunc, applyWith, hf, ht, hf', ht', ha]
    · simp [tdError]
  · cases h : tdError algo u with
    | error e => simp [update, h]
    | ok x =>
      by_cases hs : u.f.cls = .successorStateQ <;> simp [update, h, assignParams, hs]

/-- C110, as far as accepting implies usable: an updater made from a function approximator (not a `SuccessorStateQ`) without a separate target function, or with a copy
of the function as its target, can be updated.  Missing: separate target functions of another kind or structure, lists, and `SuccessorStateQ`, which are accepted but
cannot be used (below). -/
theorem C110_accepted_usable_partial (algo : Algo) (f : Obj) (targ : Targ) (reg : RegArg) (u : Updater) (hf : f.cls ≠ .successorStateQ)
    (htarg : targ = .none ∨ targ = .obj f) (h : tdV f targ reg = .ok u ∨ tdQ f targ reg = .ok u) : update algo u = .ok () := by
  have hu : u.f = f ∧ u.fTarg = .inl f := by
    rcases h with h | h
    · obtain ⟨_, _, h₁, t, h₂, _, h₃⟩ := (C110_simple_td f targ reg u).1 h
      rcases htarg with rfl | rfl <;> (simp only [usedTarg, Option.some.injEq] at h₂; subst h₂; exact ⟨h₁, h₃⟩)
    · obtain ⟨_, _, h₁, ⟨t, h₂, _, h₃⟩ | ⟨h₂, _⟩⟩ := (C110_sarsa f targ reg u).1 h
      · rcases htarg with rfl | rfl <;> (simp only [usedTarg, Option.some.injEq] at h₂; subst h₂; exact ⟨h₁, h₃⟩)
      · rcases htarg with rfl | rfl <;> cases h₂
  rw [(C110_usable algo u).2, (C110_usable algo u).1, hu.1]
  exact ⟨⟨f, hu.2, Iff.rfl, rfl⟩, hf⟩

/-- The hypotheses can be met. -/
example : update .sarsa ⟨⟨.stochasticQ, true, 0, 2⟩, .inl ⟨.stochasticQ, true, 0, 2⟩⟩ = .ok () :=
  C110_accepted_usable_partial .sarsa ⟨.stochasticQ, true, 0, 2⟩ .none .none _ (by decide) (Or.inl rfl) (Or.inr rfl)

/-- C110 fails for `SuccessorStateQ`: `QLearning` accepts it and computes TD errors, but `update` ends with `AttributeError`. -/
theorem C110_successor_counterexample (arch : Nat) :
    ∃ u, qLearning ⟨.successorStateQ, true, arch, 0⟩ none .none .none = .ok u ∧ tdError .qLearning u = .ok () ∧ update .qLearning u = .error .attributeError :=
  ⟨⟨⟨.successorStateQ, true, arch, 0⟩, .inl ⟨.successorStateQ, true, arch, 0⟩⟩, rfl, by simp [tdError, targetFunc, isStochastic, isinstance, base, applyWith],
    by simp [update, tdError, targetFunc, isStochastic, isinstance, base, applyWith, assignParams]⟩

/-- C110 fails for lists: they are accepted as `q_targ`, but TD errors cannot be computed. -/
theorem C110_list_counterexample :
    ∃ u, tdQ ⟨.q, true, 0, 1⟩ .list .none = .ok u ∧ tdError .sarsa u = .error .attributeError :=
  ⟨⟨⟨.q, true, 0, 1⟩, .inr ()⟩, rfl, rfl⟩

/-- C110 fails for mixtures: a stochastic value function with a deterministic target function is accepted, but cannot be used, and conversely. -/
theorem C110_mixture_counterexample :
    (∃ u, tdV ⟨.stochasticV, true, 0, 0⟩ (.obj ⟨.v, true, 1, 0⟩) .none = .ok u ∧ tdError .simpleTD u = .error .attributeError) ∧
    (∃ u, qLearning ⟨.q, true, 0, 1⟩ none (.obj ⟨.stochasticQ, true, 1, 1⟩) .none = .ok u ∧ ∃ e, tdError .qLearning u = .error e) :=
  ⟨⟨⟨⟨.stochasticV, true, 0, 0⟩, .inl ⟨.v, true, 1, 0⟩⟩, rfl, rfl⟩, ⟨⟨⟨.q, true, 0, 1⟩, .inl ⟨.stochasticQ, true, 1, 1⟩⟩, rfl, _, rfl⟩⟩

/-- C110: assigning an optimizer to an updater of a value function or of a model: accepted exactly if its state has the structure of the present state, which is kept. -/
theorem C110_optimizer (owner : Owner) (o : OptAttrs) (new : Optim) (o' : OptAttrs) :
    setOptimizer owner o new = .ok o' ↔ owner ≠ .policy ∧ new.stateStructure = o.state ∧ o' = ⟨new, o.state⟩ := by
  cases owner <;> by_cases h : new.stateStructure = o.state <;> simp [setOptimizer, h, eq_comm]

/-- C110 fails for policy objectives: no optimizer can be assigned, not even the present one. -/
theorem C110_policy_optimizer_counterexample (o : OptAttrs) (new : Optim) : setOptimizer .policy o new = .error .attributeError := rfl

/-- C110 fails for the optimizer state of policy objectives: a state that does not fit the optimizer is accepted, which other updaters refuse. -/
theorem C110_optimizer_state_counterexample (o : OptAttrs) (new : Nat) (h : new ≠ o.state) :
    setOptimizerState .policy o new = .ok ⟨o.optimizer, new⟩ ∧ setOptimizerState .td o new = .error .attributeError ∧
    setOptimizerState .model o new = .error .attributeError := by
  simp [setOptimizerState, h]

end Coax.Kinds
