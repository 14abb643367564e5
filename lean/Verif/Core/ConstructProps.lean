import Verif.Core.Construct

/-! Property C102: function approximators get the settings that the user gives, and documented defaults for the others. -/

namespace Coax.Core

variable {Sp P D K : Type _}

/-- The setting `x` is the given argument, or the default if none is given. -/
def Given {X : Type _} (arg : Option X) (dflt : Except Err X) (x : X) : Prop := arg = some x ∨ (arg = none ∧ dflt = .ok x)

/-- The documented meaning of the signature of a function: type 1 is `func(S, A, is_training)`, type 2 is `func(S, is_training)`, which has one output for each of finitely many actions. -/
def TypeOf (discrete : Bool) (sig : List String) (t : Nat) : Prop := (sig = ["S", "A", "is_training"] ∧ t = 1) ∨ (sig = ["S", "is_training"] ∧ discrete = true ∧ t = 2)

/-- The value transform that is used. -/
def TransformOf (vt : Option ((K → K) × (K → K))) (f : Option ((K → K) × (K → K))) : Prop := (∃ p, vt = some p ∧ f = some p) ∨ (vt = none ∧ f = some (id, id))

/-- The inputs that initialise the parameters of the network are made with the preprocessors of the object. -/
def ExampleFits (o : Built P D K) : Prop := o.exampleObs = o.obsPre ∧ o.exampleAct = o.actPre

theorem bind_ok {X Y : Type _} {x : Except Err X} {f : X → Except Err Y} {y : Y} : x.bind f = .ok y ↔ ∃ a, x = .ok a ∧ f a = .ok y := by
  cases x <;> simp [Except.bind]

theorem orDefault_ok {X : Type _} {arg : Option X} {dflt : Except Err X} {x : X} : orDefault arg dflt = .ok x ↔ Given arg dflt x := by
  cases arg <;> simp [orDefault, Given]

theorem checkSig12_ok {discrete : Bool} {sig : List String} {t : Nat} : checkSig12 discrete sig = .ok t ↔ TypeOf discrete sig t := by
  unfold checkSig12 TypeOf
  by_cases h1 : sig = ["S", "A", "is_training"]
  · subst h1; simp [eq_comm]
  · by_cases h2 : sig = ["S", "is_training"]
    · subst h2; cases discrete <;> simp [eq_comm]
    · simp [h1, h2]

theorem checkSig2_ok {sig : List String} {t : Nat} : checkSig2 sig = .ok t ↔ sig = ["S", "is_training"] ∧ t = 2 := by
  unfold checkSig2
  by_cases h2 : sig = ["S", "is_training"] <;> simp [h2, eq_comm]

theorem transformOf_iff {vt : Option ((K → K) × (K → K))} {f : Option ((K → K) × (K → K))} : f = some (orIdentity vt) ↔ TransformOf vt f := by
  cases vt <;> simp [orIdentity, TransformOf] <;> rfl

/-- C102, the signature: what is accepted, and as which type; everything else raises `TypeError`. -/
theorem C102_signature (discrete : Bool) (sig : List String) :
    (∀ t, checkSig12 discrete sig = .ok t ↔ TypeOf discrete sig t) ∧ ((∀ t, ¬ TypeOf discrete sig t) → checkSig12 discrete sig = .error .typeError) ∧
    (checkSig2 sig = .ok 2 ↔ sig = ["S", "is_training"]) ∧ (sig ≠ ["S", "is_training"] → checkSig2 sig = .error .typeError) := by
  refine ⟨fun t => checkSig12_ok, ?_, by simp [checkSig2_ok], fun h => by simp [checkSig2, h]⟩
  intro h
  cases hc : checkSig12 discrete sig with
  | ok t => exact absurd (checkSig12_ok.1 hc) (h t)
  | error e =>
    unfold checkSig12 at hc
    split at hc
    · rw [Except.error.inj hc]
    · split at hc
      · rw [Except.error.inj hc]
      · split at hc <;> cases hc

/-- C102 for `V`. -/
theorem C102_v (L : Lib Sp P D K) (env : EnvInfo Sp K) (sig : List String) (obsPre : Option P) (vt : Option ((K → K) × (K → K))) (seed : Option Nat) (o : Built P D K) :
    mkV L env sig obsPre vt seed = .ok o ↔ sig = ["S", "is_training"] ∧ Given obsPre (L.defaultPre env.observationSpace) o.obsPre ∧ TransformOf vt o.transform ∧ o.seed = seed ∧ ExampleFits o ∧
      o.modeltype = 2 ∧ o.dist = none ∧ o.actPre = none ∧ o.obsPost = none := by
  obtain ⟨a1, a2, a3, a4, a5, a6, a7, a8, a9⟩ := o
  simp only [mkV, bind_ok, orDefault_ok, checkSig2_ok, Except.ok.injEq, Built.mk.injEq, ExampleFits, ← transformOf_iff]
  constructor
  · rintro ⟨p, hp, t, ⟨hs, rfl⟩, q, hq, rfl, rfl, rfl, rfl, rfl, rfl, rfl, rfl, rfl⟩
    simp only [Given, Option.some.injEq, reduceCtorEq, false_and, or_false] at hq
    subst hq
    simp [hs, hp]
  · rintro ⟨rfl, hp, rfl, rfl, ⟨rfl, rfl⟩, rfl, rfl, rfl, rfl⟩
    exact ⟨_, hp, _, ⟨rfl, rfl⟩, _, Or.inl rfl, by simp⟩

/-- C102 for `Policy`. -/
theorem C102_policy (L : Lib Sp P D K) (env : EnvInfo Sp K) (sig : List String) (obsPre : Option P) (dist : Option D) (seed : Option Nat) (o : Built P D K) :
    mkPolicy L env sig obsPre dist seed = .ok o ↔ sig = ["S", "is_training"] ∧ Given obsPre (L.defaultPre env.observationSpace) o.obsPre ∧
      (∃ d, o.dist = some d ∧ Given dist (L.probaDist env.actionSpace) d) ∧ o.seed = seed ∧ ExampleFits o ∧ o.modeltype = 2 ∧ o.transform = none ∧ o.actPre = none ∧ o.obsPost = none := by
  obtain ⟨a1, a2, a3, a4, a5, a6, a7, a8, a9⟩ := o
  simp only [mkPolicy, mkType2, bind_ok, orDefault_ok, checkSig2_ok, Except.ok.injEq, Built.mk.injEq, ExampleFits]
  constructor
  · rintro ⟨p, hp, d, hd, t, ⟨hs, rfl⟩, rfl, rfl, rfl, rfl, rfl, rfl, rfl, rfl, rfl⟩
    simp [hs, hp, hd]
  · rintro ⟨rfl, hp, ⟨d, rfl, hd⟩, rfl, ⟨rfl, rfl⟩, rfl, rfl, rfl, rfl⟩
    exact ⟨_, hp, _, hd, _, ⟨rfl, rfl⟩, by simp⟩

/-- The documented distribution of values: quantiles if no range of values is given, and otherwise bins of the transformed range. -/
def ValueDist (L : Lib Sp P D K) (vt : Option ((K → K) × (K → K))) (numBins : Nat) (range : Option (K × K)) (d : D) : Prop :=
  (range = none ∧ d = L.quantiles numBins) ∨ ∃ lo hi, range = some (lo, hi) ∧ L.interval ((vt.getD (id, id)).1 lo) ((vt.getD (id, id)).1 hi) numBins = .ok d

theorem qDist_ok {L : Lib Sp P D K} {vt : Option ((K → K) × (K → K))} {numBins : Nat} {range : Option (K × K)} {d : D} : qDist L vt numBins range = .ok d ↔ ValueDist L vt numBins range d := by
  rcases range with _ | ⟨lo, hi⟩
  · simp [qDist, ValueDist, eq_comm (a := d)]
  · rcases vt with _ | ⟨f, g⟩
    · exact ⟨fun h => Or.inr ⟨lo, hi, rfl, h⟩, fun h => by rcases h with ⟨h, _⟩ | ⟨_, _, h, h'⟩ <;> cases h; exact h'⟩
    · exact ⟨fun h => Or.inr ⟨lo, hi, rfl, h⟩, fun h => by rcases h with ⟨h, _⟩ | ⟨_, _, h, h'⟩ <;> cases h; exact h'⟩

/-- C102 for `StochasticQ`. -/
theorem C102_stochastic_q (L : Lib Sp P D K) (env : EnvInfo Sp K) (sig : List String) (range : Option (K × K)) (numBins : Nat) (obsPre actPre : Option P) (vt : Option ((K → K) × (K → K)))
    (seed : Option Nat) (o : Built P D K) :
    mkStochasticQ L env sig range numBins obsPre actPre vt seed = .ok o ↔ TypeOf (L.isDiscrete env.actionSpace) sig o.modeltype ∧ Given obsPre (L.defaultPre env.observationSpace) o.obsPre ∧
      (∃ a, o.actPre = some a ∧ Given actPre (L.defaultPre env.actionSpace) a) ∧ TransformOf vt o.transform ∧ (∃ d, o.dist = some d ∧ ValueDist L vt numBins range d) ∧ o.seed = seed ∧ ExampleFits o ∧
      o.obsPost = none := by
  obtain ⟨a1, a2, a3, a4, a5, a6, a7, a8, a9⟩ := o
  simp only [mkStochasticQ, mkType1, bind_ok, orDefault_ok, checkSig12_ok, qDist_ok, Except.ok.injEq, Built.mk.injEq, ExampleFits, ← transformOf_iff]
  constructor
  · rintro ⟨d, hd, p, hp, a, ha, t, ht, rfl, rfl, rfl, rfl, rfl, rfl, rfl, rfl, rfl⟩
    simp [hp, hd, ha, ht]
  · rintro ⟨ht, hp, ⟨a, rfl, ha⟩, rfl, ⟨d, rfl, hd⟩, rfl, ⟨rfl, rfl⟩, rfl⟩
    exact ⟨_, hd, _, hp, _, ha, _, ht, by simp⟩

/-- C102 for `StochasticV`. -/
theorem C102_stochastic_v [LT K] [DecidableLT K] (L : Lib Sp P D K) (env : EnvInfo Sp K) (sig : List String) (range : K × K) (numBins : Nat) (obsPre : Option P) (vt : Option ((K → K) × (K → K)))
    (seed : Option Nat) (o : Built P D K) :
    mkStochasticV L env sig range numBins obsPre vt seed = .ok o ↔ range.1 < range.2 ∧ sig = ["S", "is_training"] ∧ Given obsPre (L.defaultPre env.observationSpace) o.obsPre ∧
      TransformOf vt o.transform ∧ (∃ d, o.dist = some d ∧ ValueDist L vt numBins (some range) d) ∧ o.seed = seed ∧ ExampleFits o ∧ o.modeltype = 2 ∧ o.actPre = none ∧ o.obsPost = none := by
  by_cases hr : range.1 < range.2
  · have hd : ∀ d, vDist L vt numBins range = .ok d ↔ ValueDist L vt numBins (some range) d := by
      intro d
      rw [← qDist_ok]; rfl
    obtain ⟨a1, a2, a3, a4, a5, a6, a7, a8, a9⟩ := o
    simp only [mkStochasticV, hr, if_true, true_and, mkType2, bind_ok, orDefault_ok, checkSig2_ok, hd, Except.ok.injEq, Built.mk.injEq, ExampleFits, ← transformOf_iff]
    constructor
    · rintro ⟨d, hd, p, hp, t, ⟨hs, rfl⟩, rfl, rfl, rfl, rfl, rfl, rfl, rfl, rfl, rfl⟩
      simp [hp, hd, hs]
    · rintro ⟨rfl, hp, rfl, ⟨d, rfl, hd⟩, rfl, ⟨rfl, rfl⟩, rfl, rfl, rfl⟩
      exact ⟨_, hd, _, hp, _, ⟨rfl, rfl⟩, by simp⟩
  · simp [mkStochasticV, hr]

/-- C102 for `StochasticTransitionModel`. -/
theorem C102_stochastic_transition_model (L : Lib Sp P D K) (env : EnvInfo Sp K) (sig : List String) (obsPre actPre : Option P) (dist : Option D) (seed : Option Nat) (o : Built P D K) :
    mkStochasticTransitionModel L env sig obsPre actPre dist seed = .ok o ↔ TypeOf (L.isDiscrete env.actionSpace) sig o.modeltype ∧
      (∃ d, o.dist = some d ∧ Given dist (L.probaDist env.observationSpace) d ∧ Given obsPre (.ok (L.preVariate d)) o.obsPre) ∧
      (∃ a, o.actPre = some a ∧ Given actPre (L.defaultPre env.actionSpace) a) ∧ o.seed = seed ∧ ExampleFits o ∧ o.transform = none ∧ o.obsPost = none := by
  obtain ⟨a1, a2, a3, a4, a5, a6, a7, a8, a9⟩ := o
  simp only [mkStochasticTransitionModel, mkType1, bind_ok, orDefault_ok, checkSig12_ok, Except.ok.injEq, Built.mk.injEq, ExampleFits]
  constructor
  · rintro ⟨d, hd, p, hp, a, ha, t, ht, rfl, rfl, rfl, rfl, rfl, rfl, rfl, rfl, rfl⟩
    simp [hp, hd, ha, ht]
  · rintro ⟨ht, ⟨d, rfl, hd, hp⟩, ⟨a, rfl, ha⟩, rfl, ⟨rfl, rfl⟩, rfl, rfl⟩
    exact ⟨_, hd, _, hp, _, ha, _, ht, by simp⟩

/-- C102 for `Q`, all but the observations from which the network is initialised: these are always preprocessed by the default preprocessor. -/
theorem C102_q_partial (L : Lib Sp P D K) (env : EnvInfo Sp K) (sig : List String) (obsPre actPre : Option P) (vt : Option ((K → K) × (K → K))) (seed : Option Nat) (o : Built P D K) :
    mkQ L env sig obsPre actPre vt seed = .ok o ↔ TypeOf (L.isDiscrete env.actionSpace) sig o.modeltype ∧ Given obsPre (L.defaultPre env.observationSpace) o.obsPre ∧
      (∃ a, o.actPre = some a ∧ Given actPre (L.defaultPre env.actionSpace) a) ∧ TransformOf vt o.transform ∧ o.seed = seed ∧ o.dist = none ∧ o.obsPost = none ∧
      o.exampleAct = o.actPre ∧ L.defaultPre env.observationSpace = .ok o.exampleObs := by
  obtain ⟨a1, a2, a3, a4, a5, a6, a7, a8, a9⟩ := o
  simp only [mkQ, bind_ok, orDefault_ok, checkSig12_ok, Except.ok.injEq, Built.mk.injEq, ← transformOf_iff]
  constructor
  · rintro ⟨p, hp, a, ha, t, ht, q, hq, b, hb, rfl, rfl, rfl, rfl, rfl, rfl, rfl, rfl, rfl⟩
    simp only [Given, Option.some.injEq, reduceCtorEq, false_and, or_false, true_and, false_or] at hq hb
    subst hb
    exact ⟨ht, hp, ⟨_, rfl, ha⟩, rfl, rfl, rfl, rfl, rfl, hq⟩
  · rintro ⟨ht, hp, ⟨a, rfl, ha⟩, rfl, rfl, rfl, rfl, rfl, hq⟩
    exact ⟨_, hp, _, ha, _, ht, _, Or.inr ⟨rfl, hq⟩, _, Or.inl rfl, by simp⟩

/-- C102 for `TransitionModel`, with the same exception. -/
theorem C102_transition_model_partial (L : Lib Sp P D K) (env : EnvInfo Sp K) (sig : List String) (obsPre obsPost actPre : Option P) (seed : Option Nat) (o : Built P D K) :
    mkTransitionModel L env sig obsPre obsPost actPre seed = .ok o ↔ TypeOf (L.isDiscrete env.actionSpace) sig o.modeltype ∧
      Given obsPre ((L.probaDist env.observationSpace).map L.preVariate) o.obsPre ∧ (∃ p, o.obsPost = some p ∧ Given obsPost ((L.probaDist env.observationSpace).map L.postVariate) p) ∧
      (∃ a, o.actPre = some a ∧ Given actPre (L.defaultPre env.actionSpace) a) ∧ o.seed = seed ∧ o.dist = none ∧ o.transform = none ∧
      o.exampleAct = o.actPre ∧ (L.probaDist env.observationSpace).map L.preVariate = .ok o.exampleObs := by
  obtain ⟨a1, a2, a3, a4, a5, a6, a7, a8, a9⟩ := o
  simp only [mkTransitionModel, bind_ok, orDefault_ok, checkSig12_ok, Except.ok.injEq, Built.mk.injEq]
  constructor
  · rintro ⟨p, hp, r, hr, a, ha, t, ht, q, hq, b, hb, rfl, rfl, rfl, rfl, rfl, rfl, rfl, rfl, rfl⟩
    simp only [Given, Option.some.injEq, reduceCtorEq, false_and, or_false, true_and, false_or] at hq hb
    subst hb
    exact ⟨ht, hp, ⟨_, rfl, hr⟩, ⟨_, rfl, ha⟩, rfl, rfl, rfl, rfl, hq⟩
  · rintro ⟨ht, hp, ⟨r, rfl, hr⟩, ⟨a, rfl, ha⟩, rfl, rfl, rfl, rfl, hq⟩
    exact ⟨_, hp, _, hr, _, ha, _, ht, _, Or.inr ⟨rfl, hq⟩, _, Or.inl rfl, by simp⟩

/-- C102 for `Q`, `TransitionModel` without preprocessor of observations: then the example inputs are right. -/
theorem C102_example_partial (L : Lib Sp P D K) (env : EnvInfo Sp K) (sig : List String) (actPre post : Option P) (vt : Option ((K → K) × (K → K))) (seed : Option Nat) (o : Built P D K) :
    (mkQ L env sig none actPre vt seed = .ok o → ExampleFits o) ∧ (mkTransitionModel L env sig none post actPre seed = .ok o → ExampleFits o) := by
  constructor
  · intro h
    obtain ⟨_, h1, _, _, _, _, _, h2, h3⟩ := (C102_q_partial L env sig none actPre vt seed o).1 h
    simp only [Given, reduceCtorEq, false_or, true_and] at h1
    exact ⟨Except.ok.inj (h3.symm.trans h1), h2⟩
  · intro h
    obtain ⟨_, h1, _, _, _, _, _, h2, h3⟩ := (C102_transition_model_partial L env sig none post actPre seed o).1 h
    simp only [Given, reduceCtorEq, false_or, true_and] at h1
    exact ⟨Except.ok.inj (h3.symm.trans h1), h2⟩

/-- C102, the negation for `Q` and `TransitionModel`.  Whatever other preprocessor is given for the observations, the network is initialised with differently preprocessed observations; and if the
observation space has no default preprocessor, then the constructor raises although the preprocessor is given. -/
theorem C102_q_counterexample (L : Lib Sp P D K) (env : EnvInfo Sp K) (sig : List String) (p : P) (actPre post : Option P) (vt : Option ((K → K) × (K → K))) (seed : Option Nat) :
    (∀ o, L.defaultPre env.observationSpace ≠ .ok p → mkQ L env sig (some p) actPre vt seed = .ok o → o.obsPre = p ∧ ¬ ExampleFits o) ∧
    (∀ e, L.defaultPre env.observationSpace = .error e → ∃ e', mkQ L env sig (some p) actPre vt seed = .error e') ∧
    (∀ o, (L.probaDist env.observationSpace).map L.preVariate ≠ .ok p → mkTransitionModel L env sig (some p) post actPre seed = .ok o → o.obsPre = p ∧ ¬ ExampleFits o) := by
  refine ⟨fun o hp h => ?_, fun e he => ?_, fun o hp h => ?_⟩
  · obtain ⟨_, h1, _, _, _, _, _, h2, h3⟩ := (C102_q_partial L env sig (some p) actPre vt seed o).1 h
    simp only [Given, Option.some.injEq, reduceCtorEq, false_and, or_false] at h1
    exact ⟨h1.symm, fun hf => hp (by rw [h3, hf.1, ← h1])⟩
  · cases hc : mkQ L env sig (some p) actPre vt seed with
    | error e' => exact ⟨e', rfl⟩
    | ok o =>
      obtain ⟨_, _, _, _, _, _, _, _, h3⟩ := (C102_q_partial L env sig (some p) actPre vt seed o).1 hc
      rw [he] at h3; cases h3
  · obtain ⟨_, h1, _, _, _, _, _, h2, h3⟩ := (C102_transition_model_partial L env sig (some p) post actPre seed o).1 h
    simp only [Given, Option.some.injEq, reduceCtorEq, false_and, or_false] at h1
    exact ⟨h1.symm, fun hf => hp (by rw [h3, hf.1, ← h1])⟩

/-- C102 for `StochasticRewardFunction`, which only has the given range of values, by default that of the rewards of the environment. -/
theorem C102_stochastic_reward_partial (L : Lib Sp P D K) (env : EnvInfo Sp K) (sig : List String) (range : Option (K × K)) (numBins : Nat) (obsPre actPre : Option P) (vt : Option ((K → K) × (K → K)))
    (seed : Option Nat) (o : Built P D K) (h : mkStochasticReward L env sig range numBins obsPre actPre vt seed = .ok o) :
    TypeOf (L.isDiscrete env.actionSpace) sig o.modeltype ∧ ExampleFits o ∧ (∃ d r, o.dist = some d ∧ Given range (.ok env.rewardRange) r ∧ L.interval r.1 r.2 51 = .ok d) ∧
    L.defaultPre env.observationSpace = .ok o.obsPre ∧ L.defaultPre env.actionSpace = o.actPre.elim (.error .typeError) .ok ∧ o.transform = some (id, id) ∧ o.seed = none := by
  obtain ⟨h1, h2, ⟨a, h3, h4⟩, h5, ⟨d, h6, h7⟩, h8, h9, _⟩ := (C102_stochastic_q ..).1 h
  refine ⟨h1, h9, ⟨d, range.getD env.rewardRange, h6, ?_, ?_⟩, ?_, ?_, ?_, h8⟩
  · cases range <;> simp [Given]
  · simp only [ValueDist, reduceCtorEq, false_and, false_or, Option.some.injEq, Option.getD_none, id] at h7
    obtain ⟨lo, hi, h7, h7'⟩ := h7
    rw [h7]; exact h7'
  · simpa [Given] using h2
  · rw [h3]; simpa [Given] using h4
  · simpa [TransformOf] using h5

/-- An example: observations `false`, actions `true`; preprocessors, distributions and values are numbers. -/
def exLib : Lib Bool Nat Nat Int where
  isDiscrete s := s
  defaultPre _ := .ok 0
  probaDist _ := .ok 0
  preVariate d := d
  postVariate d := d
  interval _ _ n := .ok n
  quantiles n := n

/-- C102, the negation for `StochasticRewardFunction`: number of bins, preprocessors, value transform and seed are ignored. -/
theorem C102_stochastic_reward_counterexample : ∃ o, mkStochasticReward exLib ⟨false, true, (0, 1)⟩ ["S", "is_training"] none 7 (some 5) (some 6) (some (fun x => 2 * x, fun x => x / 2)) (some 13) = .ok o ∧
    o.dist = some 51 ∧ o.obsPre = 0 ∧ o.actPre = some 0 ∧ o.transform = some (id, id) ∧ o.seed = none := by
  exact ⟨_, rfl, rfl, rfl, rfl, rfl, rfl⟩

/-- The same arguments are respected by `StochasticQ`. -/
example : ∃ o, mkStochasticQ exLib ⟨false, true, (0, 1)⟩ ["S", "is_training"] none 7 (some 5) (some 6) (some (fun x => 2 * x, fun x => x / 2)) (some 13) = .ok o ∧
    o.dist = some 7 ∧ o.obsPre = 5 ∧ o.actPre = some 6 ∧ o.seed = some 13 ∧ o.modeltype = 2 := by
  exact ⟨_, rfl, rfl, rfl, rfl, rfl, rfl⟩

/-- A `Q` with its own preprocessor of observations is constructed, and its network is initialised with other inputs. -/
example : ∃ o, mkQ exLib ⟨false, true, (0, 1)⟩ ["S", "A", "is_training"] (some 5) none none none = .ok o ∧ o.obsPre = 5 ∧ o.exampleObs = 0 ∧ o.modeltype = 1 := by
  exact ⟨_, rfl, rfl, rfl, rfl⟩

example : exLib.defaultPre false ≠ .ok 5 := by simp [exLib]

end Coax.Core
