import Verif.Core.ExampleArgs
import Verif.Core.ConstructProps

/-! Property C153: the example data of a class describe the function that the constructor takes when it is given the same arguments. -/

namespace Coax.Core

variable {Sp P D K : Type _}

/-- The example data are made with what the object later preprocesses its inputs with and reads its outputs as. -/
def Describes (x : DataArgs P D) (o : Built P D K) : Prop := x.obsPre = o.obsPre ∧ x.actPre = o.actPre ∧ x.dist = o.dist

theorem describes_iff {x : DataArgs P D} {o : Built P D K} : Describes x o ↔ x = ⟨o.obsPre, o.actPre, o.dist⟩ := by
  obtain ⟨a, b, c⟩ := x
  simp [Describes]

theorem orDefault_some {X : Type _} (x : X) (e : Except Err X) : orDefault (some x) e = .ok x := rfl

theorem orDefault_none {X : Type _} (x : X) : orDefault none (.ok x) = .ok x := rfl

/-- C153 for `V` and `Policy`: there are example data exactly if functions with the signature of type 2 are accepted, and they describe the object. -/
theorem C153_state (L : Lib Sp P D K) (env : EnvInfo Sp K) (obsPre : Option P) (dist : Option D) (vt : Option ((K → K) × (K → K))) (seed : Option Nat) (x : DataArgs P D) :
    (dataV L env obsPre = .ok x ↔ ∃ o, mkV L env ["S", "is_training"] obsPre vt seed = .ok o ∧ Describes x o) ∧
    (dataPolicy L env obsPre dist = .ok x ↔ ∃ o, mkPolicy L env ["S", "is_training"] obsPre dist seed = .ok o ∧ Describes x o) := by
  simp only [describes_iff]
  constructor
  · cases h1 : orDefault obsPre (L.defaultPre env.observationSpace) <;> simp [dataV, mkV, h1, orDefault_some, Except.bind, checkSig2, eq_comm (a := x)]
  · cases h1 : orDefault obsPre (L.defaultPre env.observationSpace) <;> cases h2 : orDefault dist (L.probaDist env.actionSpace) <;>
      simp [dataPolicy, mkPolicy, mkType2, h1, h2, Except.bind, checkSig2, eq_comm (a := x)]

/-- C153 for `StochasticV`. -/
theorem C153_stochastic_v [LT K] [DecidableLT K] (L : Lib Sp P D K) (env : EnvInfo Sp K) (range : K × K) (numBins : Nat) (obsPre : Option P) (vt : Option ((K → K) × (K → K))) (seed : Option Nat)
    (x : DataArgs P D) :
    dataStochasticV L env (some range) numBins obsPre vt = .ok x ↔ ∃ o, mkStochasticV L env ["S", "is_training"] range numBins obsPre vt seed = .ok o ∧ Describes x o := by
  simp only [describes_iff]
  by_cases hr : range.1 < range.2
  · cases h1 : orDefault obsPre (L.defaultPre env.observationSpace) <;> cases h2 : vDist L vt numBins range <;>
      simp [dataStochasticV, mkStochasticV, checkRange, mkType2, h1, h2, hr, Except.bind, checkSig2, eq_comm (a := x)]
  · simp [dataStochasticV, mkStochasticV, checkRange, hr, Except.bind]

/-- C153 for `Q` and `TransitionModel`: whenever an object is made, there are example data for the same arguments, and they describe the object. -/
theorem C153_q (L : Lib Sp P D K) (env : EnvInfo Sp K) (sig : List String) (obsPre obsPost actPre : Option P) (vt : Option ((K → K) × (K → K))) (seed : Option Nat) (o : Built P D K) :
    (mkQ L env sig obsPre actPre vt seed = .ok o → ∃ x, dataQ L env obsPre actPre = .ok x ∧ Describes x o) ∧
    (mkTransitionModel L env sig obsPre obsPost actPre seed = .ok o → ∃ x, dataTransitionModel L env obsPre actPre = .ok x ∧ Describes x o) := by
  constructor
  · intro h
    obtain ⟨_, h1, ⟨a, ha, h2⟩, _, _, h3, _⟩ := (C102_q_partial ..).1 h
    refine ⟨⟨o.obsPre, some a, none⟩, ?_, rfl, ha.symm, h3.symm⟩
    simp only [dataQ, orDefault_ok.2 h1, orDefault_ok.2 h2, Except.bind]
  · intro h
    obtain ⟨_, h1, _, ⟨a, ha, h2⟩, _, h3, _⟩ := (C102_transition_model_partial ..).1 h
    refine ⟨⟨o.obsPre, some a, none⟩, ?_, rfl, ha.symm, h3.symm⟩
    simp only [dataTransitionModel, orDefault_ok.2 h1, orDefault_ok.2 h2, Except.bind]

/-- C153 for `StochasticQ` with a range of values, low before high. -/
theorem C153_stochastic_q_partial [LT K] [DecidableLT K] (L : Lib Sp P D K) (env : EnvInfo Sp K) (range : K × K) (hr : range.1 < range.2) (numBins : Nat) (obsPre actPre : Option P)
    (vt : Option ((K → K) × (K → K))) (seed : Option Nat) (x : DataArgs P D) :
    dataStochasticQ L env (some range) numBins obsPre actPre vt = .ok x ↔
      ∃ o, mkStochasticQ L env ["S", "A", "is_training"] (some range) numBins obsPre actPre vt seed = .ok o ∧ Describes x o := by
  simp only [describes_iff]
  cases h1 : orDefault obsPre (L.defaultPre env.observationSpace) <;> cases h2 : qDist L vt numBins (some range) <;> cases h3 : orDefault actPre (L.defaultPre env.actionSpace) <;>
    simp [dataStochasticQ, mkStochasticQ, checkRange, mkType1, h1, h2, h3, hr, Except.bind, checkSig12, eq_comm (a := x)]

/-- C153 is false of `StochasticQ` without a range of values: the object is made, with a distribution of quantiles, but there are no example data; nor are there with a range that is not increasing. -/
theorem C153_quantile_counterexample [LT K] [DecidableLT K] (L : Lib Sp P D K) (env : EnvInfo Sp K) (range : Option (K × K)) (hr : ∀ r, range = some r → ¬ r.1 < r.2) (numBins : Nat) (obsPre actPre : P)
    (vt : Option ((K → K) × (K → K))) (seed : Option Nat) :
    dataStochasticQ L env range numBins (some obsPre) (some actPre) vt = .error .typeError ∧
    ∃ o, mkStochasticQ L env ["S", "A", "is_training"] none numBins (some obsPre) (some actPre) vt seed = .ok o ∧ o.dist = some (L.quantiles numBins) := by
  constructor
  · cases range with
    | none => rfl
    | some r => simp [dataStochasticQ, checkRange, hr r rfl, Except.bind]
  · exact ⟨_, rfl, rfl⟩

/-- C153 for `StochasticTransitionModel` if no preprocessor of observations is given. -/
theorem C153_stochastic_transition_model_partial (L : Lib Sp P D K) (env : EnvInfo Sp K) (actPre : Option P) (dist : Option D) (seed : Option Nat) (x : DataArgs P D) :
    dataStochasticTransitionModel L env actPre dist = .ok x ↔ ∃ o, mkStochasticTransitionModel L env ["S", "A", "is_training"] none actPre dist seed = .ok o ∧ Describes x o := by
  simp only [describes_iff]
  cases h1 : orDefault actPre (L.defaultPre env.actionSpace) <;> cases h2 : orDefault dist (L.probaDist env.observationSpace) <;>
    simp [dataStochasticTransitionModel, mkStochasticTransitionModel, mkType1, h1, h2, orDefault_some, orDefault_none, Except.bind, checkSig12, eq_comm (a := x)]

/-- C153 is false of `StochasticTransitionModel` otherwise: whatever is passed to `example_data`, the data of the distribution that the object has do not describe an object whose preprocessor of
observations is not the one of the distribution. -/
theorem C153_stochastic_transition_model_counterexample (L : Lib Sp P D K) (env : EnvInfo Sp K) (sig : List String) (p : P) (actPre actPre' : Option P) (dist dist' : Option D) (seed : Option Nat)
    (o : Built P D K) (ho : mkStochasticTransitionModel L env sig (some p) actPre dist seed = .ok o) (hp : ∀ d, o.dist = some d → L.preVariate d ≠ p) (x : DataArgs P D)
    (hx : dataStochasticTransitionModel L env actPre' dist' = .ok x) : ¬ Describes x o := by
  obtain ⟨_, ⟨d, hd, _, h1⟩, _⟩ := (C102_stochastic_transition_model ..).1 ho
  rintro ⟨e1, _, e3⟩
  simp only [Given, Option.some.injEq, reduceCtorEq, false_and, or_false] at h1
  simp only [dataStochasticTransitionModel, bind_ok, Except.ok.injEq] at hx
  obtain ⟨a, _, d', _, rfl⟩ := hx
  obtain rfl : d' = d := Option.some.inj (e3.trans hd)
  exact hp d' hd (e1.trans h1.symm)

/-- C153 for `StochasticRewardFunction` with a range of values and nothing else. -/
theorem C153_reward_partial [LT K] [DecidableLT K] (L : Lib Sp P D K) (env : EnvInfo Sp K) (range : K × K) (hr : range.1 < range.2) (x : DataArgs P D) :
    dataStochasticQ L env (some range) 51 none none none = .ok x ↔
      ∃ o, mkStochasticReward L env ["S", "A", "is_training"] (some range) 51 none none none none = .ok o ∧ Describes x o :=
  C153_stochastic_q_partial L env range hr 51 none none none none x

/-- C153 is false of `StochasticRewardFunction` with another number of bins, if distributions with different numbers of bins differ: the example data have the number of bins that is given, the object
has 51. -/
theorem C153_reward_counterexample [LT K] [DecidableLT K] (L : Lib Sp P D K) (env : EnvInfo Sp K) (sig : List String) (range : K × K) (numBins : Nat) (obsPre actPre : Option P) (seed : Option Nat)
    (hL : ∀ d d', L.interval range.1 range.2 numBins = .ok d → L.interval range.1 range.2 51 = .ok d' → d ≠ d') (o : Built P D K) (x : DataArgs P D)
    (ho : mkStochasticReward L env sig (some range) numBins obsPre actPre none seed = .ok o) (hx : dataStochasticQ L env (some range) numBins obsPre actPre none = .ok x) : ¬ Describes x o := by
  obtain ⟨_, _, ⟨d, r, hd, hr, h1⟩, _⟩ := C102_stochastic_reward_partial L env sig (some range) numBins obsPre actPre none seed o ho
  simp only [Given, Option.some.injEq, reduceCtorEq, false_and, or_false] at hr
  subst hr
  rintro ⟨_, _, e3⟩
  simp only [dataStochasticQ, bind_ok, Except.ok.injEq] at hx
  obtain ⟨r, hc, d', h2, _, _, _, _, rfl⟩ := hx
  have : r = range := by
    simp only [checkRange] at hc
    split at hc
    · exact (Except.ok.inj hc).symm
    · cases hc
  subst this
  exact hL d' d h2 h1 (Option.some.inj (e3.trans hd))

/-! ### Cases -/

example : ∃ x o, dataStochasticQ exLib ⟨false, true, (0, 1)⟩ (some (-1, 1)) 7 (some 5) none none = .ok x ∧
    mkStochasticQ exLib ⟨false, true, (0, 1)⟩ ["S", "is_training"] (some (-1, 1)) 7 (some 5) none none (some 3) = .ok o ∧ Describes x o :=
  ⟨_, _, rfl, rfl, rfl, rfl, rfl⟩

/-- A model with its own preprocessor of observations meets the hypotheses of the counterexample. -/
example : ∃ o x, mkStochasticTransitionModel exLib ⟨false, true, (0, 1)⟩ ["S", "is_training"] (some 5) none (some 2) none = .ok o ∧ (∀ d, o.dist = some d → exLib.preVariate d ≠ 5) ∧
    dataStochasticTransitionModel exLib ⟨false, true, (0, 1)⟩ none (some 2) = .ok x ∧ x.dist = o.dist :=
  ⟨_, _, rfl, fun d h => by obtain rfl := Option.some.inj h; decide, rfl, rfl⟩

/-- A reward function with 7 bins meets the hypotheses of the counterexample. -/
example : ∃ o x, mkStochasticReward exLib ⟨false, true, (0, 1)⟩ ["S", "is_training"] (some (0, 1)) 7 none none none none = .ok o ∧
    dataStochasticQ exLib ⟨false, true, (0, 1)⟩ (some (0, 1)) 7 none none none = .ok x ∧ o.dist = some 51 ∧ x.dist = some 7 :=
  ⟨_, _, rfl, rfl, rfl, rfl⟩

end Coax.Core
