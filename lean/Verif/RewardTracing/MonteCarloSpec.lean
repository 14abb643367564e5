import Verif.RewardTracing.MonteCarlo
import Verif.RewardTracing.NStepSpec

/-! Specification of Monte-Carlo reward tracing. -/

namespace Coax.RewardTracing

variable {σ α K : Type _} [Field K] [LinearOrder K]

/-- The discounted return from step `t` to the end of the episode. -/
def returnFrom (gamma : K) (ep : List (Step σ α K)) (t : Nat) : K :=
  ∑ k ∈ Finset.range (ep.length - t), gamma ^ k * rewardAt ep (t + k)

/-- `o` is the Monte-Carlo transition of step `t` of the episode. -/
structure IsMC (gamma : K) (ep : List (Step σ α K)) (t : Nat) (o : Out σ α K) : Prop where
  start : ∃ x, ep[t]? = some x ∧ o.S = x.s ∧ o.A = x.a ∧ o.logP = x.logp ∧ o.W = x.w
  ret : o.Rn = returnFrom gamma ep t
  noBoot : o.In = 0

/-- Histories of a `MonteCarlo` tracer since it was built or last reset, as `NHistory`. -/
inductive MHistory (gamma : K) : MonteCarlo σ α K → List (Episode σ α K) → List (Out σ α K) → Prop
  | init : MHistory gamma (MonteCarlo.init gamma) [] []
  | reset {t eps outs} : MHistory gamma t eps outs → MHistory gamma t.reset [] []
  | addFirst {t t' eps outs} (x : Step σ α K) (done : Bool) : MHistory gamma t eps outs →
      (∀ e ∈ eps.getLast?, e.done = true) → x.Valid → t.add x done = (t', none) →
      MHistory gamma t' (eps ++ [⟨[x], done⟩]) outs
  | addNext {t t' eps steps outs} (x : Step σ α K) (done : Bool) : MHistory gamma t (eps ++ [⟨steps, false⟩]) outs →
      x.Valid → t.add x done = (t', none) → MHistory gamma t' (eps ++ [⟨steps ++ [x], done⟩]) outs
  | addFails {t t' eps outs} (x : Step σ α K) (done : Bool) (e : Err) : MHistory gamma t eps outs →
      t.add x done = (t', some e) → MHistory gamma t' eps outs
  | pop {t t' eps outs o} : MHistory gamma t eps outs → t.pop = (t', .ok o) → MHistory gamma t' eps (outs ++ [o])
  | popFails {t t' eps outs e} : MHistory gamma t eps outs → t.pop = (t', .error e) → MHistory gamma t' eps outs
  | flush {t t' eps outs os} : MHistory gamma t eps outs → t.flush = (t', .ok os) → MHistory gamma t' eps (outs ++ os)
  | flushFails {t t' eps outs e} : MHistory gamma t eps outs → t.flush = (t', .error e) → MHistory gamma t' eps outs

/-- `os` are the results of popping repeatedly, from `t` to `t'`. -/
inductive MPops : MonteCarlo σ α K → List (Out σ α K) → MonteCarlo σ α K → Prop
  | nil (t) : MPops t [] t
  | cons {t t₁ t' o os} : t.pop = (t₁, .ok o) → MPops t₁ os t' → MPops t (o :: os) t'

end Coax.RewardTracing
