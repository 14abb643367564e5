import Verif.RewardTracing.NStep
import Mathlib.Algebra.BigOperators.Group.Finset.Basic

/-! Specification of n-step reward tracing, independent of the deques. -/

namespace Coax.RewardTracing

variable {σ α K : Type _} [Field K] [LinearOrder K]

/-- An episode: the steps added so far, and whether the last of them had `done=True`. -/
structure Episode (σ α K : Type _) where
  steps : List (Step σ α K)
  done : Bool

/-- Reward of step `t`, zero if there is no such step. -/
def rewardAt (ep : List (Step σ α K)) (t : Nat) : K := match ep[t]? with | some x => x.r | none => 0

/-- `o` is the n-step transition of step `t` of the episode. -/
structure IsNStep (n : Nat) (gamma : K) (ep : List (Step σ α K)) (t : Nat) (o : Out σ α K) : Prop where
  /-- it starts at step `t` -/
  start : ∃ x, ep[t]? = some x ∧ o.S = x.s ∧ o.A = x.a ∧ o.logP = x.logp ∧ o.W = x.w
  /-- the n-step partial return -/
  ret : o.Rn = ∑ k ∈ Finset.range n, gamma ^ k * rewardAt ep (t + k)
  /-- bootstrapping from step `t + n` if there is one -/
  boot : ∀ y, ep[t + n]? = some y →
    o.S_next = some y.s ∧ o.A_next = some y.a ∧ o.logP_next = some y.logp ∧ o.In = gamma ^ n
  /-- no bootstrapping otherwise; the columns of the next step are filled with the step itself -/
  stop : ep[t + n]? = none → o.In = 0 ∧ o.S_next = some o.S ∧ o.A_next = some o.A ∧ o.logP_next = some o.logP

/-- What `extra_info` should be for step `t`: the `n + 1` steps from `t` on, the last step of the episode being repeated
when it is over, each with a flag that is `true` from the last step of a finished episode on. -/
def IsExtra (n : Nat) (ep : Episode σ α K) (t : Nat) (xs : List (Step σ α K × Bool)) : Prop :=
  xs.length = n + 1 ∧ ∀ k, k ≤ n → ∃ x, ep.steps[min (t + k) (ep.steps.length - 1)]? = some x ∧
    xs[k]? = some (x, ep.done && decide (ep.steps.length ≤ t + k + 1))

/-- `os` are the results of popping repeatedly, from `t` to `t'`. -/
inductive Pops : NStep σ α K → List (Out σ α K) → NStep σ α K → Prop
  | nil (t) : Pops t [] t
  | cons {t t₁ t' o os} : t.pop = (t₁, .ok o) → Pops t₁ os t' → Pops t (o :: os) t'

/-- A step that `from_single` accepts. -/
def Step.Valid (x : Step σ α K) : Prop := x.logp ≤ 0 ∧ 0 < x.w

/-- Histories of an `NStep` tracer since it was built or last reset: the episodes that were added and the transitions
that were returned by `pop` and `flush`, in order.  Any call may be made at any time. -/
inductive NHistory (n : Nat) (gamma : K) (record : Bool) :
    NStep σ α K → List (Episode σ α K) → List (Out σ α K) → Prop
  | init : NHistory n gamma record (NStep.init n gamma record) [] []
  | reset {t eps outs} : NHistory n gamma record t eps outs → NHistory n gamma record t.reset [] []
  /-- the first step of an episode -/
  | addFirst {t t' eps outs} (x : Step σ α K) (done : Bool) : NHistory n gamma record t eps outs →
      (∀ e ∈ eps.getLast?, e.done = true) → x.Valid → t.add x done = (t', none) →
      NHistory n gamma record t' (eps ++ [⟨[x], done⟩]) outs
  /-- a further step of an unfinished episode -/
  | addNext {t t' eps steps outs} (x : Step σ α K) (done : Bool) : NHistory n gamma record t (eps ++ [⟨steps, false⟩]) outs →
      x.Valid → t.add x done = (t', none) → NHistory n gamma record t' (eps ++ [⟨steps ++ [x], done⟩]) outs
  | addFails {t t' eps outs} (x : Step σ α K) (done : Bool) (e : Err) : NHistory n gamma record t eps outs →
      t.add x done = (t', some e) → NHistory n gamma record t' eps outs
  | pop {t t' eps outs o} : NHistory n gamma record t eps outs → t.pop = (t', .ok o) →
      NHistory n gamma record t' eps (outs ++ [o])
  | popFails {t t' eps outs e} : NHistory n gamma record t eps outs → t.pop = (t', .error e) →
      NHistory n gamma record t' eps outs
  | flush {t t' eps outs os} : NHistory n gamma record t eps outs → t.flush = (t', .ok os) →
      NHistory n gamma record t' eps (outs ++ os)
  | flushFails {t t' eps outs e} : NHistory n gamma record t eps outs → t.flush = (t', .error e) →
      NHistory n gamma record t' eps outs

/-- Every step ever added, in order. -/
def allSteps (eps : List (Episode σ α K)) : List (Step σ α K) := (eps.map (·.steps)).flatten

/-- What identifies the start of a transition. -/
def Out.start (o : Out σ α K) : σ × α × K × K := (o.S, o.A, o.logP, o.W)

/-- The same for a step. -/
def Step.start (x : Step σ α K) : σ × α × K × K := (x.s, x.a, x.logp, x.w)

end Coax.RewardTracing
