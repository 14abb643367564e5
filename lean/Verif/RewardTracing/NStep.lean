import Verif.RewardTracing.Transition

/-! Model of `coax/reward_tracing/_nstep.py` and of `flush` in `coax/reward_tracing/_base.py`. -/

namespace Coax.RewardTracing

variable {σ α K : Type _} [Field K] [LinearOrder K]

/-- Attributes of an `NStep` tracer, `coax/reward_tracing/_nstep.py:36-47`.  (`int(n)` for negative `n` is not modelled.) -/
structure NStep (σ α K : Type _) where
  n : Nat
  gamma : K
  recordExtraInfo : Bool
  dequeS : List (σ × α × K × K)
  dequeR : List K
  done : Bool
  gammas : List K
  gamman : K

/-- `reset`, `coax/reward_tracing/_nstep.py:42-47`. -/
def NStep.reset (t : NStep σ α K) : NStep σ α K :=
  { t with
    dequeS := [], dequeR := [], done := false
    gammas := (List.range t.n).map (fun k => t.gamma ^ k)
    gamman := t.gamma ^ t.n }

/-- `__init__`, `coax/reward_tracing/_nstep.py:36-40`. -/
def NStep.init (n : Nat) (gamma : K) (recordExtraInfo : Bool) : NStep σ α K :=
  NStep.reset { n, gamma, recordExtraInfo, dequeS := [], dequeR := [], done := false, gammas := [], gamman := 0 }

/-- `__len__`, `coax/reward_tracing/_nstep.py:58-59`. -/
def NStep.len (t : NStep σ α K) : Nat := t.dequeS.length

/-- `__bool__`, `coax/reward_tracing/_nstep.py:61-62`. -/
def NStep.bool (t : NStep σ α K) : Bool := decide (t.len ≠ 0) && (t.done || decide (t.len > t.n))

/-- `add`, `coax/reward_tracing/_nstep.py:49-56`. -/
def NStep.add (t : NStep σ α K) (x : Step σ α K) (done : Bool) : NStep σ α K × Option Err :=
  if t.done && decide (t.len ≠ 0) then (t, some .episodeDone)
  else ({ t with dequeS := t.dequeS ++ [(x.s, x.a, x.logp, x.w)], dequeR := t.dequeR ++ [x.r], done := done }, none)

/-- The values of `last_*` after iteration `i` of the loop of `_extra_info`, `coax/reward_tracing/_nstep.py:112-120`; the
pair is `(last_s, last_a, last_r, last_logp, last_w)` and `last_done`. -/
def extraNext (dequeS : List (σ × α × K × K)) (dequeR : List K) (done tracerDone : Bool) (i : Nat)
    (last : Step σ α K × Bool) : Step σ α K × Bool :=
  match dequeS[i]?, dequeR[i]? with
  | some (s, a, logp, w), some r => (⟨s, a, r, logp, w⟩, done || (decide (i + 1 = dequeS.length) && tracerDone))
  | _, _ => (last.1, true)

/-- The loop of `_extra_info` from iteration `i` on, with `rem` iterations to go,
`coax/reward_tracing/_nstep.py:105-120`. -/
def extraLoop (dequeS : List (σ × α × K × K)) (dequeR : List K) (done tracerDone : Bool) :
    Nat → Nat → Step σ α K × Bool → List (Step σ α K × Bool)
  | 0, _, _ => []
  | rem + 1, i, last =>
    last :: extraLoop dequeS dequeR done tracerDone rem (i + 1) (extraNext dequeS dequeR done tracerDone i last)

/-- `_extra_info`, `coax/reward_tracing/_nstep.py:92-126`. -/
def NStep.extraInfo (t : NStep σ α K) (x : Step σ α K) (done : Bool) : List (Step σ α K × Bool) :=
  extraLoop t.dequeS t.dequeR done t.done (t.n + 1) 0 (x, done)

/-- `pop`, `coax/reward_tracing/_nstep.py:64-90`.  The deques are changed before `from_single` can raise.
`self._deque_s[self.n - 1]` with `n = 0` is the last element. -/
def NStep.pop (t : NStep σ α K) : NStep σ α K × Except Err (Out σ α K) :=
  if t.bool = false then (t, .error .insufficientCache)
  else
    match t.dequeS, t.dequeR with
    | (s, a, logp, w) :: ds, r :: dr =>
      let rn := (((t.gammas.zip t.dequeR).take t.n).map (fun p => p.1 * p.2)).sum
      let t' := { t with dequeS := ds, dequeR := dr }
      let next : Except Err (σ × α × K × Bool) :=
        if t'.len ≥ t.n then
          match (if t.n = 0 then ds.getLast? else ds[t.n - 1]?) with
          | some (s', a', logp', _) => .ok (s', a', logp', false)
          | none => .error .indexError
        else .ok (s, a, logp, true)
      match next with
      | .error e => (t', .error e)
      | .ok (sNext, aNext, logpNext, done) =>
        let extra := if t.recordExtraInfo then some (t'.extraInfo ⟨s, a, r, logp, w⟩ (decide (t'.len = 0))) else none
        (t', fromSingle s a logp rn done t.gamman (some sNext) (some aNext) (some logpNext) w none extra)
    | _, _ => (t, .error .indexError)

/-- The `while self` loop of `flush`, `coax/reward_tracing/_base.py:90-91`, with fuel; running out of fuel is reported as
`RuntimeError` (`C17_flush` shows that it does not happen). -/
def NStep.flushLoop : Nat → NStep σ α K → List (Out σ α K) → NStep σ α K × Except Err (List (Out σ α K))
  | 0, t, _ => (t, .error .runtimeError)
  | fuel + 1, t, acc =>
    if t.bool = false then (t, .ok acc)
    else
      match t.pop with
      | (t', .error e) => (t', .error e)
      | (t', .ok o) => flushLoop fuel t' (acc ++ [o])

/-- `flush`, `coax/reward_tracing/_base.py:73-93`.  The concatenated batch is the list of its rows. -/
def NStep.flush (t : NStep σ α K) : NStep σ α K × Except Err (List (Out σ α K)) :=
  if t.bool = false then (t, .error .insufficientCache) else NStep.flushLoop (t.len + 1) t []

end Coax.RewardTracing
