import Verif.RewardTracing.Transition

/-! Model of `coax/reward_tracing/_montecarlo.py`. -/

namespace Coax.RewardTracing

variable {σ α K : Type _} [Field K] [LinearOrder K]

/-- Attributes of a `MonteCarlo` tracer, `coax/reward_tracing/_montecarlo.py:22-29`. -/
structure MonteCarlo (σ α K : Type _) where
  gamma : K
  list : List (Step σ α K)
  done : Bool
  g : K

/-- `reset`, `coax/reward_tracing/_montecarlo.py:26-29`. -/
def MonteCarlo.reset (t : MonteCarlo σ α K) : MonteCarlo σ α K := { t with list := [], done := false, g := 0 }

/-- `__init__`, `coax/reward_tracing/_montecarlo.py:22-24`. -/
def MonteCarlo.init (gamma : K) : MonteCarlo σ α K := MonteCarlo.reset { gamma, list := [], done := false, g := 0 }

/-- `__len__`, `coax/reward_tracing/_montecarlo.py:41-42`. -/
def MonteCarlo.len (t : MonteCarlo σ α K) : Nat := t.list.length

/-- `__bool__`, `coax/reward_tracing/_montecarlo.py:44-45`. -/
def MonteCarlo.bool (t : MonteCarlo σ α K) : Bool := decide (t.len ≠ 0) && t.done

/-- `add`, `coax/reward_tracing/_montecarlo.py:31-39`. -/
def MonteCarlo.add (t : MonteCarlo σ α K) (x : Step σ α K) (done : Bool) : MonteCarlo σ α K × Option Err :=
  if t.done && decide (t.len ≠ 0) then (t, some .episodeDone)
  else ({ t with list := t.list ++ [x], done := done, g := if done then 0 else t.g }, none)

/-- `pop`, `coax/reward_tracing/_montecarlo.py:47-64`. -/
def MonteCarlo.pop (t : MonteCarlo σ α K) : MonteCarlo σ α K × Except Err (Out σ α K) :=
  if t.bool = false then (t, .error .insufficientCache)
  else
    match t.list.getLast? with
    | some x =>
      let g := x.r + t.gamma * t.g
      ({ t with list := t.list.dropLast, g := g },
       fromSingle x.s x.a x.logp g true t.gamma (some x.s) (some x.a) (some x.logp) x.w none none)
    | none => (t, .error .indexError)

/-- The `while self` loop of `flush`, `coax/reward_tracing/_base.py:90-91`, with fuel; running out of fuel is reported as
`RuntimeError` (`C19_flush` shows that it does not happen). -/
def MonteCarlo.flushLoop : Nat → MonteCarlo σ α K → List (Out σ α K) → MonteCarlo σ α K × Except Err (List (Out σ α K))
  | 0, t, _ => (t, .error .runtimeError)
  | fuel + 1, t, acc =>
    if t.bool = false then (t, .ok acc)
    else
      match t.pop with
      | (t', .error e) => (t', .error e)
      | (t', .ok o) => flushLoop fuel t' (acc ++ [o])

/-- `flush`, `coax/reward_tracing/_base.py:73-93`. -/
def MonteCarlo.flush (t : MonteCarlo σ α K) : MonteCarlo σ α K × Except Err (List (Out σ α K)) :=
  if t.bool = false then (t, .error .insufficientCache) else MonteCarlo.flushLoop (t.len + 1) t []

end Coax.RewardTracing
