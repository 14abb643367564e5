import Mathlib.Algebra.Order.Field.Basic

/-!
Model of `OrnsteinUhlenbeckNoise` (`coax/utils/_action_noise.py:9-110`).  Everything in the class is elementwise, so one
coordinate of the action is modelled, over an exact ordered field; the white noise drawn from `rnd.randn` is an argument.
Broadcasting is not modelled.
-/

namespace Coax.ActionNoise

variable {K : Type _} [Field K] [LinearOrder K]

/-- The attributes, `coax/utils/_action_noise.py:65-75`. -/
structure OU (K : Type _) where
  mu : K
  theta : K
  sigma : K
  minValue : K
  maxValue : K
  noise : Option K

/-- `reset`, `coax/utils/_action_noise.py:77-83`. -/
def OU.reset (s : OU K) : OU K := { s with noise := none }

/-- `__init__`, `coax/utils/_action_noise.py:65-75`; the bounds default to `∓1e15`. -/
def new (mu sigma theta : K) (minValue maxValue : Option K) : OU K :=
  { mu := mu, theta := theta, sigma := sigma, minValue := minValue.getD (-(10 : K) ^ 15), maxValue := maxValue.getD ((10 : K) ^ 15), noise := none }

/-- `numpy.clip`: the maximum with the lower bound is taken first.  (`coax/utils/_action_noise.py:109`.) -/
def clip (x lo hi : K) : K := min (max x lo) hi

/-- `__call__`, `coax/utils/_action_noise.py:85-110`; `w` is the white noise. -/
def OU.call (s : OU K) (a w : K) : OU K × K :=
  let x := s.noise.getD s.mu
  let x := x + (s.theta * (s.mu - x) + s.sigma * w)
  let x := clip x s.minValue s.maxValue
  ({ s with noise := some x }, a + x)

end Coax.ActionNoise
