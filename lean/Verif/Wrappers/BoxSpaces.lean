import Verif.Err
import Mathlib.Analysis.SpecialFunctions.Sigmoid
import Mathlib.Algebra.BigOperators.Group.List.Basic

/-!
Model of `BoxActionsToReals` and `BoxActionsToDiscrete` (`coax/wrappers/_box_spaces.py:14-113`).

Arrays are flattened in row-major order (`reshape` then does nothing).  The bounds `low`, `high` of the Box are finite.  The
shape of the Box is not `()`: for that shape `onp.prod` is the float `1.0`.  The draws of `_rnd.rand` are an argument.  Of
`step`, only the action passed on to the inner environment is modelled.  Numbers are real; rounding is not modelled.
-/

namespace Coax.BoxSpaces

/-- The Box of the inner environment: the flattened bounds.  (`coax/wrappers/_box_spaces.py:32-40,75-81`.) -/
structure Box where
  low : List ℝ
  high : List ℝ

/-- `onp.prod(shape)`.  (`coax/wrappers/_box_spaces.py:37,98`.) -/
def Box.size (b : Box) : Nat := b.low.length

/-- The argument `num_bins`: an int, a tuple of ints, or anything else.  (`coax/wrappers/_box_spaces.py:97-109`.) -/
inductive NumBins where
  | int (n : Int)
  | tuple (ns : List Int)
  | other

/-- The Box and the attribute `_nvec` of the wrapper.  (`coax/wrappers/_box_spaces.py:75-81,97-113`.) -/
structure Discretizer where
  box : Box
  nvec : List Int

/-- The last part of `_init_action_space`, `coax/wrappers/_box_spaces.py:110-113`: gymnasium's `Discrete` and `MultiDiscrete` assert that the counts are
positive. -/
def checkPositive (d : Discretizer) : Except Err Discretizer :=
  if d.nvec.all (fun n => decide (0 < n)) then .ok d else .error .assertionError

/-- `_init_action_space`, `coax/wrappers/_box_spaces.py:97-113`. -/
def init (box : Box) (numBins : NumBins) : Except Err Discretizer :=
  match numBins with
  | .int n => checkPositive { box := box, nvec := List.replicate box.size n }
  | .tuple ns => if ns.length ≠ box.size then .error .valueError else checkPositive { box := box, nvec := ns }
  | .other => .error .typeError

/-- `action_space.contains`: a vector of the right length with `0 ≤ a_i < nvec_i`.  (For `Discrete` the action is a single int,
here a vector of length one.)  (`coax/wrappers/_box_spaces.py:84`.) -/
def Discretizer.contains (d : Discretizer) (a : List Int) : Bool :=
  a.length == d.nvec.length && (a.zip d.nvec).all (fun p => decide (0 ≤ p.1) && decide (p.1 < p.2))

/-- `_discrete_to_box`, `coax/wrappers/_box_spaces.py:90-95`, one coordinate. -/
noncomputable def toBox (lo hi : ℝ) (n a : Int) (u : ℝ) : ℝ := lo + ((a + u) / n) * (hi - lo)

/-- `_discrete_to_box`, `coax/wrappers/_box_spaces.py:90-95`. -/
noncomputable def Discretizer.discreteToBox (d : Discretizer) (a : List Int) (u : List ℝ) : List ℝ :=
  List.zipWith (fun b p => toBox b.1 b.2 p.2.1 p.1 p.2.2) (d.box.low.zip d.box.high) (a.zip (d.nvec.zip u))

/-- `step`, `coax/wrappers/_box_spaces.py:83-88`: the action handed to the inner environment. -/
noncomputable def Discretizer.step (d : Discretizer) (a : List Int) (u : List ℝ) : Except Err (List ℝ) :=
  if ¬ d.contains a then .error .assertionError else .ok (d.discreteToBox a u)

/-- `onp.clip(action, -1e15, 1e15)`, `coax/wrappers/_box_spaces.py:51`. -/
noncomputable def clip15 (x : ℝ) : ℝ := min (max x (-(10 : ℝ) ^ 15)) ((10 : ℝ) ^ 15)

/-- `_compactify`, `coax/wrappers/_box_spaces.py:49-53`, one coordinate.  `Real.sigmoid x = 1 / (1 + exp (-x))`, as `scipy.special.expit`. -/
noncomputable def compact (lo hi x : ℝ) : ℝ := lo + (hi - lo) * Real.sigmoid (clip15 x)

/-- `_compactify`, `coax/wrappers/_box_spaces.py:49-53`. -/
noncomputable def Box.compactify (box : Box) (a : List ℝ) : List ℝ :=
  List.zipWith (fun b x => compact b.1 b.2 x) (box.low.zip box.high) a

open Classical in
/-- `BoxActionsToReals.step`, `coax/wrappers/_box_spaces.py:42-47`: the action handed to the inner environment.  The action space (`coax/wrappers/_box_spaces.py:37-40`) is the
flat Box with bounds `±1e15`. -/
noncomputable def Box.stepReals (box : Box) (a : List ℝ) : Except Err (List ℝ) :=
  if ¬ (a.length = box.size ∧ ∀ x ∈ a, -(10 : ℝ) ^ 15 ≤ x ∧ x ≤ (10 : ℝ) ^ 15) then .error .assertionError
  else .ok (box.compactify a)

end Coax.BoxSpaces
