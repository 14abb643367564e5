import Verif.Err
import Mathlib.Analysis.SpecialFunctions.Pow.Real
import Mathlib.Data.List.Sort
import Mathlib.Algebra.Order.Floor.Ring

/-!
Model of `double_relu`, `tree_ravel`, `get_grads_diagnostics` and `get_magnitude_quantiles` (`coax/utils/_array.py`), over the reals.  A pytree is the list of its leaves and a
leaf the list of its entries.
-/

namespace Coax.Utils

/-- `jax.nn.relu`.  (`coax/utils/_array.py:505`.) -/
noncomputable def relu (x : ℝ) : ℝ := max x 0

/-- `double_relu` along the last axis, `coax/utils/_array.py:462-505`: what it does to one row of the array. -/
noncomputable def doubleReluRow (x : List ℝ) : List ℝ := x.map (fun y => -relu (-y)) ++ x.map relu

/-- `double_relu` of an array with at least two axes, the list of its rows.  (`coax/utils/_array.py:505`.) -/
noncomputable def doubleRelu (arr : List (List ℝ)) : List (List ℝ) := arr.map doubleReluRow

/-- `tree_ravel`, `coax/utils/_array.py:944-963`.  Concatenating nothing is a `ValueError`. -/
def treeRavel (leaves : List (List ℝ)) : Except Err (List ℝ) := if leaves.isEmpty then .error .valueError else .ok leaves.flatten

/-- The largest entry, `jnp.max`; `ValueError` for an empty array.  (`coax/utils/_array.py:511`.) -/
noncomputable def arrMax : List ℝ → Except Err ℝ
  | [] => .error .valueError
  | x :: xs => .ok (xs.foldl max x)

/-- `_get_leaf_diagnostics`, `coax/utils/_array.py:508-513`: the entries `max` and `norm`. -/
noncomputable def leafDiagnostics (leaf : List ℝ) : Except Err (ℝ × ℝ) := (arrMax (leaf.map fun x => |x|)).map fun m => (m, Real.sqrt (leaf.map fun x => x ^ 2).sum)

/-- `get_grads_diagnostics(grads)`, `coax/utils/_array.py:516-550`, with `keep_tree_structure=False`. -/
noncomputable def gradsDiagnostics (grads : List (List ℝ)) : Except Err (ℝ × ℝ) :=
  match treeRavel grads with
  | .error e => .error e
  | .ok g => leafDiagnostics g

/-- The same with `keep_tree_structure=True`, `coax/utils/_array.py:548-549`. -/
noncomputable def gradsDiagnosticsTree (grads : List (List ℝ)) : Except Err (List (ℝ × ℝ)) := grads.mapM leafDiagnostics

/-- `jnp.quantile(a, q)` with linear interpolation between the sorted entries.  (`coax/utils/_array.py:582`.) -/
noncomputable def quantile (a : List ℝ) (q : ℝ) : ℝ :=
  let s := a.mergeSort (fun x y => decide (x ≤ y))
  let pos := q * (a.length - 1 : ℝ)
  let lo := ⌊pos⌋₊
  let hi := ⌈pos⌉₊
  let w := pos - lo
  s.getD lo 0 * (1 - w) + s.getD hi 0 * w

/-- `get_magnitude_quantiles`, `coax/utils/_array.py:553-584`: the entries `min`, `p25`, `p50`, `p75`, `max`.  (What jax does if there are leaves but no
entries is not modelled.) -/
noncomputable def magnitudeQuantiles (leaves : List (List ℝ)) : Except Err (List ℝ) :=
  match treeRavel leaves with
  | .error e => .error e
  | .ok x => .ok ([0, 1 / 4, 1 / 2, 3 / 4, 1].map (quantile (x.map fun y => |y|)))

end Coax.Utils
