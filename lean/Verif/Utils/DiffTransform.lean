import Verif.Err
import Mathlib.Data.Real.Basic
import Mathlib.Data.Matrix.Basic
import Mathlib.Data.Nat.Choose.Basic

/-!
Model of `diff_transform_matrix` and `diff_transform` (`coax/utils/_array.py:378-459`), over the reals: `dtype` and rounding are not modelled.
-/

namespace Coax.Utils

/-- `jnp.diag(jnp.power(-1, jnp.arange(num_frames)))`, `coax/utils/_array.py:426`. -/
def signs (n : Nat) : Matrix (Fin n) (Fin n) ℝ := Matrix.diagonal fun i => (-1) ^ (i : Nat)

/-- `scipy.linalg.pascal(n, kind='upper')`, used in `coax/utils/_array.py:427`: the entry `(i, j)` is the binomial coefficient `j` over `i`. -/
def pascalUpper (n : Nat) : Matrix (Fin n) (Fin n) ℝ := Matrix.of fun i j => (Nat.choose j i : ℝ)

/-- `s.dot(...)[::-1, ::-1]`, `coax/utils/_array.py:427`. -/
def flipped {n : Nat} (m : Matrix (Fin n) (Fin n) ℝ) : Matrix (Fin n) (Fin n) ℝ := m.submatrix Fin.rev Fin.rev

/-- `diff_transform_matrix`, `coax/utils/_array.py:378-428`, without the check of its argument. -/
noncomputable def diffMatrix (n : Nat) : Matrix (Fin n) (Fin n) ℝ := flipped (signs n * pascalUpper n)

/-- `diff_transform_matrix`, `coax/utils/_array.py:425-428`: `AssertionError` unless the number of frames is at least one.  The result is a list of rows. -/
noncomputable def diffTransformMatrix (numFrames : Int) : Except Err (List (List ℝ)) :=
  if numFrames ≥ 1 then .ok (List.ofFn fun i => List.ofFn (diffMatrix numFrames.toNat i)) else .error .assertionError

/-- `diff_transform`, `coax/utils/_array.py:458-459`, of an array whose last axis has size `n`; the other axes are flattened.  (`dtype` is not passed on.) -/
noncomputable def diffTransform {n : Nat} (X : List (Fin n → ℝ)) : Except Err (List (Fin n → ℝ)) :=
  match diffTransformMatrix n with
  | .error e => .error e
  | .ok _ => .ok (X.map fun x => Matrix.vecMul x (diffMatrix n))

end Coax.Utils
