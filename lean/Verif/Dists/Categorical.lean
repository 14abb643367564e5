import Verif.Err
import Mathlib.Analysis.SpecialFunctions.Log.Basic
import Mathlib.Algebra.BigOperators.Group.Finset.Basic
import Mathlib.Data.Fintype.BigOperators

/-!
Model of `CategoricalDist` (`coax/proba_dists/_categorical.py`), over the reals.

A batch is a list of rows.  `checkShape` turns rows of the right length into functions on `Fin n`; the functions of one row are defined on
these.  `jax.nn.softmax`, `jax.nn.log_softmax` and `jax.nn.one_hot` are library functions, modelled by their definitions.  The random numbers of
`sample` and of the tie breaking are arguments.
-/

namespace Coax.Dists

/-- `check_shape`, `coax/proba_dists/_categorical.py:57-62`: `ValueError` unless all rows have `n` entries. -/
def checkShape (n : Nat) : List (List ℝ) → Except Err (List (Fin n → ℝ))
  | [] => .ok []
  | r :: rs =>
    if h : r.length = n then
      match checkShape n rs with
      | .error e => .error e
      | .ok vs => .ok ((fun k => r[k.1]'(by rw [h]; exact k.2)) :: vs)
    else .error .valueError

variable {n : Nat}

/-- `jax.nn.softmax` of one row.  (`coax/proba_dists/_categorical.py:73`.) -/
noncomputable def softmax (z : Fin n → ℝ) : Fin n → ℝ := fun k => Real.exp (z k) / ∑ j, Real.exp (z j)

/-- `jax.nn.log_softmax` of one row.  (`coax/proba_dists/_categorical.py:66`.) -/
noncomputable def logSoftmax (z : Fin n → ℝ) : Fin n → ℝ := fun k => z k - Real.log (∑ j, Real.exp (z j))

/-- `sample` of one row, `coax/proba_dists/_categorical.py:64-69`; `u` are the uniform random numbers. -/
noncomputable def sampleRow (tau : ℝ) (u z : Fin n → ℝ) : Fin n → ℝ :=
  softmax (fun k => (-Real.log (-Real.log (u k)) + logSoftmax z k) / tau)

/-- `mean` of one row, `coax/proba_dists/_categorical.py:71-73`. -/
noncomputable def meanRow (z : Fin n → ℝ) : Fin n → ℝ := softmax z

/-- `mode` of one row, `coax/proba_dists/_categorical.py:75-78`. -/
noncomputable def modeRow (tau : ℝ) (z : Fin n → ℝ) : Fin n → ℝ := softmax (fun k => logSoftmax z k / tau)

/-- `log_proba` of one row, `coax/proba_dists/_categorical.py:80-84`. -/
noncomputable def logProbaRow (z X : Fin n → ℝ) : ℝ := ∑ k, X k * logSoftmax z k

/-- `entropy` of one row, `coax/proba_dists/_categorical.py:86-89`. -/
noncomputable def entropyRow (z : Fin n → ℝ) : ℝ := ∑ k, Real.exp (logSoftmax z k) * -logSoftmax z k

/-- `cross_entropy` of one row, `coax/proba_dists/_categorical.py:91-96`. -/
noncomputable def crossEntropyRow (zp zq : Fin n → ℝ) : ℝ := ∑ k, softmax zp k * -logSoftmax zq k

/-- `kl_divergence` of one row, `coax/proba_dists/_categorical.py:98-103`. -/
noncomputable def klRow (zp zq : Fin n → ℝ) : ℝ := ∑ k, Real.exp (logSoftmax zp k) * (logSoftmax zp k - logSoftmax zq k)

/-- A function of one batch of logits.  (`coax/proba_dists/_categorical.py:57-62`.) -/
noncomputable def batch1 {β : Type _} (n : Nat) (f : (Fin n → ℝ) → β) (Z : List (List ℝ)) : Except Err (List β) :=
  match checkShape n Z with
  | .error e => .error e
  | .ok zs => .ok (zs.map f)

/-- A function of two batches, row by row.  A batch of size one is broadcast (the default priors, `coax/proba_dists/_categorical.py:125-127`, are one); batches of other
different sizes raise `mismatch`: `ValueError` from `einsum`, `TypeError` from a subtraction. -/
noncomputable def batch2 {β : Type _} (n : Nat) (mismatch : Err) (f : (Fin n → ℝ) → (Fin n → ℝ) → β) (Z X : List (List ℝ)) : Except Err (List β) :=
  match checkShape n Z with
  | .error e => .error e
  | .ok zs => match checkShape n X with
    | .error e => .error e
    | .ok xs =>
      if zs.length = xs.length then .ok (List.zipWith f zs xs)
      else match zs, xs with
        | zs, [x] => .ok (zs.map (fun z => f z x))
        | [z], xs => .ok (xs.map (fun x => f z x))
        | _, _ => .error mismatch

/-- `default_priors`, `coax/proba_dists/_categorical.py:125-127`. -/
def defaultPriors (n : Nat) : List (List ℝ) := [List.replicate n 0]

/-- `CategoricalDist.entropy`.  (`coax/proba_dists/_categorical.py:86-89`.) -/
noncomputable def entropy (n : Nat) (Z : List (List ℝ)) : Except Err (List ℝ) := batch1 n entropyRow Z

/-- `CategoricalDist.cross_entropy`.  (`coax/proba_dists/_categorical.py:91-96`.) -/
noncomputable def crossEntropy (n : Nat) (Zp Zq : List (List ℝ)) : Except Err (List ℝ) := batch2 n .valueError crossEntropyRow Zp Zq

/-- `CategoricalDist.kl_divergence`.  (`coax/proba_dists/_categorical.py:98-103`.) -/
noncomputable def klDivergence (n : Nat) (Zp Zq : List (List ℝ)) : Except Err (List ℝ) := batch2 n .typeError klRow Zp Zq

/-- `CategoricalDist.log_proba`.  (`coax/proba_dists/_categorical.py:80-84`.) -/
noncomputable def logProba (n : Nat) (Z X : List (List ℝ)) : Except Err (List ℝ) := batch2 n .valueError logProbaRow Z X

/-- `preprocess_variate` of a batch of actions, `coax/proba_dists/_categorical.py:129-133`: `jax.nn.one_hot`, a row of zeros for an index out of range. -/
noncomputable def preprocess (n : Nat) (X : List Int) : List (Fin n → ℝ) := X.map (fun a k => if (k.1 : Int) = a then 1 else 0)

/-- `coax.utils.argmax` of one row, `coax/utils/_array.py:43-78`: one of the maximising indices, drawn at random.  `draw` is the random choice from the
candidates.  (The code draws from a categorical distribution with logits 50 for the candidates and -50 for the other indices; the others, of
probability `e^(-100)`, are left out.) -/
noncomputable def argmax (draw : List (Fin n) → Option (Fin n)) (x : Fin n → ℝ) : Option (Fin n) :=
  draw ((List.finRange n).filter (fun k => decide (∀ j, x j ≤ x k)))

/-- `postprocess_variate` with `batch_mode=True`, `coax/proba_dists/_categorical.py:135-139`. -/
noncomputable def postprocess (draw : List (Fin n) → Option (Fin n)) (X : List (Fin n → ℝ)) : List (Option (Fin n)) := X.map (argmax draw)

end Coax.Dists
