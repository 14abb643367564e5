import Verif.Dists.Interval
import Mathlib.Analysis.SpecialFunctions.Sigmoid
import Mathlib.Analysis.SpecialFunctions.Trigonometric.DerivHyp

/-!
Model of `NormalDist` (`coax/proba_dists/_normal.py`) and of `SquashedNormalDist` (`coax/proba_dists/_squashed_normal.py`), over the reals, for one row of a
batch, flattened to `d` coordinates.  The shape checks (`check_shape`, lines 85-95) are those of the categorical distribution.
-/

namespace Coax.Dists

variable {d : Nat}

/-- Distribution parameters of one row.  (`coax/proba_dists/_normal.py:97-101`.) -/
structure NormalParams (d : Nat) where
  mu : Fin d → ℝ
  logvar : Fin d → ℝ

/-- The settings of a `NormalDist`, `coax/proba_dists/_normal.py:57-71`.  `none` is an infinite bound of the Box. -/
structure NormalConfig (d : Nat) where
  spaceLow : Fin d → Option ℝ
  spaceHigh : Fin d → Option ℝ
  clipBox : ℝ × ℝ
  clipReals : ℝ × ℝ
  clipLogvar : ℝ × ℝ

/-- `self._low`, `coax/proba_dists/_normal.py:70`. -/
noncomputable def NormalConfig.low (c : NormalConfig d) (i : Fin d) : ℝ := match c.spaceLow i with
  | none => c.clipBox.1
  | some x => max x c.clipBox.1

/-- `self._high`, `coax/proba_dists/_normal.py:71`. -/
noncomputable def NormalConfig.high (c : NormalConfig d) (i : Fin d) : ℝ := match c.spaceHigh i with
  | none => c.clipBox.2
  | some x => min x c.clipBox.2

/-- The constructor, `coax/proba_dists/_normal.py:57-76`: `assert_array_less(low, high)`. -/
noncomputable def NormalConfig.init (c : NormalConfig d) : Except Err (NormalConfig d) :=
  if ∀ i, c.low i < c.high i then .ok c else .error .assertionError

/-- The clipping of the log-variance in `check_shape`, `coax/proba_dists/_normal.py:93-94`. -/
noncomputable def lv (c : NormalConfig d) (p : NormalParams d) (i : Fin d) : ℝ := clip (p.logvar i) c.clipLogvar.1 c.clipLogvar.2

/-- `sample`, `coax/proba_dists/_normal.py:97-101`; `eps` are the standard normal random numbers. -/
noncomputable def normalSample (c : NormalConfig d) (p : NormalParams d) (eps : Fin d → ℝ) : Fin d → ℝ := fun i => p.mu i + Real.exp (lv c p i / 2) * eps i

/-- `log_proba`, `coax/proba_dists/_normal.py:110-119`.  `log2pi` is the constant 1.8378770664093453. -/
noncomputable def normalLogProba (log2pi : ℝ) (c : NormalConfig d) (p : NormalParams d) (X : Fin d → ℝ) : ℝ :=
  -0.5 * (d * log2pi + ∑ i, lv c p i + ∑ i, (X i - p.mu i) ^ 2 * Real.exp (-lv c p i))

/-- `entropy`, `coax/proba_dists/_normal.py:121-127`. -/
noncomputable def normalEntropy (log2pi : ℝ) (c : NormalConfig d) (p : NormalParams d) : ℝ := 0.5 * (d * log2pi + ∑ i, lv c p i + d)

/-- `cross_entropy`, `coax/proba_dists/_normal.py:129-142`. -/
noncomputable def normalCrossEntropy (log2pi : ℝ) (c : NormalConfig d) (p q : NormalParams d) : ℝ :=
  0.5 * (d * log2pi + ∑ i, lv c q i + ∑ i, (Real.exp (lv c p i) + (p.mu i - q.mu i) ^ 2) * Real.exp (-lv c q i))

/-- `kl_divergence`, `coax/proba_dists/_normal.py:144-158`. -/
noncomputable def normalKL (c : NormalConfig d) (p q : NormalParams d) : ℝ :=
  0.5 * (∑ i, lv c q i - ∑ i, lv c p i + ∑ i, (Real.exp (lv c p i) + (p.mu i - q.mu i) ^ 2) * Real.exp (-lv c q i) - d)

/-- `affine_transform_func`, `coax/proba_dists/_normal.py:160-168`. -/
noncomputable def normalAffine (c : NormalConfig d) (p : NormalParams d) (scale shift : ℝ) (f fInv : ℝ → ℝ) : NormalParams d where
  mu := fun i => f (fInv (p.mu i) + shift)
  logvar := fun i => Real.log (f (fInv (Real.exp (lv c p i)) * scale ^ 2))

/-- `clipped_logit`, `coax/utils/_array.py:301`. -/
noncomputable def clippedLogit (x : ℝ) : ℝ := Real.log (clip x 1e-15 1) - Real.log (clip (1 - x) 1e-15 1)

/-- `preprocess_variate`, `coax/proba_dists/_normal.py:184-189`, one row. -/
noncomputable def normalPreprocess (c : NormalConfig d) (X : Fin d → ℝ) : Fin d → ℝ :=
  fun i => clippedLogit ((clip (X i) (c.low i) (c.high i) - c.low i) / (c.high i - c.low i))

/-- `postprocess_variate`, `coax/proba_dists/_normal.py:191-196`, one row. -/
noncomputable def normalPostprocess (c : NormalConfig d) (X : Fin d → ℝ) : Fin d → ℝ :=
  fun i => c.low i + (c.high i - c.low i) * Real.sigmoid (clip (X i) c.clipReals.1 c.clipReals.2)

/-- The settings of a `SquashedNormalDist` over a finite Box, `coax/proba_dists/_squashed_normal.py:35-40`.  `clipLogvar = none` is the default `None`. -/
structure SquashedConfig (d : Nat) where
  low : Fin d → ℝ
  high : Fin d → ℝ
  clipLogvar : Option (ℝ × ℝ)

/-- `self._normal_dist`, `coax/proba_dists/_squashed_normal.py:38`, with the default clippings of `coax/proba_dists/_normal.py:58-59`. -/
def SquashedConfig.normal (s : SquashedConfig d) (cl : ℝ × ℝ) : NormalConfig d :=
  { spaceLow := fun i => some (s.low i), spaceHigh := fun i => some (s.high i), clipBox := (-256, 256), clipReals := (-30, 30), clipLogvar := cl }

/-- `SquashedNormalDist.sample`, `coax/proba_dists/_squashed_normal.py:42-44`.  With `clip_logvar=None` the call `jnp.clip(x, *self.clip_logvar)` in
`coax/proba_dists/_normal.py:94` is a `TypeError`. -/
noncomputable def squashedSample (s : SquashedConfig d) (p : NormalParams d) (eps : Fin d → ℝ) : Except Err (Fin d → ℝ) :=
  match s.clipLogvar with
  | none => .error .typeError
  | some cl => .ok (fun i => Real.tanh (normalSample (s.normal cl) p eps i) * ((s.high i - s.low i) / 2) + (s.high i + s.low i) / 2)

/-- `SquashedNormalDist.mean` and `mode`, `coax/proba_dists/_squashed_normal.py:46-51`. -/
noncomputable def squashedMean (s : SquashedConfig d) (p : NormalParams d) : Fin d → ℝ :=
  fun i => Real.tanh (p.mu i) * ((s.high i - s.low i) / 2) + (s.high i + s.low i) / 2

/-- `jnp.arctanh` on `(-1, 1)`.  (`coax/proba_dists/_squashed_normal.py:56`.) -/
noncomputable def arctanh (x : ℝ) : ℝ := 0.5 * Real.log ((1 + x) / (1 - x))

/-- `SquashedNormalDist.log_proba`, `coax/proba_dists/_squashed_normal.py:55-58`. -/
noncomputable def squashedLogProba (log2pi : ℝ) (s : SquashedConfig d) (p : NormalParams d) (X : Fin d → ℝ) : Except Err ℝ :=
  match s.clipLogvar with
  | none => .error .typeError
  | some cl =>
    let Y := fun i => arctanh (clip (X i) (-1 + 1e-7) (1 - 1e-7))
    .ok (normalLogProba log2pi (s.normal cl) p Y - ∑ i, 2 * (Real.log 2 - Y i - Real.log (1 + Real.exp (-2 * Y i))))

end Coax.Dists
