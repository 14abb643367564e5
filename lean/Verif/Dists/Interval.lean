import Verif.Dists.Categorical
import Mathlib.Algebra.Order.Floor.Ring
import Mathlib.Algebra.Order.Archimedean.Basic

/-!
Model of `DiscretizedIntervalDist` (`coax/proba_dists/_discretized_interval.py`), over the reals: the atoms, `affine_transform` (the projection of
"categorical DQN"), and the variates.  One row of a batch; `scale` and `shift` are the entries of that row.
-/

namespace Coax.Dists

/-- The midpoints of the bins, `coax/proba_dists/_discretized_interval.py:67`. -/
noncomputable def atoms (n : Nat) (low high : ℝ) : Fin n → ℝ := fun k => low + (k.1 + 0.5) * (high - low) / n

/-- `jnp.clip`.  (`coax/proba_dists/_discretized_interval.py:90-106`.) -/
noncomputable def clip (x lo hi : ℝ) : ℝ := min (max x lo) hi

/-- The projection `m`, `coax/proba_dists/_discretized_interval.py:90-106`, for one row.  `p` are the probabilities, `z` the atoms.  `none` stands for NaN: this happens if the spacing is 0 (`z[1]` is
`z[0]` if there is one bin: jax clamps the index).  `l` and `u` are in range, so that adding at `(i, l)` is adding where the index equals `l`. -/
noncomputable def project {n : Nat} (hn : 0 < n) (z p : Fin n → ℝ) (scale shift : ℝ) (f fInv : ℝ → ℝ) : Option (Fin n → ℝ) :=
  let Vmin := z ⟨0, hn⟩
  let Vmax := z ⟨n - 1, by omega⟩
  let dz := z ⟨min 1 (n - 1), by omega⟩ - z ⟨0, hn⟩
  if dz = 0 then none
  else
    let Tz := fun j => clip (f (scale * fInv (z j) + shift)) Vmin Vmax
    let b := fun j => (Tz j - Vmin) / dz
    let l := fun j => ⌊b j⌋
    let u := fun j => ⌈b j⌉
    some (fun k =>
      (∑ j, if l j = (k.1 : Int) then p j * (u j - b j) else 0)
        + (∑ j, if u j = (k.1 : Int) then p j * (b j - l j) else 0)
        + (∑ j, if l j = (k.1 : Int) then p j * (if l j = u j then 1 else 0) else 0))

/-- `affine_transform`, `coax/proba_dists/_discretized_interval.py:69-119`, for one row: logits in, logits out. -/
noncomputable def affineTransform {n : Nat} (hn : 0 < n) (low high : ℝ) (logits : Fin n → ℝ) (scale shift : ℝ) (f fInv : ℝ → ℝ) : Option (Fin n → ℝ) :=
  match project hn (atoms n low high) (softmax logits) scale shift f fInv with
  | none => none
  | some m => some (fun k => Real.log (max (m k) 1e-16))

/-- The mean of the distribution with the given logits: `postprocess_variate(mean(dist_params))`, `coax/proba_dists/_discretized_interval.py:150-159`. -/
noncomputable def intervalMean {n : Nat} (low high : ℝ) (logits : Fin n → ℝ) : ℝ := ∑ k, softmax logits k * atoms n low high k

/-- `preprocess_variate` of one integer, `coax/proba_dists/_discretized_interval.py:143-148`: one-hot of the bin. -/
noncomputable def intervalPreprocess (n : Nat) (low high : ℝ) (x : Int) : Fin n → ℝ :=
  fun k => if (k.1 : Int) = ⌊((x : ℝ) - low) * n / (high - low)⌋ then 1 else 0

end Coax.Dists
