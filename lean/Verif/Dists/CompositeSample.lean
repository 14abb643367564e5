import Verif.Dists.CompositeVariates

/-!
Model of `sample`, `mean` and `mode` of `ProbaDist` (`coax/proba_dists/_composite.py:66-113`) and of what policies and other functions of one argument do with them
(`coax/_core/base_stochastic_func_type2.py:30-46,66-71`), over the reals, for a batch of size one.  Random numbers are named by the key that they are drawn with.
-/

namespace Coax.Dists

/-- The numbers that are drawn with one key: `jax.random.uniform` or `jax.random.normal`.  (`coax/proba_dists/_categorical.py:67`, `coax/proba_dists/_normal.py:100`.) -/
structure Noise where
  uniform : Nat → ℝ
  normal : Nat → ℝ

/-- All keys that are derived from one key: `i :: path` is the key number `i` of `hk.PRNGSequence(key)` where `path` names `key`.  (`coax/proba_dists/_composite.py:70-79`.) -/
abbrev Keys := List Nat → Noise

/-- `sample` of a leaf, `coax/proba_dists/_categorical.py:64-69`, `coax/proba_dists/_normal.py:97-101`. -/
noncomputable def Leaf.sample (tau : ℝ) (u : Noise) : Leaf → LeafParams → Except Err (List ℝ)
  | .cat n, .logits z => match checkVec n z with
    | .error e => .error e
    | .ok z => .ok (List.ofFn (sampleRow tau (fun k : Fin n => u.uniform k) z))
  | .normal d c, .normal mu logvar => match normalParams d mu logvar with
    | .error e => .error e
    | .ok p => .ok (List.ofFn (normalSample c p (fun i : Fin d => u.normal i)))
  | _, _ => .error .keyError

/-- `mean` of a leaf, `coax/proba_dists/_categorical.py:71-73`, `coax/proba_dists/_normal.py:103-105`. -/
noncomputable def Leaf.mean : Leaf → LeafParams → Except Err (List ℝ)
  | .cat n, .logits z => match checkVec n z with
    | .error e => .error e
    | .ok z => .ok (List.ofFn (meanRow z))
  | .normal d _, .normal mu _ => match checkVec d mu with
    | .error e => .error e
    | .ok m => .ok (List.ofFn m)
  | _, _ => .error .keyError

/-- `mode` of a leaf, `coax/proba_dists/_categorical.py:75-78`, `coax/proba_dists/_normal.py:107-108`. -/
noncomputable def Leaf.mode (tau : ℝ) : Leaf → LeafParams → Except Err (List ℝ)
  | .cat n, .logits z => match checkVec n z with
    | .error e => .error e
    | .ok z => .ok (List.ofFn (modeRow tau z))
  | .normal d c, .normal mu logvar => (Leaf.normal d c).mean (.normal mu logvar)
  | _, _ => .error .keyError

mutual
/-- The recursion of `sample`, `mean` and `mode`, `coax/proba_dists/_composite.py:66-113`; `f` is told the key of the part. -/
noncomputable def mapDist (f : List Nat → Leaf → LeafParams → Except Err (List ℝ)) (path : List Nat) : Dist → Tree LeafParams → Except Err (Tree (List ℝ))
  | .leaf l, .leaf p => match f path l p with
    | .error e => .error e
    | .ok x => .ok (.leaf x)
  | .list ds, .list ps => match mapDists f path 0 ds ps with
    | .error e => .error e
    | .ok ts => .ok (.list ts)
  | .dict ds, .dict ps => match mapDistDict f path 0 ds ps with
    | .error e => .error e
    | .ok ts => .ok (.dict ts)
  | _, _ => .error .typeError

/-- The list comprehension, `coax/proba_dists/_composite.py:72-74,88-90,104-106`. -/
noncomputable def mapDists (f : List Nat → Leaf → LeafParams → Except Err (List ℝ)) (path : List Nat) (i : Nat) : List Dist → List (Tree LeafParams) → Except Err (List (Tree (List ℝ)))
  | [], _ => .ok []
  | _ :: _, [] => .error .indexError
  | d :: ds, p :: ps => match mapDist f (i :: path) d p with
    | .error e => .error e
    | .ok t => match mapDists f path (i + 1) ds ps with
      | .error e => .error e
      | .ok ts => .ok (t :: ts)

/-- The dict comprehension, `coax/proba_dists/_composite.py:77-79,93-95,109-111`. -/
noncomputable def mapDistDict (f : List Nat → Leaf → LeafParams → Except Err (List ℝ)) (path : List Nat) (i : Nat) :
    List (String × Dist) → List (String × Tree LeafParams) → Except Err (List (String × Tree (List ℝ)))
  | [], _ => .ok []
  | (k, d) :: ds, ps => match ps.lookup k with
    | none => .error .keyError
    | some p => match mapDist f (i :: path) d p with
      | .error e => .error e
      | .ok t => match mapDistDict f path (i + 1) ds ps with
        | .error e => .error e
        | .ok ts => .ok ((k, t) :: ts)
end

/-- `sample`, `coax/proba_dists/_composite.py:66-81`. -/
noncomputable def Dist.sample (tau : ℝ) (keys : Keys) (d : Dist) (p : Tree LeafParams) : Except Err (Tree (List ℝ)) := mapDist (fun path => Leaf.sample tau (keys path)) [] d p

/-- `mean`, `coax/proba_dists/_composite.py:83-97`. -/
noncomputable def Dist.mean (d : Dist) (p : Tree LeafParams) : Except Err (Tree (List ℝ)) := mapDist (fun _ => Leaf.mean) [] d p

/-- `mode`, `coax/proba_dists/_composite.py:99-113`. -/
noncomputable def Dist.mode (tau : ℝ) (d : Dist) (p : Tree LeafParams) : Except Err (Tree (List ℝ)) := mapDist (fun _ => Leaf.mode tau) [] d p

/-- `__call__(s, return_logp=True)`, `coax/_core/base_stochastic_func_type2.py:30-34,66-71`, for the distribution parameters of the state. -/
noncomputable def callSample (tau log2pi : ℝ) (draw : Draw) (keys : Keys) (s : Space) (d : Dist) (p : Tree LeafParams) : Except Err (Value × ℝ) :=
  match d.sample tau keys p with
  | .error e => .error e
  | .ok X => match d.logProba log2pi p X with
    | .error e => .error e
    | .ok logp => match post draw [] s d X with
      | .error e => .error e
      | .ok x => .ok (x, logp)

/-- `mean`, `coax/_core/base_stochastic_func_type2.py:36-40`. -/
noncomputable def callMean (draw : Draw) (s : Space) (d : Dist) (p : Tree LeafParams) : Except Err Value :=
  match d.mean p with
  | .error e => .error e
  | .ok X => post draw [] s d X

/-- `mode`, `coax/_core/base_stochastic_func_type2.py:42-46`. -/
noncomputable def callMode (tau : ℝ) (draw : Draw) (s : Space) (d : Dist) (p : Tree LeafParams) : Except Err Value :=
  match d.mode tau p with
  | .error e => .error e
  | .ok X => post draw [] s d X

end Coax.Dists
