import Verif.Dists.Categorical
import Verif.Dists.Normal

/-!
Model of `ProbaDist` (`coax/proba_dists/_composite.py`), the distribution over a nested space, over the reals.

The functions act on each row of a batch on its own; the model has one row (a batch of size one, `index=0`).  Parameters and variates are trees; a leaf of
a tree holds an array, flattened to a list.  `log2pi` is the constant 1.8378770664093453 of `coax/proba_dists/_normal.py:83`.  Boxes have a floating point
dtype.  `affine_transform` is in `CompositeAffine`.
-/

namespace Coax.Dists

/-- The gymnasium spaces.  `Discrete(n, start=start)` has the members `start, …, start + n - 1`; `none` is an infinite bound of a Box, whose axes are flattened; the `nvec` of a
MultiDiscrete and the shape of a MultiBinary have one axis (with more the constructor of `ProbaDist` raises).  (`coax/proba_dists/_composite.py:44-64`.) -/
inductive Space where
  | discrete (n : Nat) (start : Int)
  | box (bounds : List (Option ℝ × Option ℝ))
  | multiDiscrete (nvec : List Nat)
  | multiBinary (n : Nat)
  | tuple (spaces : List Space)
  | dict (spaces : List (String × Space))
  | other

/-- The distributions at the leaves: `CategoricalDist` and `NormalDist`.  (`coax/proba_dists/_composite.py:44-52`.) -/
inductive Leaf where
  | cat (n : Nat)
  | normal (d : Nat) (c : NormalConfig d)

/-- `_structure` with `_structure_type`, `coax/proba_dists/_composite.py:19-22,40`. -/
inductive Dist where
  | leaf (l : Leaf)
  | list (ds : List Dist)
  | dict (ds : List (String × Dist))

/-- Python lists, tuples and dicts of arrays.  (`coax/proba_dists/_composite.py:66-81`.) -/
inductive Tree (α : Type _) where
  | leaf (x : α)
  | list (l : List (Tree α))
  | dict (l : List (String × Tree α))

/-- `NormalDist(space)` with the default clippings, `coax/proba_dists/_normal.py:57-76`. -/
noncomputable def boxConfig (bounds : List (Option ℝ × Option ℝ)) : NormalConfig bounds.length :=
  { spaceLow := fun i => (bounds.get i).1, spaceHigh := fun i => (bounds.get i).2, clipBox := (-256, 256), clipReals := (-30, 30), clipLogvar := (-20, 20) }

mutual
/-- The constructor, `coax/proba_dists/_composite.py:42-64`. -/
noncomputable def mkDist : Space → Except Err Dist
  | .discrete n _ => .ok (.leaf (.cat n))
  | .box bounds => match (boxConfig bounds).init with
    | .error e => .error e
    | .ok c => .ok (.leaf (.normal _ c))
  | .multiDiscrete nvec => .ok (.list (nvec.map (fun n => .leaf (.cat n))))
  | .multiBinary n => .ok (.list (List.replicate n (.leaf (.cat 2))))
  | .tuple spaces => match mkDists spaces with
    | .error e => .error e
    | .ok ds => .ok (.list ds)
  | .dict spaces => match mkDistDict spaces with
    | .error e => .error e
    | .ok ds => .ok (.dict ds)
  | .other => .error .typeError

/-- The list comprehension, `coax/proba_dists/_composite.py:59`. -/
noncomputable def mkDists : List Space → Except Err (List Dist)
  | [] => .ok []
  | s :: ss => match mkDist s with
    | .error e => .error e
    | .ok d => match mkDists ss with
      | .error e => .error e
      | .ok ds => .ok (d :: ds)

/-- The dict comprehension, `coax/proba_dists/_composite.py:62`. -/
noncomputable def mkDistDict : List (String × Space) → Except Err (List (String × Dist))
  | [] => .ok []
  | (k, s) :: ss => match mkDist s with
    | .error e => .error e
    | .ok d => match mkDistDict ss with
      | .error e => .error e
      | .ok ds => .ok ((k, d) :: ds)
end

/-- Distribution parameters at a leaf: `{'logits': …}` or `{'mu': …, 'logvar': …}`.  (`coax/proba_dists/_composite.py:66-68`.) -/
inductive LeafParams where
  | logits (z : List ℝ)
  | normal (mu logvar : List ℝ)

/-- An array of known size as a function.  (`coax/proba_dists/_normal.py:85-95`.) -/
def vec {n : Nat} (l : List ℝ) (h : l.length = n) : Fin n → ℝ := fun k => l[k.1]'(by rw [h]; exact k.2)

/-- `check_shape` of the parameters of a `NormalDist`, `coax/proba_dists/_normal.py:85-95`. -/
def normalParams (d : Nat) (mu logvar : List ℝ) : Except Err (NormalParams d) :=
  if h : mu.length = d ∧ logvar.length = d then .ok ⟨vec mu h.1, vec logvar h.2⟩ else .error .valueError

/-- `check_shape` of logits or of a variate, `coax/proba_dists/_categorical.py:57-62`, `coax/proba_dists/_normal.py:85-95`. -/
def checkVec (n : Nat) (z : List ℝ) : Except Err (Fin n → ℝ) := if h : z.length = n then .ok (vec z h) else .error .valueError

/-- `log_proba` of a leaf, `coax/proba_dists/_categorical.py:80-84`, `coax/proba_dists/_normal.py:110-119`.  Parameters of the other kind are a `KeyError`. -/
noncomputable def Leaf.logProba (log2pi : ℝ) : Leaf → LeafParams → List ℝ → Except Err ℝ
  | .cat n, .logits z, X => match checkVec n X with
    | .error e => .error e
    | .ok x => match checkVec n z with
      | .error e => .error e
      | .ok z => .ok (logProbaRow z x)
  | .normal d c, .normal mu logvar, X => match checkVec d X with
    | .error e => .error e
    | .ok x => match normalParams d mu logvar with
      | .error e => .error e
      | .ok p => .ok (normalLogProba log2pi c p x)
  | _, _, _ => .error .keyError

/-- `entropy` of a leaf, `coax/proba_dists/_categorical.py:86-89`, `coax/proba_dists/_normal.py:121-127`. -/
noncomputable def Leaf.entropy (log2pi : ℝ) : Leaf → LeafParams → Except Err ℝ
  | .cat n, .logits z => match checkVec n z with
    | .error e => .error e
    | .ok z => .ok (entropyRow z)
  | .normal d c, .normal mu logvar => match normalParams d mu logvar with
    | .error e => .error e
    | .ok p => .ok (normalEntropy log2pi c p)
  | _, _ => .error .keyError

/-- A function of two sets of parameters of a leaf.  (`coax/proba_dists/_composite.py:145-147,161-163`.) -/
noncomputable def Leaf.binary (cat : (n : Nat) → (Fin n → ℝ) → (Fin n → ℝ) → ℝ) (normal : (d : Nat) → NormalConfig d → NormalParams d → NormalParams d → ℝ) :
    Leaf → LeafParams → LeafParams → Except Err ℝ
  | .cat n, .logits zp, .logits zq => match checkVec n zp with
    | .error e => .error e
    | .ok zp => match checkVec n zq with
      | .error e => .error e
      | .ok zq => .ok (cat n zp zq)
  | .normal d c, .normal mp lp, .normal mq lq => match normalParams d mp lp with
    | .error e => .error e
    | .ok p => match normalParams d mq lq with
      | .error e => .error e
      | .ok q => .ok (normal d c p q)
  | _, _, _ => .error .keyError

/-- `cross_entropy` of a leaf, `coax/proba_dists/_categorical.py:91-96`, `coax/proba_dists/_normal.py:129-142`. -/
noncomputable def Leaf.crossEntropy (log2pi : ℝ) : Leaf → LeafParams → LeafParams → Except Err ℝ :=
  Leaf.binary (fun _ zp zq => crossEntropyRow zp zq) (fun _ c p q => normalCrossEntropy log2pi c p q)

/-- `kl_divergence` of a leaf, `coax/proba_dists/_categorical.py:98-103`, `coax/proba_dists/_normal.py:144-158`. -/
noncomputable def Leaf.kl : Leaf → LeafParams → LeafParams → Except Err ℝ :=
  Leaf.binary (fun _ zp zq => klRow zp zq) (fun _ c p q => normalKL c p q)

variable {α β : Type}

mutual
/-- The recursion of `entropy`, `coax/proba_dists/_composite.py:129-143`.  A list is indexed by position, a dict by key.  (For an empty structure the result is the
number 0, not an array.) -/
noncomputable def sum1 (f : Leaf → α → Except Err ℝ) : Dist → Tree α → Except Err ℝ
  | .leaf l, .leaf p => f l p
  | .list ds, .list ps => sum1List f ds ps
  | .dict ds, .dict ps => sum1Dict f ds ps
  | _, _ => .error .typeError

/-- `sum1` for the parts of lists, `coax/proba_dists/_composite.py:115-143`. -/
noncomputable def sum1List (f : Leaf → α → Except Err ℝ) : List Dist → List (Tree α) → Except Err ℝ
  | [], _ => .ok 0
  | _ :: _, [] => .error .indexError
  | d :: ds, p :: ps => match sum1 f d p with
    | .error e => .error e
    | .ok x => match sum1List f ds ps with
      | .error e => .error e
      | .ok y => .ok (x + y)

/-- `sum1` for the parts of dicts, `coax/proba_dists/_composite.py:115-143`. -/
noncomputable def sum1Dict (f : Leaf → α → Except Err ℝ) : List (String × Dist) → List (String × Tree α) → Except Err ℝ
  | [], _ => .ok 0
  | (k, d) :: ds, ps => match ps.lookup k with
    | none => .error .keyError
    | some p => match sum1 f d p with
      | .error e => .error e
      | .ok x => match sum1Dict f ds ps with
        | .error e => .error e
        | .ok y => .ok (x + y)
end

mutual
/-- The recursion of `log_proba`, `cross_entropy` and `kl_divergence`, `coax/proba_dists/_composite.py:115-127,145-175`. -/
noncomputable def sum2 (f : Leaf → α → β → Except Err ℝ) : Dist → Tree α → Tree β → Except Err ℝ
  | .leaf l, .leaf p, .leaf q => f l p q
  | .list ds, .list ps, .list qs => sum2List f ds ps qs
  | .dict ds, .dict ps, .dict qs => sum2Dict f ds ps qs
  | _, _, _ => .error .typeError

/-- `sum2` for the parts of lists, `coax/proba_dists/_composite.py:145-175`. -/
noncomputable def sum2List (f : Leaf → α → β → Except Err ℝ) : List Dist → List (Tree α) → List (Tree β) → Except Err ℝ
  | [], _, _ => .ok 0
  | d :: ds, p :: ps, q :: qs => match sum2 f d p q with
    | .error e => .error e
    | .ok x => match sum2List f ds ps qs with
      | .error e => .error e
      | .ok y => .ok (x + y)
  | _ :: _, _, _ => .error .indexError

/-- `sum2` for the parts of dicts, `coax/proba_dists/_composite.py:145-175`. -/
noncomputable def sum2Dict (f : Leaf → α → β → Except Err ℝ) : List (String × Dist) → List (String × Tree α) → List (String × Tree β) → Except Err ℝ
  | [], _, _ => .ok 0
  | (k, d) :: ds, ps, qs => match ps.lookup k, qs.lookup k with
    | some p, some q => match sum2 f d p q with
      | .error e => .error e
      | .ok x => match sum2Dict f ds ps qs with
        | .error e => .error e
        | .ok y => .ok (x + y)
    | _, _ => .error .keyError
end

/-- `ProbaDist.entropy`, `coax/proba_dists/_composite.py:129-143`. -/
noncomputable def Dist.entropy (log2pi : ℝ) (d : Dist) (p : Tree LeafParams) : Except Err ℝ := sum1 (Leaf.entropy log2pi) d p

/-- `ProbaDist.log_proba`, `coax/proba_dists/_composite.py:115-127`. -/
noncomputable def Dist.logProba (log2pi : ℝ) (d : Dist) (p : Tree LeafParams) (X : Tree (List ℝ)) : Except Err ℝ := sum2 (Leaf.logProba log2pi) d p X

/-- `ProbaDist.cross_entropy`, `coax/proba_dists/_composite.py:145-159`. -/
noncomputable def Dist.crossEntropy (log2pi : ℝ) (d : Dist) (p q : Tree LeafParams) : Except Err ℝ := sum2 (Leaf.crossEntropy log2pi) d p q

/-- `ProbaDist.kl_divergence`, `coax/proba_dists/_composite.py:161-175`. -/
noncomputable def Dist.kl (d : Dist) (p q : Tree LeafParams) : Except Err ℝ := sum2 Leaf.kl d p q

end Coax.Dists
