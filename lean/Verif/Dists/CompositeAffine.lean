import Verif.Dists.Composite

/-!
Model of `affine_transform` of `ProbaDist` (`coax/proba_dists/_composite.py:177-207`), over the reals, for a batch of size one.  At a leaf, `scale` and `shift` are numbers.
-/

namespace Coax.Dists

/-- What can be passed as `value_transform`: `None`, a pair of functions, or lists and dicts of these.  (`coax/proba_dists/_composite.py:177-179`.) -/
inductive VT where
  | none
  | fns (f fInv : ℝ → ℝ)
  | list (l : List VT)
  | dict (l : List (String × VT))

mutual
/-- Whether there is a function among the leaves.  A function is not a valid argument of a jitted function, unless the argument is static; here it is not.
(`coax/proba_dists/_composite.py:207`; compare `coax/proba_dists/_normal.py:177`.) -/
def VT.hasFns : VT → Bool
  | .none => false
  | .fns _ _ => true
  | .list l => VT.hasFnsList l
  | .dict l => VT.hasFnsDict l

/-- The members of a list.  (`coax/proba_dists/_composite.py:207`.) -/
def VT.hasFnsList : List VT → Bool
  | [] => false
  | v :: vs => v.hasFns || VT.hasFnsList vs

/-- The members of a dict.  (`coax/proba_dists/_composite.py:207`.) -/
def VT.hasFnsDict : List (String × VT) → Bool
  | [] => false
  | (_, v) :: vs => v.hasFns || VT.hasFnsDict vs
end

/-- `affine_transform` of a leaf, `coax/proba_dists/_categorical.py:105-106`, `coax/proba_dists/_normal.py:160-168`. -/
noncomputable def Leaf.affine (l : Leaf) (p : LeafParams) (scale shift : ℝ) (v : VT) : Except Err LeafParams :=
  match l, p with
  | .cat _, _ => .error .notImplementedError
  | .normal d c, .normal mu logvar => match normalParams d mu logvar with
    | .error e => .error e
    | .ok p => match v with
      | .none => .ok (.normal (List.ofFn (normalAffine c p scale shift id id).mu) (List.ofFn (normalAffine c p scale shift id id).logvar))
      | .fns f fInv => .ok (.normal (List.ofFn (normalAffine c p scale shift f fInv).mu) (List.ofFn (normalAffine c p scale shift f fInv).logvar))
      | _ => .error .valueError
  | .normal _ _, .logits _ => .error .keyError

/-- `set(xs) == set(ys)`, `coax/proba_dists/_composite.py:192-193`. -/
def sameKeys (xs ys : List String) : Bool := xs.all (fun x => ys.contains x) && ys.all (fun y => xs.contains y)

mutual
/-- `affine_transform`, `coax/proba_dists/_composite.py:177-198`. -/
noncomputable def affineGo : Dist → Tree LeafParams → Tree ℝ → Tree ℝ → VT → Except Err (Tree LeafParams)
  | .leaf l, .leaf p, .leaf scale, .leaf shift, v => match l.affine p scale shift v with
    | .error e => .error e
    | .ok q => .ok (.leaf q)
  | .list ds, .list ps, .list scales, .list shifts, v => match v with
    | .none => if ps.length = scales.length ∧ scales.length = shifts.length ∧ shifts.length = ds.length then
        match affineList ds ps scales shifts (ds.map fun _ => .none) with
        | .error e => .error e
        | .ok ts => .ok (.list ts)
      else .error .assertionError
    | .list vs => if (ps.length = scales.length ∧ scales.length = shifts.length ∧ shifts.length = ds.length) ∧ vs.length = ds.length then
        match affineList ds ps scales shifts vs with
        | .error e => .error e
        | .ok ts => .ok (.list ts)
      else .error .assertionError
    | _ => .error .typeError
  | .dict ds, .dict ps, .dict scales, .dict shifts, v => match v with
    | .none => if sameKeys (ps.map (·.1)) (scales.map (·.1)) && sameKeys (scales.map (·.1)) (shifts.map (·.1)) && sameKeys (shifts.map (·.1)) (ds.map (·.1)) then
        match affineDict ds ps scales shifts (ds.map fun kd => (kd.1, .none)) with
        | .error e => .error e
        | .ok ts => .ok (.dict ts)
      else .error .assertionError
    | .dict vs => if sameKeys (ps.map (·.1)) (scales.map (·.1)) && sameKeys (scales.map (·.1)) (shifts.map (·.1)) && sameKeys (shifts.map (·.1)) (ds.map (·.1)) &&
          sameKeys (vs.map (·.1)) (ds.map (·.1)) then
        match affineDict ds ps scales shifts vs with
        | .error e => .error e
        | .ok ts => .ok (.dict ts)
      else .error .assertionError
    | _ => .error .typeError
  | _, _, _, _, _ => .error .typeError

/-- The list comprehension, `coax/proba_dists/_composite.py:187-189`. -/
noncomputable def affineList : List Dist → List (Tree LeafParams) → List (Tree ℝ) → List (Tree ℝ) → List VT → Except Err (List (Tree LeafParams))
  | [], _, _, _, _ => .ok []
  | d :: ds, p :: ps, a :: as, b :: bs, v :: vs => match affineGo d p a b v with
    | .error e => .error e
    | .ok t => match affineList ds ps as bs vs with
      | .error e => .error e
      | .ok ts => .ok (t :: ts)
  | _ :: _, _, _, _, _ => .error .indexError

/-- The dict comprehension, `coax/proba_dists/_composite.py:194-196`. -/
noncomputable def affineDict : List (String × Dist) → List (String × Tree LeafParams) → List (String × Tree ℝ) → List (String × Tree ℝ) → List (String × VT) →
    Except Err (List (String × Tree LeafParams))
  | [], _, _, _, _ => .ok []
  | (k, d) :: ds, ps, as, bs, vs => match ps.lookup k, as.lookup k, bs.lookup k, vs.lookup k with
    | some p, some a, some b, some v => match affineGo d p a b v with
      | .error e => .error e
      | .ok t => match affineDict ds ps as bs vs with
        | .error e => .error e
        | .ok ts => .ok ((k, t) :: ts)
    | _, _, _, _ => .error .keyError
end

/-- `affine_transform` after `jit`, `coax/proba_dists/_composite.py:207`. -/
noncomputable def Dist.affineTransform (d : Dist) (p : Tree LeafParams) (scale shift : Tree ℝ) (v : VT) : Except Err (Tree LeafParams) :=
  if v.hasFns then .error .typeError else affineGo d p scale shift v

end Coax.Dists
