import Verif.Dists.Composite

/-!
Model of `preprocess_variate` and `postprocess_variate` of `ProbaDist` (`coax/proba_dists/_composite.py:235-284`), over the reals, for a single variate: a batch of size one with
`index=0` and `batch_mode=False`.
-/

namespace Coax.Dists

/-- Members of spaces: an integer, an array of integers (MultiDiscrete, MultiBinary), an array of floats (Box, flattened), tuples and dicts.  (`coax/proba_dists/_composite.py:235-286`.) -/
inductive Value where
  | int (x : Int)
  | ints (l : List Int)
  | floats (l : List ℝ)
  | tuple (l : List Value)
  | dict (l : List (String × Value))

/-- `preprocess_variate` of a leaf, `coax/proba_dists/_categorical.py:129-133`, `coax/proba_dists/_normal.py:184-189`.  (An array with a multiple of the right size would become a batch;
here it is an error.) -/
noncomputable def Leaf.pre : Leaf → Value → Except Err (List ℝ)
  | .cat n, .int x => match preprocess n [x] with
    | [r] => .ok (List.ofFn r)
    | _ => .error .assertionError
  | .normal d c, .floats xs => match checkVec d xs with
    | .error _ => .error .typeError
    | .ok x => .ok (List.ofFn (normalPreprocess c x))
  | _, _ => .error .assertionError

/-- The list comprehension over `X[..., i]`, `coax/proba_dists/_composite.py:270-274`. -/
noncomputable def preInts : List Dist → List Int → Except Err (List (Tree (List ℝ)))
  | [], _ => .ok []
  | .leaf l :: ds, x :: xs => match l.pre (.int x) with
    | .error e => .error e
    | .ok a => match preInts ds xs with
      | .error e => .error e
      | .ok ts => .ok (.leaf a :: ts)
  | _ :: _, _ => .error .indexError

mutual
/-- `preprocess_variate`, `coax/proba_dists/_composite.py:264-286`, of an object with this space and structure. -/
noncomputable def pre : Space → Dist → Value → Except Err (Tree (List ℝ))
  | _, .leaf l, x => match l.pre x with
    | .error e => .error e
    | .ok a => .ok (.leaf a)
  | .multiDiscrete _, .list ds, .ints xs => match preInts ds xs with
    | .error e => .error e
    | .ok ts => .ok (.list ts)
  | .multiBinary _, .list ds, .ints xs => match preInts ds xs with
    | .error e => .error e
    | .ok ts => .ok (.list ts)
  | .tuple ss, .list ds, .tuple xs => match preList ss ds xs with
    | .error e => .error e
    | .ok ts => .ok (.list ts)
  | .dict ss, .dict ds, .dict xs => match preDict ss ds xs with
    | .error e => .error e
    | .ok ts => .ok (.dict ts)
  | _, _, _ => .error .typeError

/-- The list comprehension, `coax/proba_dists/_composite.py:276-279`; each part knows its own space. -/
noncomputable def preList : List Space → List Dist → List Value → Except Err (List (Tree (List ℝ)))
  | s :: ss, d :: ds, x :: xs => match pre s d x with
    | .error e => .error e
    | .ok t => match preList ss ds xs with
      | .error e => .error e
      | .ok ts => .ok (t :: ts)
  | _, [], _ => .ok []
  | _, _, _ => .error .indexError

/-- The dict comprehension, `coax/proba_dists/_composite.py:281-284`. -/
noncomputable def preDict : List (String × Space) → List (String × Dist) → List (String × Value) → Except Err (List (String × Tree (List ℝ)))
  | (_, s) :: ss, (k, d) :: ds, xs => match xs.lookup k with
    | none => .error .keyError
    | some x => match pre s d x with
      | .error e => .error e
      | .ok t => match preDict ss ds xs with
        | .error e => .error e
        | .ok ts => .ok ((k, t) :: ts)
  | _, [], _ => .ok []
  | [], _ :: _, _ => .error .assertionError
end

/-- The random choices between equally large entries in `argmax`: one for each place in the structure, since each part gets its own key (`next(rngs)`).  (`coax/proba_dists/_composite.py:236-258`.) -/
abbrev Draw := List Nat → (n : Nat) → List (Fin n) → Option (Fin n)

/-- `postprocess_variate` of a leaf, `coax/proba_dists/_categorical.py:135-139`, `coax/proba_dists/_normal.py:191-196`. -/
noncomputable def Leaf.post (draw : Draw) (path : List Nat) : Leaf → List ℝ → Except Err Value
  | .cat n, X => match checkVec n X with
    | .error _ => .error .assertionError
    | .ok x => match argmax (draw path n) x with
      | some a => .ok (.int a.1)
      | none => .error .valueError
  | .normal d c, X => match checkVec d X with
    | .error _ => .error .typeError
    | .ok x => .ok (.floats (List.ofFn (normalPostprocess c x)))

/-- The list that is stacked, `coax/proba_dists/_composite.py:244-246`. -/
noncomputable def postInts (draw : Draw) (path : List Nat) (i : Nat) : List Dist → List (Tree (List ℝ)) → Except Err (List Int)
  | [], _ => .ok []
  | .leaf l :: ds, .leaf X :: ts => match l.post draw (i :: path) X with
    | .error e => .error e
    | .ok (.int x) => match postInts draw path (i + 1) ds ts with
      | .error e => .error e
      | .ok xs => .ok (x :: xs)
    | .ok _ => .error .assertionError
  | _ :: _, _ => .error .indexError

/-- `onp.stack`, `coax/proba_dists/_composite.py:244`: `ValueError` for an empty list. -/
def stack : List Int → Except Err Value
  | [] => .error .valueError
  | xs => .ok (.ints xs)

mutual
/-- `postprocess_variate`, `coax/proba_dists/_composite.py:235-262`. -/
noncomputable def post (draw : Draw) (path : List Nat) : Space → Dist → Tree (List ℝ) → Except Err Value
  | _, .leaf l, .leaf X => l.post draw path X
  | .multiDiscrete _, .list ds, .list ts => match postInts draw path 0 ds ts with
    | .error e => .error e
    | .ok xs => stack xs
  | .multiBinary _, .list ds, .list ts => match postInts draw path 0 ds ts with
    | .error e => .error e
    | .ok xs => stack xs
  | .tuple ss, .list ds, .list ts => match postList draw path 0 ss ds ts with
    | .error e => .error e
    | .ok xs => .ok (.tuple xs)
  | .dict ss, .dict ds, .dict ts => match postDict draw path 0 ss ds ts with
    | .error e => .error e
    | .ok xs => .ok (.dict xs)
  | _, _, _ => .error .assertionError

/-- The entries of the tuple, `coax/proba_dists/_composite.py:250-252`. -/
noncomputable def postList (draw : Draw) (path : List Nat) (i : Nat) : List Space → List Dist → List (Tree (List ℝ)) → Except Err (List Value)
  | s :: ss, d :: ds, t :: ts => match post draw (i :: path) s d t with
    | .error e => .error e
    | .ok x => match postList draw path (i + 1) ss ds ts with
      | .error e => .error e
      | .ok xs => .ok (x :: xs)
  | _, [], _ => .ok []
  | _, _, _ => .error .indexError

/-- The dict comprehension, `coax/proba_dists/_composite.py:256-258`. -/
noncomputable def postDict (draw : Draw) (path : List Nat) (i : Nat) : List (String × Space) → List (String × Dist) → List (String × Tree (List ℝ)) → Except Err (List (String × Value))
  | (_, s) :: ss, (k, d) :: ds, ts => match ts.lookup k with
    | none => .error .keyError
    | some t => match post draw (i :: path) s d t with
      | .error e => .error e
      | .ok x => match postDict draw path (i + 1) ss ds ts with
        | .error e => .error e
        | .ok xs => .ok ((k, x) :: xs)
  | _, [], _ => .ok []
  | [], _ :: _, _ => .error .assertionError
end

end Coax.Dists
