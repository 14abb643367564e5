import Verif.Err
import Mathlib.Algebra.Order.Field.Basic
import Mathlib.Algebra.Module.Defs
import Mathlib.Algebra.BigOperators.Group.List.Basic

/-!
Models of `coax.utils.merge_dicts` (`coax/utils/_array.py:693-719`) and `coax.utils.sync_shared_params`
(`coax/utils/_array.py:874-941`).

A Python dict is the list of its items in insertion order, with distinct keys.
-/

namespace Coax.Dicts

variable {κ V : Type _} [DecidableEq κ]

/-- `d[k] = v`: replace in place, or append at the end.  (`coax/utils/_array.py:718,939`.) -/
def setItem : List (κ × V) → κ → V → List (κ × V)
  | [], k, v => [(k, v)]
  | (k', v') :: d, k, v => if k' = k then (k, v) :: d else (k', v') :: setItem d k v

/-- `k in d`.  (`coax/utils/_array.py:917,922`.) -/
def contains (d : List (κ × V)) (k : κ) : Bool := d.any (fun kv => decide (kv.1 = k))

/-- `merged.update(d)`.  (`coax/utils/_array.py:718`.) -/
def update (merged d : List (κ × V)) : List (κ × V) := d.foldl (fun m kv => setItem m kv.1 kv.2) merged

/-- The loop of `merge_dicts`, `coax/utils/_array.py:713-719`: the merged dict, and the overlapping keys of each warning
(`set(d).intersection(merged)`, here in the order of `d`). -/
def mergeLoop : List (List (κ × V)) → List (κ × V) → List (List κ) → List (κ × V) × List (List κ)
  | [], merged, warnings => (merged, warnings)
  | d :: ds, merged, warnings =>
    let overlap := (d.map Prod.fst).filter (contains merged)
    mergeLoop ds (update merged d) (if overlap.isEmpty then warnings else warnings ++ [overlap])

/-- `merge_dicts`, `coax/utils/_array.py:693-719`. -/
def mergeDicts (ds : List (List (κ × V))) : List (κ × V) × List (List κ) := mergeLoop ds [] []

/-! ### sync_shared_params -/

variable {D : Type _} [DecidableEq D] {K : Type _} [Field K] [LinearOrder K] [AddCommGroup V] [Module K V]

/-- The value under one top-level key of a params dict: a pytree, given by its structure and its leaves.  A leaf is an
array; arrays of one shape form a vector space `V` over the scalars `K`.  (`coax/utils/_array.py:917-939`.) -/
structure Tree (D V : Type _) where
  treedef : D
  leaves : List V
deriving DecidableEq

/-- `chex.assert_trees_all_equal_structs(*shared_params)`, `coax/utils/_array.py:919`. -/
def sameStructs : List (Tree D V) → Bool
  | [] => true
  | t :: ts => ts.all (fun s => decide (s.treedef = t.treedef) && decide (s.leaves.length = t.leaves.length))

/-- `tree_map(lambda x: w * x, p)`, `coax/utils/_array.py:927-930`. -/
def Tree.scale (w : K) (t : Tree D V) : Tree D V := { t with leaves := t.leaves.map (fun x => w • x) }

/-- `tree_map(lambda *x: sum(x), *trees)`, `coax/utils/_array.py:932-934`; the trees have equal structures. -/
def sumTrees : List (Tree D V) → Except Err (Tree D V)
  | [] => .error .typeError
  | t :: ts => .ok { t with leaves := (List.range t.leaves.length).map (fun j => ((t :: ts).filterMap (fun s => s.leaves[j]?)).sum) }

/-- The body of the loop over the keys, `coax/utils/_array.py:911-939`. -/
def syncKey (ws : List K) (count : κ → Nat) (params : List (List (κ × Tree D V))) (k : κ) :
    Except Err (List (List (κ × Tree D V))) :=
  if count k < 2 then .ok params
  else
    let shared := params.filterMap (fun p => p.lookup k)
    if ¬ 1 < shared.length then .error .assertionError
    else if sameStructs shared = false then .error .assertionError
    else
      let relative := ((ws.zip params).filter (fun wp => contains wp.2 k)).map Prod.fst
      let scale := relative.sum
      if ¬ 0 < scale then .error .assertionError
      else
        match sumTrees (((relative.map (fun w => w / scale)).zip shared).map (fun (w, p) => p.scale w)) with
        | .error e => .error e
        | .ok agg => .ok (params.map (fun p => if contains p k then setItem p k agg else p))

/-- `sync_shared_params(*params, weights=weights)`, `coax/utils/_array.py:895-941`.  The conversions to and from mutable
dicts (lines 905-906, 941) copy the dicts, so a failing call leaves its arguments alone. -/
def syncSharedParams (params : List (List (κ × Tree D V))) (weights : Option (List K)) :
    Except Err (List (List (κ × Tree D V))) :=
  if params.length < 2 then .ok params
  else
    match weights with
    | none => run (List.replicate params.length 1)
    | some ws => if ws.length ≠ params.length then .error .valueError else run ws
where
  /-- lines 908-941: the keys in the order of the `Counter`, i.e. of first occurrence -/
  run (ws : List K) : Except Err (List (List (κ × Tree D V))) :=
    let keys := params.flatMap (fun p => p.map Prod.fst)
    keys.reverse.dedup.reverse.foldlM (syncKey ws (fun k => keys.count k)) params

end Coax.Dicts
