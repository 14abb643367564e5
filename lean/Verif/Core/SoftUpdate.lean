import Verif.Err
import Mathlib.Algebra.Field.Defs

/-!
Model of the params and function state of `BaseFunc` and of `soft_update` (`coax/_core/base_func.py:88-155`).

A pytree is the list of its leaves with their paths, in the order of `jax.tree_util.tree_flatten`; its structure is the list of paths
(node types are not modelled).  A leaf is an array, flattened; two leaves of different sizes cannot be added (jax would broadcast an array of
size one).  Numbers are elements of a field.
-/

namespace Coax.Core

variable {K : Type _}

/-- A pytree with arrays as leaves.  (`coax/_core/base_func.py:81`.) -/
abbrev PyTree (K : Type _) := List (String × List K)

/-- `jax.tree_util.tree_structure`.  (`coax/_core/base_func.py:126,151-152`.) -/
def structure_ {α : Type _} (t : List (String × α)) : List String := t.map Prod.fst

/-- The fields of `BaseFunc` that change, with its class.  (`coax/_core/base_func.py:57-91`.) -/
structure FuncState (K C : Type _) where
  cls : C
  params : PyTree K
  functionState : PyTree K

/-- One leaf, `(1 - tau) * a + tau * b`, `coax/_core/base_func.py:89`. -/
def mixLeaf [Field K] (tau : K) (a b : List K) : Except Err (List K) :=
  if a.length = b.length then .ok (List.zipWith (fun x y => (1 - tau) * x + tau * y) a b) else .error .typeError

/-- `soft_update_func`, `coax/_core/base_func.py:88-89`: `tree_map` raises `ValueError` for trees of different structures. -/
def softUpdateFunc [Field K] (tau : K) : PyTree K → PyTree K → Except Err (PyTree K)
  | [], [] => .ok []
  | (k, a) :: old, (k', b) :: new =>
    if k ≠ k' then .error .valueError
    else match mixLeaf tau a b with
      | .error e => .error e
      | .ok c => match softUpdateFunc tau old new with
        | .error e => .error e
        | .ok rest => .ok ((k, c) :: rest)
  | _, _ => .error .valueError

/-- The `params` setter, `coax/_core/base_func.py:124-128`. -/
def setParams {C : Type _} (s : FuncState K C) (p : PyTree K) : FuncState K C × Except Err Unit :=
  if structure_ p ≠ structure_ s.params then (s, .error .typeError) else ({ s with params := p }, .ok ())

/-- The `function_state` setter, `coax/_core/base_func.py:149-155`. -/
def setFunctionState {C : Type _} (s : FuncState K C) (p : PyTree K) : FuncState K C × Except Err Unit :=
  if structure_ p ≠ structure_ s.functionState then (s, .error .typeError) else ({ s with functionState := p }, .ok ())

/-- `BaseFunc.soft_update`, `coax/_core/base_func.py:93-117`; `isInstance c d` says whether an instance of class `c` is an instance of class `d`. -/
def softUpdate [Field K] {C : Type _} (isInstance : C → C → Bool) (s other : FuncState K C) (tau : K) : FuncState K C × Except Err Unit :=
  if isInstance other.cls s.cls = false then (s, .error .typeError)
  else match softUpdateFunc tau s.params other.params with
    | .error e => (s, .error e)
    | .ok p => match setParams s p with
      | (s1, .error e) => (s1, .error e)
      | (s1, .ok ()) => match softUpdateFunc tau s1.functionState other.functionState with
        | .error e => (s1, .error e)
        | .ok f => setFunctionState s1 f

end Coax.Core
