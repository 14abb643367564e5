import Verif.Err

/-!
Model of `reload_recursive` (`coax/utils/_misc.py:270-317`).

Modules are identified by their names, which are lists of characters.  `attrs m` are the names of the modules among the attributes of the module `m`, in the
order of `dir(m)`.  Reloading a module is assumed to leave these attributes as they are.
-/

namespace Coax.Reload

/-- Module names.  (`coax/utils/_misc.py:272`.) -/
abbrev Name := List Char

/-- The test at `coax/utils/_misc.py:282-291` for an attribute `a` of the module `m`, given the names of the modules that were reloaded already. -/
def follow (all : Bool) (m : Name) (reloaded : List Name) (a : Name) : Bool :=
  !reloaded.contains a && (all || m.isPrefixOf a)

/-- `_reload`, `coax/utils/_misc.py:270-297`, for a module given as such: returns the modules that have been reloaded, in the order of reloading.  `depth` is what is
left of Python's recursion limit; `RecursionError` is a `RuntimeError`. -/
def reloadModule (attrs : Name → List Name) (all : Bool) : Nat → Name → List Name → Except Err (List Name)
  | 0, _, _ => .error .runtimeError
  | depth + 1, m, reloaded =>
    match (attrs m).foldl (fun acc a => match acc with
        | .error e => .error e
        | .ok r => if follow all m r a then reloadModule attrs all depth a r else .ok r) (Except.ok reloaded) with
    | .error e => .error e
    | .ok r => .ok (r ++ [m])

/-- The argument `module` of `reload_recursive`: a module, the name of a module that can be imported or not, or something else (`coax/utils/_misc.py:271-278`). -/
inductive ModuleArg where
  | module (m : Name)
  | name (m : Name) (importable : Bool)
  | other

/-- `reload_recursive`, `coax/utils/_misc.py:300-317`.  A module that cannot be imported raises `ImportError`, which is not among the modelled exceptions and is
represented by `RuntimeError`. -/
def reloadRecursive (attrs : Name → List Name) (limit : Nat) (module : ModuleArg) (external : Bool) : Except Err (List Name) :=
  match module with
  | .module m => reloadModule attrs external limit m []
  | .name m true => reloadModule attrs external limit m []
  | .name _ false => .error .runtimeError
  | .other => .error .typeError

end Coax.Reload
