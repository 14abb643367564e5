import Verif.Err

/-! Model of `coax.utils.has_env_attr` and `coax.utils.get_env_attr` (`coax/utils/_misc.py:363-428`). -/

namespace Coax.EnvAttr

/-- An environment: what `hasattr`/`getattr` find on the object itself, and, for a wrapper, the environment in its
attribute `env`.  An unwrapped environment has no attribute `env`.  (`coax/utils/_misc.py:417-423`.) -/
inductive Env (V : Type _) where
  | base (attrs : String → Option V)
  | wrapper (attrs : String → Option V) (env : Env V)

variable {V : Type _}

/-- An attribute value: an environment (the attribute `env`) or anything else.  (`coax/utils/_misc.py:419-423`.) -/
inductive Value (V : Type _) where
  | plain (v : V)
  | env (e : Env V)

/-- `e.env`, or `none` when `hasattr(e, 'env')` is false.  (`coax/utils/_misc.py:421-423`.) -/
def Env.inner : Env V → Option (Env V)
  | .base _ => none
  | .wrapper _ e => some e

/-- `getattr(e, attr)`, or `none` when `hasattr(e, attr)` is false.  (`coax/utils/_misc.py:419-420`.) -/
def Env.attr (e : Env V) (name : String) : Option (Value V) :=
  if name = "env" then e.inner.map .env
  else match e with
    | .base attrs => (attrs name).map .plain
    | .wrapper attrs _ => (attrs name).map .plain

/-- The loop of `has_env_attr`, `coax/utils/_misc.py:382-388`; the first argument is what remains of `range(max_depth)`. -/
def hasLoop : Nat → Env V → String → Bool
  | 0, _, _ => false
  | n + 1, e, name =>
    if (e.attr name).isSome then true
    else match e.inner with
      | none => false
      | some e' => hasLoop n e' name

/-- `has_env_attr`, `coax/utils/_misc.py:363-390`. -/
def hasEnvAttr (env : Env V) (name : String) (maxDepth : Nat := 100) : Bool := hasLoop maxDepth env name

/-- The loop of `get_env_attr`, `coax/utils/_misc.py:417-423`; `none` is leaving the loop without returning. -/
def getLoop : Nat → Env V → String → Option (Value V)
  | 0, _, _ => none
  | n + 1, e, name =>
    match e.attr name with
    | some v => some v
    | none => match e.inner with
      | none => none
      | some e' => getLoop n e' name

/-- `get_env_attr`, `coax/utils/_misc.py:393-428`.  `default = none` stands for the default argument `'__ERROR__'`. -/
def getEnvAttr (env : Env V) (name : String) (default : Option (Value V) := none) (maxDepth : Nat := 100) : Except Err (Value V) :=
  match getLoop maxDepth env name with
  | some v => .ok v
  | none => match default with
    | none => .error .attributeError
    | some d => .ok d

end Coax.EnvAttr
