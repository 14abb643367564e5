import Verif.Err

/-!
Model of `AddOrigToInfoDictMixin` (`coax/_base/mixins/_add_orig_to_info.py:4-30`) and of its use in `BoxActionsToReals.step` and `BoxActionsToDiscrete.step`
(`coax/wrappers/_box_spaces.py:42-47,83-88`), for wrappers around wrappers.

Dicts are objects: `info` is a reference, and the environment may return the same dict again.  Of a dict only the entry `'a_orig'` is modelled.  `_add_s_orig_to_info_dict` is not used by any class.
-/

namespace Coax.OrigInfo

/-- The value of `info['a_orig']`: a list, or anything else (`coax/_base/mixins/_add_orig_to_info.py:27-30`). -/
inductive Entry (α : Type _) where
  | list (l : List α)
  | other

/-- The dicts that exist; each is reduced to its entry `'a_orig'` (`coax/_base/mixins/_add_orig_to_info.py:27`). -/
abbrev Heap (α : Type _) := List (Option (Entry α))

/-- What a step returns as `info`: `None`, a dict, anything else (`coax/_base/mixins/_add_orig_to_info.py:23-25`). -/
inductive Info where
  | none
  | dict (r : Nat)
  | other
  deriving DecidableEq

/-- What the inner environment returns as `info` (`coax/wrappers/_box_spaces.py:45`): `None`, a new dict, a dict that existed before, anything else. -/
inductive Reply (α : Type _) where
  | none
  | new (d : Option (Entry α))
  | old (r : Nat)
  | other

/-- `_add_a_orig_to_info_dict(info)`, `coax/_base/mixins/_add_orig_to_info.py:22-30`.  For `None` the entry goes to a dict that nothing refers to. -/
def addOrig {α : Type _} (a : α) (h : Heap α) : Info → Except Err (Heap α)
  | .none => .ok h
  | .other => .error .assertionError
  | .dict r => match h[r]? with
    | some (some (.list l)) => .ok (h.set r (some (.list (l ++ [a]))))
    | some (some .other) => .error .attributeError
    | some none => .ok (h.set r (some (.list [a])))
    | none => .error .keyError

/-- `step` of a wrapper around wrappers around an environment, `coax/wrappers/_box_spaces.py:42-47,83-88`, the outermost first.  A wrapper maps an action (`_compactify`, `_discrete_to_box`) or
rejects it.  The result is the action that the environment got, the dicts, and `info`. -/
def step {α : Type _} (reply : Reply α) : List (α → Option α) → Heap α → α → Except Err (α × Heap α × Info)
  | [], h, a => match reply with
    | .none => .ok (a, h, .none)
    | .new d => .ok (a, h ++ [d], .dict h.length)
    | .old r => .ok (a, h, .dict r)
    | .other => .ok (a, h, .other)
  | w :: ws, h, a => match w a with
    | none => .error .assertionError
    | some a' => match step reply ws h a' with
      | .error e => .error e
      | .ok (core, h', info) => match addOrig a' h' info with
        | .error e => .error e
        | .ok h'' => .ok (core, h'', info)

/-- One step of a program: the wrappers with the random numbers they draw, what the environment replies, the action (`coax/wrappers/_box_spaces.py:42,83`). -/
structure Call (α : Type _) where
  wrappers : List (α → Option α)
  reply : Reply α
  action : α

/-- Several steps, `coax/wrappers/_box_spaces.py:42-47,83-88`: the dicts at the end and each `info`. -/
def run {α : Type _} : Heap α → List (Call α) → Except Err (Heap α × List Info)
  | h, [] => .ok (h, [])
  | h, c :: cs => match step c.reply c.wrappers h c.action with
    | .error e => .error e
    | .ok (_, h', info) => match run h' cs with
      | .error e => .error e
      | .ok (h'', infos) => .ok (h'', info :: infos)

end Coax.OrigInfo
