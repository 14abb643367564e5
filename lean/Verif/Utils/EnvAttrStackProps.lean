import Verif.Utils.EnvAttrProps

/-! Property C34, stated for lists of wrappers: which attribute of which wrapper is returned. -/

namespace Coax.EnvAttr

variable {V : Type _}

/-! ### Specification -/

/-- An environment with attributes `b` in wrappers with attributes `ws`, the outermost first. -/
def stack (b : String → Option V) : List (String → Option V) → Env V
  | [] => .base b
  | w :: ws => .wrapper w (stack b ws)

/-! ### Theorems -/

theorem every_stack (e : Env V) : ∃ b ws, e = stack b ws := by
  induction e with
  | base b => exact ⟨b, [], rfl⟩
  | wrapper w e ih =>
    obtain ⟨b, ws, rfl⟩ := ih
    exact ⟨b, w :: ws, rfl⟩

theorem getLoop_stack (b : String → Option V) (ws : List (String → Option V)) {name : String} (hn : name ≠ "env") (n : Nat) :
    getLoop n (stack b ws) name = (((ws ++ [b]).take n).findSome? fun attrs => attrs name).map .plain := by
  induction ws generalizing n with
  | nil =>
    cases n with
    | zero => rfl
    | succ n => cases h : b name <;> simp [getLoop, stack, Env.attr, Env.inner, hn, h]
  | cons w ws ih =>
    cases n with
    | zero => rfl
    | succ n => cases h : w name <;> simp [getLoop, stack, Env.attr, Env.inner, hn, h, ih]

/-- C34.  Of the outermost `max_depth` objects of a stack of wrappers, `get_env_attr` returns the attribute of the first that has one of this name.  If there is none, it returns the default or raises, and `has_env_attr` is `False`. -/
theorem C34_stack (b : String → Option V) (ws : List (String → Option V)) {name : String} (hn : name ≠ "env") (n : Nat) :
    (∀ v, (((ws ++ [b]).take n).findSome? fun attrs => attrs name) = some v → hasEnvAttr (stack b ws) name n = true ∧ ∀ default, getEnvAttr (stack b ws) name default n = .ok (.plain v)) ∧
    ((∀ attrs ∈ (ws ++ [b]).take n, attrs name = none) → hasEnvAttr (stack b ws) name n = false ∧ getEnvAttr (stack b ws) name none n = .error .attributeError ∧ ∀ v, getEnvAttr (stack b ws) name (some v) n = .ok v) := by
  have h := getLoop_stack b ws hn n
  refine ⟨fun v hv => ?_, fun hv => ?_⟩
  · rw [hv] at h
    simp [hasEnvAttr, hasLoop_eq, getEnvAttr, h]
  · rw [List.findSome?_eq_none_iff.2 hv] at h
    simp [hasEnvAttr, hasLoop_eq, getEnvAttr, h]

/-- C34.  The attribute `env` is the wrapped environment itself; an environment without wrappers has none. -/
theorem C34_env (b w : String → Option V) (ws : List (String → Option V)) (n : Nat) (default : Option (Value V)) :
    getEnvAttr (stack b (w :: ws)) "env" default (n + 1) = .ok (.env (stack b ws)) ∧ hasEnvAttr (stack b []) "env" n = false := by
  refine ⟨by simp [getEnvAttr, getLoop, Env.attr, Env.inner, stack], ?_⟩
  cases n <;> simp [hasEnvAttr, hasLoop, Env.attr, Env.inner, stack]

example : getEnvAttr (stack (fun s => if s = "gamma" then some 9 else none) [fun _ => none, fun s => if s = "gamma" then some 7 else none]) "gamma" none = .ok (.plain 7) :=
  ((C34_stack _ _ (by decide) 100).1 7 (by simp)).2 none

end Coax.EnvAttr
