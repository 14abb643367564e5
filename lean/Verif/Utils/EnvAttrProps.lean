import Verif.Utils.EnvAttr

/-! Property C34: attribute lookup through a stack of wrappers. -/

namespace Coax.EnvAttr

variable {V : Type _}

/-! ### Specification -/

/-- The environment `d` layers below `e`. -/
def Env.layer (e : Env V) : Nat → Option (Env V)
  | 0 => some e
  | d + 1 => (e.layer d).bind Env.inner

/-- The outermost layer of `e` that has the attribute `name` is layer number `d`, and there its value is `v`. -/
structure Outermost (e : Env V) (name : String) (d : Nat) (v : Value V) : Prop where
  found : ∃ e', e.layer d = some e' ∧ e'.attr name = some v
  first : ∀ d' < d, ∀ e', e.layer d' = some e' → e'.attr name = none

/-! ### Helpers -/

theorem layer_succ (e : Env V) (d : Nat) : e.layer (d + 1) = e.inner.bind (fun e' => e'.layer d) := by
  induction d with
  | zero => simp only [Env.layer, Option.bind_some]; cases e.inner <;> rfl
  | succ d ih =>
    rw [show e.layer (d + 1 + 1) = (e.layer (d + 1)).bind Env.inner from rfl, ih]
    cases e.inner <;> rfl

theorem getLoop_eq_some {n : Nat} {e : Env V} {name : String} {v : Value V} :
    getLoop n e name = some v ↔ ∃ d < n, Outermost e name d v := by
  induction n generalizing e with
  | zero => simp [getLoop]
  | succ n ih =>
    simp only [getLoop]
    cases ha : e.attr name with
    | some v' =>
      simp only [Option.some.injEq]
      constructor
      · rintro rfl; exact ⟨0, by omega, ⟨e, rfl, ha⟩, by intro d' h; omega⟩
      · rintro ⟨d, -, ⟨e', h1, h2⟩, h3⟩
        cases d with
        | zero => simp only [Env.layer, Option.some.injEq] at h1; subst h1; rw [ha] at h2; simpa using h2
        | succ d => rw [h3 0 (by omega) e rfl] at ha; cases ha
    | none =>
      simp only
      cases hi : e.inner with
      | none =>
        simp only [reduceCtorEq, false_iff]
        rintro ⟨d, -, ⟨e', h1, h2⟩, h3⟩
        cases d with
        | zero => simp only [Env.layer, Option.some.injEq] at h1; subst h1; rw [ha] at h2; cases h2
        | succ d => rw [layer_succ, hi] at h1; cases h1
      | some e' =>
        simp only [ih]
        constructor
        · rintro ⟨d, hd, ⟨e2, h1, h2⟩, h3⟩
          refine ⟨d + 1, by omega, ⟨e2, by rw [layer_succ, hi]; exact h1, h2⟩, ?_⟩
          intro d' hd' e3 h4
          cases d' with
          | zero => simp only [Env.layer, Option.some.injEq] at h4; subst h4; exact ha
          | succ d' => rw [layer_succ, hi] at h4; exact h3 d' (by omega) e3 h4
        · rintro ⟨d, hd, ⟨e2, h1, h2⟩, h3⟩
          cases d with
          | zero => simp only [Env.layer, Option.some.injEq] at h1; subst h1; rw [ha] at h2; cases h2
          | succ d =>
            rw [layer_succ, hi] at h1
            refine ⟨d, by omega, ⟨e2, h1, h2⟩, ?_⟩
            intro d' hd' e3 h4
            exact h3 (d' + 1) (by omega) e3 (by rw [layer_succ, hi]; exact h4)

theorem hasLoop_eq (n : Nat) (e : Env V) (name : String) : hasLoop n e name = (getLoop n e name).isSome := by
  induction n generalizing e with
  | zero => rfl
  | succ n ih =>
    simp only [hasLoop, getLoop]
    cases e.attr name with
    | some v => rfl
    | none =>
      simp only [Option.isSome_none, Bool.false_eq_true, if_false]
      cases e.inner with
      | none => rfl
      | some e' => exact ih e'

/-! ### Theorems -/

/-- C34.  When some layer above the depth limit has the attribute, `get_env_attr` returns the value of the outermost
such layer, whatever the default. -/
theorem C34_get_found {e : Env V} {name : String} {d n : Nat} {v : Value V} (h : Outermost e name d v) (hd : d < n)
    (default : Option (Value V)) : getEnvAttr e name default n = .ok v := by
  simp only [getEnvAttr, getLoop_eq_some.2 ⟨d, hd, h⟩]

/-- C34.  When no layer above the depth limit has the attribute, `get_env_attr` raises `AttributeError`, or returns the
default when there is one. -/
theorem C34_get_missing {e : Env V} {name : String} {n : Nat} (h : ∀ d < n, ∀ e', e.layer d = some e' → e'.attr name = none) :
    getEnvAttr e name none n = .error .attributeError ∧ ∀ v, getEnvAttr e name (some v) n = .ok v := by
  have : getLoop n e name = none := by
    cases hg : getLoop n e name with
    | none => rfl
    | some v =>
      obtain ⟨d, hd, ⟨e', h1, h2⟩, -⟩ := getLoop_eq_some.1 hg
      rw [h d hd e' h1] at h2
      cases h2
  simp only [getEnvAttr, this, true_and, implies_true]

/-- C34.  `has_env_attr` is `True` exactly when a layer above the depth limit has the attribute. -/
theorem C34_has (e : Env V) (name : String) (n : Nat) :
    hasEnvAttr e name n = true ↔ ∃ d < n, ∃ e' v, e.layer d = some e' ∧ e'.attr name = some v := by
  rw [hasEnvAttr, hasLoop_eq, Option.isSome_iff_exists]
  constructor
  · rintro ⟨v, hv⟩
    obtain ⟨d, hd, ⟨e', h1, h2⟩, -⟩ := getLoop_eq_some.1 hv
    exact ⟨d, hd, e', v, h1, h2⟩
  · rintro ⟨d, hd, e', v, h1, h2⟩
    apply Classical.byContradiction
    intro hc
    have hn : getLoop n e name = none := by
      cases hg : getLoop n e name with
      | none => rfl
      | some v => exact absurd ⟨v, hg⟩ hc
    have key : ∀ d' : Nat, d' < n → ∀ e', e.layer d' = some e' → e'.attr name = none := by
      intro d'
      induction d' using Nat.strongRecOn with
      | ind d' ih =>
        intro hd' e2 he2
        cases ha : e2.attr name with
        | none => rfl
        | some v2 =>
          have := getLoop_eq_some.2 ⟨d', hd', ⟨e2, he2, ha⟩, fun d3 h3 e3 he3 => ih d3 h3 (by omega) e3 he3⟩
          rw [hn] at this
          cases this
    rw [key d hd e' h1] at h2
    cases h2

/-- C34.  `has_env_attr` and `get_env_attr` agree. -/
theorem C34_agree (e : Env V) (name : String) (n : Nat) :
    hasEnvAttr e name n = true ↔ ∃ v, getEnvAttr e name none n = .ok v := by
  rw [hasEnvAttr, hasLoop_eq, getEnvAttr]
  cases getLoop n e name <;> simp

/-- C34, boundary: an attribute that sits below the depth limit is reported as missing. -/
theorem C34_depth_limit {e : Env V} {name : String} {d n : Nat} {v : Value V} (h : Outermost e name d v) (hd : n ≤ d) :
    hasEnvAttr e name n = false ∧ getEnvAttr e name none n = .error .attributeError := by
  have hm := C34_get_missing (e := e) (name := name) (n := n) (fun d' hd' e' he' => h.first d' (by omega) e' he')
  refine ⟨?_, hm.1⟩
  cases hh : hasEnvAttr e name n with
  | false => rfl
  | true =>
    obtain ⟨v, hv⟩ := (C34_agree e name n).1 hh
    rw [hm.1] at hv
    cases hv

/-- Two wrappers around an environment; both the inner wrapper and the environment have the attribute `gamma`. -/
def exEnv : Env Nat :=
  .wrapper (fun _ => none) (.wrapper (fun s => if s = "gamma" then some 7 else none) (.base (fun s => if s = "gamma" then some 9 else none)))

theorem exEnv_outermost : Outermost exEnv "gamma" 1 (.plain 7) :=
  ⟨⟨_, rfl, rfl⟩, by intro d' h e' he; obtain rfl : d' = 0 := by omega
                     simp only [Env.layer, Option.some.injEq] at he; subst he; rfl⟩

example : getEnvAttr exEnv "gamma" none = .ok (.plain 7) := C34_get_found exEnv_outermost (by decide) _
example : getEnvAttr exEnv "gamma" none 1 = .error .attributeError := (C34_depth_limit exEnv_outermost (by decide)).2
example : ∀ d < 100, ∀ e', exEnv.layer d = some e' → e'.attr "delta" = none := by
  intro d _ e' h
  match d with
  | 0 => cases h; rfl
  | 1 => cases h; rfl
  | 2 => cases h; rfl
  | d + 3 =>
    rw [layer_succ] at h
    simp only [exEnv, Env.inner, Option.bind_some] at h
    rw [layer_succ] at h
    simp only [Env.inner, Option.bind_some] at h
    rw [layer_succ] at h
    cases h

end Coax.EnvAttr
