import Verif.Core.SoftUpdate
import Mathlib.Algebra.Order.Field.Basic
import Mathlib.Tactic.Ring
import Mathlib.Tactic.Linarith
import Mathlib.Tactic.NormNum

/-! Property C54: `soft_update` is exponential smoothing. -/

namespace Coax.Core

set_option linter.unusedSectionVars false

variable {K C : Type _} [Field K]

/-- Two trees with the same paths and leaf sizes. -/
def SameShape (t u : PyTree K) : Prop := List.Forall₂ (fun x y => x.1 = y.1 ∧ x.2.length = y.2.length) t u

/-- The entry `j` of leaf `i`. -/
def entry (t : PyTree K) (i j : Nat) : Option K := (t[i]?).bind (fun x => x.2[j]?)

theorem mixLeaf_get (tau : K) {a b : List K} (h : a.length = b.length) :
    ∃ c, mixLeaf tau a b = .ok c ∧ c.length = a.length ∧ ∀ (j : Nat) (x y : K), a[j]? = some x → b[j]? = some y → c[j]? = some ((1 - tau) * x + tau * y) := by
  unfold mixLeaf
  rw [if_pos h]
  refine ⟨_, rfl, by simp [h], ?_⟩
  intro j x y hx hy
  rw [List.getElem?_zipWith, hx, hy]

theorem softUpdateFunc_ok (tau : K) {t u : PyTree K} (h : SameShape t u) :
    ∃ v, softUpdateFunc tau t u = .ok v ∧ SameShape v t ∧
      ∀ (i j : Nat) (x y : K), entry t i j = some x → entry u i j = some y → entry v i j = some ((1 - tau) * x + tau * y) := by
  induction h with
  | nil => exact ⟨[], rfl, .nil, fun i j x y hx => by simp [entry] at hx⟩
  | @cons a b t u hab _ ih =>
    obtain ⟨v, hv, hs, hv'⟩ := ih
    obtain ⟨k, a⟩ := a
    obtain ⟨k', b⟩ := b
    obtain ⟨rfl, hl⟩ := hab
    obtain ⟨c, hc, hcl, hc'⟩ := mixLeaf_get tau hl
    refine ⟨(k, c) :: v, ?_, .cons ⟨rfl, hcl⟩ hs, ?_⟩
    · unfold softUpdateFunc
      simp only at hc
      rw [if_neg (by simp), hc]
      simp only
      rw [hv]
    · intro i j x y hx hy
      cases i with
      | zero => exact hc' j x y hx hy
      | succ i => exact hv' i j x y hx hy

theorem softUpdateFunc_err (tau : K) {t u : PyTree K} (h : structure_ t ≠ structure_ u) : ∃ e, softUpdateFunc tau t u = .error e := by
  induction t generalizing u with
  | nil =>
    cases u with
    | nil => exact absurd rfl h
    | cons b u => exact ⟨_, rfl⟩
  | cons a t ih =>
    obtain ⟨k, a⟩ := a
    cases u with
    | nil => exact ⟨_, rfl⟩
    | cons b u =>
      obtain ⟨k', b⟩ := b
      unfold softUpdateFunc
      by_cases hk : k = k'
      · rw [if_neg (by simpa using hk)]
        cases mixLeaf tau a b with
        | error e => exact ⟨_, rfl⟩
        | ok c =>
          simp only
          obtain ⟨e, he⟩ := ih (u := u) (by intro h'; apply h; simp only [structure_, List.map_cons] at h' ⊢; rw [h', hk])
          rw [he]; exact ⟨_, rfl⟩
      · rw [if_pos hk]; exact ⟨_, rfl⟩

theorem SameShape.structure_eq {t u : PyTree K} (h : SameShape t u) : structure_ t = structure_ u := by
  induction h with
  | nil => rfl
  | cons h _ ih => simp only [structure_, List.map_cons, h.1] at ih ⊢; rw [ih]

theorem SameShape.trans {t u v : PyTree K} (h : SameShape t u) (h' : SameShape u v) : SameShape t v := by
  unfold SameShape at *
  induction h generalizing v with
  | nil => exact h'
  | cons h1 _ ih => cases h' with | cons h2 h3 => exact .cons ⟨h1.1.trans h2.1, h1.2.trans h2.2⟩ (ih h3)

/-- What C54 claims of one update: each entry of the params and of the function state becomes `(1-τ)·old + τ·new`, nothing else changes. -/
def Smoothed (s other s' : FuncState K C) (tau : K) : Prop :=
  s'.cls = s.cls ∧ SameShape s'.params s.params ∧ SameShape s'.functionState s.functionState ∧
  (∀ (i j : Nat) (x y : K), entry s.params i j = some x → entry other.params i j = some y → entry s'.params i j = some ((1 - tau) * x + tau * y)) ∧
  (∀ (i j : Nat) (x y : K), entry s.functionState i j = some x → entry other.functionState i j = some y → entry s'.functionState i j = some ((1 - tau) * x + tau * y))

/-- C54.  For two functions of the same class and architecture the update succeeds and smooths. -/
theorem C54_soft_update {isInstance : C → C → Bool} {s other : FuncState K C} (hc : isInstance other.cls s.cls = true)
    (hp : SameShape s.params other.params) (hf : SameShape s.functionState other.functionState) (tau : K) :
    ∃ s', softUpdate isInstance s other tau = (s', .ok ()) ∧ Smoothed s other s' tau := by
  obtain ⟨p, hp1, hp2, hp3⟩ := softUpdateFunc_ok tau hp
  obtain ⟨f, hf1, hf2, hf3⟩ := softUpdateFunc_ok tau hf
  refine ⟨{ s with params := p, functionState := f }, ?_, rfl, hp2, hf2, hp3, hf3⟩
  unfold softUpdate
  rw [if_neg (by simp [hc]), hp1]
  simp only [setParams]
  rw [if_neg (by simp [hp2.structure_eq])]
  simp only
  rw [hf1]
  simp only [setFunctionState]
  rw [if_neg (by simp [hf2.structure_eq])]

/-- C54.  Another class is rejected, and so are params of another structure; nothing changes. -/
theorem C54_rejects {isInstance : C → C → Bool} {s other : FuncState K C} (tau : K)
    (h : isInstance other.cls s.cls = false ∨ structure_ s.params ≠ structure_ other.params) :
    ∃ e, softUpdate isInstance s other tau = (s, .error e) := by
  unfold softUpdate
  by_cases hc : isInstance other.cls s.cls = false
  · rw [if_pos hc]; exact ⟨_, rfl⟩
  · rw [if_neg hc]
    obtain ⟨e, he⟩ := softUpdateFunc_err tau (h.resolve_left hc)
    rw [he]; exact ⟨_, rfl⟩

/-- If the params fit and the function states do not, the params have been updated when the error is raised. -/
theorem C54_not_atomic {isInstance : C → C → Bool} {s other : FuncState K C} (hc : isInstance other.cls s.cls = true)
    (hp : SameShape s.params other.params) (hf : structure_ s.functionState ≠ structure_ other.functionState) (tau : K) :
    ∃ s' e, softUpdate isInstance s other tau = (s', .error e) ∧ s'.functionState = s.functionState ∧
      ∀ (i j : Nat) (x y : K), entry s.params i j = some x → entry other.params i j = some y → entry s'.params i j = some ((1 - tau) * x + tau * y) := by
  obtain ⟨p, hp1, hp2, hp3⟩ := softUpdateFunc_ok tau hp
  obtain ⟨e, he⟩ := softUpdateFunc_err tau hf
  refine ⟨{ s with params := p }, e, ?_, rfl, hp3⟩
  unfold softUpdate
  rw [if_neg (by simp [hc]), hp1]
  simp only [setParams]
  rw [if_neg (by simp [hp2.structure_eq])]
  simp only
  rw [he]

theorem entry_some_of_sameShape {t u : PyTree K} (h : SameShape t u) {i j : Nat} {x : K} (hx : entry t i j = some x) : ∃ y, entry u i j = some y := by
  unfold SameShape at h
  induction h generalizing i with
  | nil => simp [entry] at hx
  | @cons a b t u hab _ ih =>
    cases i with
    | zero =>
      have hx' : a.2[j]? = some x := hx
      have hj : j < b.2.length := by rw [← hab.2]; exact (List.getElem?_eq_some_iff.1 hx').1
      exact ⟨b.2[j], show b.2[j]? = _ from List.getElem?_eq_getElem hj⟩
    | succ i => exact ih (i := i) hx

theorem ext_entry {t u : PyTree K} (h : SameShape t u) (he : ∀ (i j : Nat) (x y : K), entry t i j = some x → entry u i j = some y → x = y) : t = u := by
  unfold SameShape at h
  induction h with
  | nil => rfl
  | @cons a b t u hab _ ih =>
    obtain ⟨k, a⟩ := a
    obtain ⟨k', b⟩ := b
    obtain ⟨h1, h2⟩ := hab
    simp only at h1 h2
    subst h1
    have hab : a = b := by
      apply List.ext_getElem h2
      intro j hj1 hj2
      exact he 0 j _ _ (show a[j]? = _ from List.getElem?_eq_getElem hj1) (show b[j]? = _ from List.getElem?_eq_getElem hj2)
    rw [hab, ih (fun i j x y hx hy => he (i + 1) j x y hx hy)]

/-- C54.  `τ = 1` copies. -/
theorem C54_tau_one {isInstance : C → C → Bool} {s other : FuncState K C} (hc : isInstance other.cls s.cls = true)
    (hp : SameShape s.params other.params) (hf : SameShape s.functionState other.functionState) :
    softUpdate isInstance s other 1 = ({ s with params := other.params, functionState := other.functionState }, .ok ()) := by
  obtain ⟨s', h, h1, h2, h3, h4, h5⟩ := C54_soft_update hc hp hf 1
  rw [h]
  obtain ⟨c, p, f⟩ := s'
  simp only at h1 h2 h3 h4 h5
  have e1 : p = other.params := ext_entry (h2.trans hp) (by
    intro i j x y hx hy
    obtain ⟨z, hz⟩ := entry_some_of_sameShape h2 hx
    have := h4 i j z y hz hy
    rw [hx, Option.some.injEq] at this
    rw [this]; ring)
  have e2 : f = other.functionState := ext_entry (h3.trans hf) (by
    intro i j x y hx hy
    obtain ⟨z, hz⟩ := entry_some_of_sameShape h3 hx
    have := h5 i j z y hz hy
    rw [hx, Option.some.injEq] at this
    rw [this]; ring)
  rw [e1, e2, h1]

/-- C54.  `τ = 0` does nothing. -/
theorem C54_tau_zero {isInstance : C → C → Bool} {s other : FuncState K C} (hc : isInstance other.cls s.cls = true)
    (hp : SameShape s.params other.params) (hf : SameShape s.functionState other.functionState) : softUpdate isInstance s other 0 = (s, .ok ()) := by
  obtain ⟨s', h, h1, h2, h3, h4, h5⟩ := C54_soft_update hc hp hf 0
  rw [h]
  obtain ⟨c, p, f⟩ := s'
  obtain ⟨c', p', f'⟩ := s
  simp only at h1 h2 h3 h4 h5
  have e1 : p = p' := ext_entry h2 (by
    intro i j x y hx hy
    obtain ⟨z, hz⟩ := entry_some_of_sameShape hp hy
    have := h4 i j y z hy hz
    rw [hx, Option.some.injEq] at this
    rw [this]; ring)
  have e2 : f = f' := ext_entry h3 (by
    intro i j x y hx hy
    obtain ⟨z, hz⟩ := entry_some_of_sameShape hf hy
    have := h5 i j y z hy hz
    rw [hx, Option.some.injEq] at this
    rw [this]; ring)
  rw [e1, e2, h1]

/-- `k` updates toward the same other function. -/
def softUpdates (isInstance : C → C → Bool) (other : FuncState K C) (tau : K) : Nat → FuncState K C → FuncState K C × Except Err Unit
  | 0, s => (s, .ok ())
  | k + 1, s => match softUpdate isInstance s other tau with
    | (s', .error e) => (s', .error e)
    | (s', .ok ()) => softUpdates isInstance other tau k s'

/-- C54.  After `k` updates a fraction `(1-τ)^k` of the initial difference is left. -/
theorem C54_geometric {isInstance : C → C → Bool} {s other : FuncState K C} (hc : isInstance other.cls s.cls = true)
    (hp : SameShape s.params other.params) (hf : SameShape s.functionState other.functionState) (tau : K) (k : Nat) :
    ∃ s', softUpdates isInstance other tau k s = (s', .ok ()) ∧
      (∀ (i j : Nat) (x y : K), entry s.params i j = some x → entry other.params i j = some y → entry s'.params i j = some (y + (1 - tau) ^ k * (x - y))) ∧
      (∀ (i j : Nat) (x y : K), entry s.functionState i j = some x → entry other.functionState i j = some y →
        entry s'.functionState i j = some (y + (1 - tau) ^ k * (x - y))) := by
  induction k generalizing s with
  | zero => exact ⟨s, rfl, fun i j x y hx _ => by rw [hx]; simp, fun i j x y hx _ => by rw [hx]; simp⟩
  | succ k ih =>
    obtain ⟨s1, h, h1, h2, h3, h4, h5⟩ := C54_soft_update hc hp hf tau
    obtain ⟨s2, g, g1, g2⟩ := ih (s := s1) (by rw [h1]; exact hc) (h2.trans hp) (h3.trans hf)
    refine ⟨s2, by unfold softUpdates; rw [h]; exact g, ?_, ?_⟩
    · intro i j x y hx hy
      rw [g1 i j _ y (h4 i j x y hx hy) hy, Option.some.injEq]; ring
    · intro i j x y hx hy
      rw [g2 i j _ y (h5 i j x y hx hy) hy, Option.some.injEq]; ring

/-- A sequence of updates toward changing functions. -/
def softUpdateSeq (isInstance : C → C → Bool) : List (FuncState K C × K) → FuncState K C → FuncState K C × Except Err Unit
  | [], s => (s, .ok ())
  | (other, tau) :: rest, s => match softUpdate isInstance s other tau with
    | (s', .error e) => (s', .error e)
    | (s', .ok ()) => softUpdateSeq isInstance rest s'

/-- C54.  For `τ` in `[0, 1]` an entry of the target params stays between bounds that hold for it at first and for the online params at all updates. -/
theorem C54_stays_between [LinearOrder K] [IsStrictOrderedRing K] {isInstance : C → C → Bool} (steps : List (FuncState K C × K)) {s : FuncState K C}
    (hc : ∀ x ∈ steps, isInstance x.1.cls s.cls = true) (hp : ∀ x ∈ steps, SameShape s.params x.1.params)
    (hf : ∀ x ∈ steps, SameShape s.functionState x.1.functionState) (ht : ∀ x ∈ steps, 0 ≤ x.2 ∧ x.2 ≤ 1) (i j : Nat) (lo hi v : K)
    (hv : entry s.params i j = some v) (hlo : lo ≤ v) (hhi : v ≤ hi)
    (hother : ∀ x ∈ steps, ∀ y, entry x.1.params i j = some y → lo ≤ y ∧ y ≤ hi) :
    ∃ s' w, softUpdateSeq isInstance steps s = (s', .ok ()) ∧ entry s'.params i j = some w ∧ lo ≤ w ∧ w ≤ hi := by
  induction steps generalizing s v with
  | nil => exact ⟨s, v, rfl, hv, hlo, hhi⟩
  | cons x steps ih =>
    obtain ⟨other, tau⟩ := x
    obtain ⟨s1, h, h1, h2, h3, h4, -⟩ := C54_soft_update (hc (other, tau) (by simp)) (hp (other, tau) (by simp)) (hf (other, tau) (by simp)) tau
    obtain ⟨y, hy⟩ := entry_some_of_sameShape (hp (other, tau) (by simp)) hv
    obtain ⟨hy1, hy2⟩ := hother (other, tau) (by simp) y hy
    obtain ⟨ht0, ht1⟩ := ht (other, tau) (by simp)
    simp only at ht0 ht1
    obtain ⟨s2, w, g, hw⟩ := ih (s := s1) (v := (1 - tau) * v + tau * y) (fun z hz => by rw [h1]; exact hc z (by simp [hz]))
      (fun z hz => h2.trans (hp z (by simp [hz]))) (fun z hz => h3.trans (hf z (by simp [hz]))) (fun z hz => ht z (by simp [hz]))
      (h4 i j v y hv hy) (by nlinarith) (by nlinarith) (fun z hz => hother z (by simp [hz]))
    exact ⟨s2, w, by unfold softUpdateSeq; rw [h]; exact g, hw⟩

/-- The hypotheses are met by two networks with two leaves. -/
example : ∃ s other : FuncState ℚ Nat, SameShape s.params other.params ∧ SameShape s.functionState other.functionState ∧ s.params ≠ other.params ∧
    softUpdate (· == ·) s other (1/4) = ({ s with params := [("w", [1/4, 1]), ("b", [3])] }, .ok ()) :=
  ⟨⟨0, [("w", [0, 0]), ("b", [2])], []⟩, ⟨0, [("w", [1, 4]), ("b", [6])], []⟩, .cons ⟨rfl, rfl⟩ (.cons ⟨rfl, rfl⟩ .nil), .nil, by decide +kernel, by
    norm_num [softUpdate, softUpdateFunc, mixLeaf, setParams, setFunctionState, structure_]⟩

end Coax.Core
