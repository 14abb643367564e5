import Verif.Wrappers.OrigInfo
import Verif.Wrappers.BoxSpacesProps

/-! Property C114: wrapped environments report the actions that were really taken. -/

namespace Coax.OrigInfo

variable {α : Type _}

/-! ### Specification -/

/-- The actions that the wrappers pass on, in the order in which they are made: from the outermost wrapper to the environment. -/
inductive Passed : List (α → Option α) → α → List α → Prop where
  | nil (a) : Passed [] a []
  | cons {w ws a a' l} : w a = some a' → Passed ws a' l → Passed (w :: ws) a (a' :: l)

/-- Every step returns a new dict without the entry. -/
def Fresh (cs : List (Call α)) : Prop := ∀ c ∈ cs, c.reply = .new none

/-! ### Lemmas -/

theorem passed_or (ws : List (α → Option α)) (a : α) : (∃ l, Passed ws a l) ∨ ∀ reply h, step reply ws h a = .error .assertionError := by
  induction ws generalizing a with
  | nil => exact .inl ⟨[], .nil a⟩
  | cons w ws ih =>
    cases hw : w a with
    | none => exact .inr fun reply h => by simp only [step, hw]
    | some a' =>
      rcases ih a' with ⟨l, hl⟩ | h
      · exact .inl ⟨a' :: l, .cons hw hl⟩
      · exact .inr fun reply h' => by simp only [step, hw, h]

theorem step_new {ws : List (α → Option α)} {a : α} {l : List α} (hp : Passed ws a l) (h : Heap α) :
    step (.new none) ws h a = .ok ((l.getLast?).getD a, h ++ [if l = [] then none else some (.list l.reverse)], .dict h.length) := by
  induction hp with
  | nil a => simp [step]
  | @cons w ws a a' l hw hp ih =>
    simp only [step, hw, ih]
    have hlast : (l.getLast?).getD a' = ((a' :: l).getLast?).getD a := by
      rw [List.getLast?_cons]
      simp
    by_cases hl : l = []
    · subst hl
      simp [addOrig]
    · simp [addOrig, hl, hlast]

/-! ### C114 -/

/-- **C114** for environments that return a new dict with each step: `info['a_orig']` holds exactly the actions that the wrappers passed on, the innermost first, so that the first one is the action
that the environment got; all other dicts are left alone.  An action outside of an action space raises AssertionError.
Missing: environments that return `None` or the same dict again, see the counterexamples. -/
theorem C114_step_partial (ws : List (α → Option α)) (h : Heap α) (a : α) : (step (.new none) ws h a = .error .assertionError ∧ ¬ ∃ l, Passed ws a l) ∨
    ∃ l core, Passed ws a l ∧ step (.new none) ws h a = .ok (core, h ++ [if l = [] then none else some (.list l.reverse)], .dict h.length) ∧
      (l = [] → core = a) ∧ (l ≠ [] → l.reverse.head? = some core) := by
  rcases passed_or ws a with ⟨l, hl⟩ | he
  · refine .inr ⟨l, _, hl, step_new hl h, fun h => by simp [h], fun hne => ?_⟩
    rw [List.head?_reverse]
    cases hg : l.getLast? with
    | none => exact absurd (List.getLast?_eq_none_iff.1 hg) hne
    | some x => rfl
  · refine .inl ⟨he _ _, fun ⟨l, hl⟩ => ?_⟩
    have h1 := step_new hl h
    rw [he] at h1
    cases h1

/-- **C114** over whole programs: if every step returns a new dict, then at the end each of the returned dicts still holds the actions of its own step. -/
theorem C114_history_partial (cs : List (Call α)) (hf : Fresh cs) (h : Heap α) (h' : Heap α) (infos : List Info) (hr : run h cs = .ok (h', infos)) :
    infos = (List.range cs.length).map (fun i => .dict (h.length + i)) ∧ h'.length = h.length + cs.length ∧ (∀ r, r < h.length → h'[r]? = h[r]?) ∧
      ∀ i c, cs[i]? = some c → ∃ l, Passed c.wrappers c.action l ∧ h'[h.length + i]? = some (if l = [] then none else some (.list l.reverse)) := by
  induction cs generalizing h infos with
  | nil =>
    simp only [run] at hr
    cases hr
    exact ⟨rfl, rfl, fun _ _ => rfl, fun i c hc => by simp at hc⟩
  | cons c cs ih =>
    have hc := hf c (by simp)
    rcases passed_or c.wrappers c.action with ⟨l, hl⟩ | he
    · have h1 := step_new hl h
      simp only [run, hc, h1] at hr
      cases h2 : run (h ++ [if l = [] then none else some (.list l.reverse)]) cs with
      | error e => rw [h2] at hr; cases hr
      | ok r =>
        obtain ⟨h3, is⟩ := r
        rw [h2] at hr
        cases hr
        obtain ⟨k1, k2, k3, k4⟩ := ih (fun c hc => hf c (by simp [hc])) _ _ h2
        simp only [List.length_append, List.length_singleton] at k1 k2 k3 k4
        refine ⟨?_, by rw [k2, List.length_cons]; omega, fun r hr => ?_, fun i d hd => ?_⟩
        · rw [List.length_cons, List.range_succ_eq_map, List.map_cons, List.map_map, k1]
          congr 1
          apply List.map_congr_left
          intro i _
          simp only [Function.comp, Nat.succ_eq_add_one]
          congr 1
          omega
        · rw [k3 r (by omega), List.getElem?_append_left hr]
        · cases i with
          | zero =>
            simp at hd
            subst hd
            refine ⟨l, hl, ?_⟩
            rw [Nat.add_zero, k3 h.length (by omega)]
            simp
          | succ i =>
            obtain ⟨l', h4, h5⟩ := k4 i d (by simpa using hd)
            exact ⟨l', h4, by rw [← h5]; congr 1; omega⟩
    · simp only [run, hc, he] at hr
      cases hr

/-- C114 fails for `None`: the actions are lost. -/
theorem C114_none_counterexample (w : α → Option α) (h : Heap α) (a a' : α) (hw : w a = some a') : step .none [w] h a = .ok (a', h, .none) := by
  simp only [step, hw, addOrig]

/-- C114 fails for environments that keep their dict: the list grows with every step. -/
theorem C114_reuse_counterexample (a : α) (n : Nat) : run [none] (List.replicate (n + 1) ⟨[some], .old 0, a⟩) = .ok ([some (.list (List.replicate (n + 1) a))], List.replicate (n + 1) (.dict 0)) := by
  have key : ∀ m k, run [some (Entry.list (List.replicate (m + 1) a))] (List.replicate k ⟨[some], .old 0, a⟩) = .ok ([some (.list (List.replicate (m + 1 + k) a))], List.replicate k (.dict 0)) := by
    intro m k
    induction k generalizing m with
    | zero => rfl
    | succ k ih =>
      rw [show List.replicate (k + 1) (⟨[some], .old 0, a⟩ : Call α) = ⟨[some], .old 0, a⟩ :: List.replicate k ⟨[some], .old 0, a⟩ from List.replicate_succ]
      have : List.replicate (m + 1) a ++ [a] = List.replicate (m + 1 + 1) a := (List.replicate_succ' (n := m + 1) (a := a)).symm
      simp only [run, step, addOrig, List.getElem?_cons_zero, List.set_cons_zero, this, ih (m + 1)]
      rw [show m + 1 + 1 + k = m + 1 + (k + 1) by omega]
      rfl
  rw [List.replicate_succ]
  have := key 0 n
  simp only [Nat.zero_add, List.replicate_succ, List.replicate_zero] at this
  simp only [run, step, addOrig, List.getElem?_cons_zero, List.set_cons_zero, this]
  rw [Nat.add_comm 1 n]
  rfl

/-- **C114**: anything but a Mapping or `None` raises AssertionError, and an entry of the environment's own that is not a list raises AttributeError. -/
theorem C114_errors (w : α → Option α) (ws : List (α → Option α)) (h : Heap α) (a : α) (l : List α) (hp : Passed (w :: ws) a l) :
    step .other (w :: ws) h a = .error .assertionError ∧ step (.new (some .other)) (w :: ws) h a = .error .attributeError := by
  induction ws generalizing w a l with
  | nil =>
    cases hp with
    | cons hw _ => simp [step, hw, addOrig]
  | cons w' ws ih =>
    cases hp with
    | cons hw hp' =>
      obtain ⟨h1, h2⟩ := ih w' _ _ hp'
      constructor
      · rw [step, hw]; simp only [h1]
      · rw [step, hw]; simp only [h2]

open Coax.BoxSpaces in
/-- **C114** with C40 for `BoxActionsToReals`: the entry of `info['a_orig']` is what the environment got, and lies strictly inside of the Box. -/
theorem C114_reals (b : Box) (hb : b.Valid) (a y : List ℝ) (hy : b.stepReals a = .ok y) (h : Heap (List ℝ)) :
    step (.new none) [fun a => (b.stepReals a).toOption] h a = .ok (y, h ++ [some (.list [y])], .dict h.length) ∧
      ∀ (i : Nat) (lo hi x : ℝ), b.low[i]? = some lo → b.high[i]? = some hi → a[i]? = some x → ∃ z, y[i]? = some z ∧ lo < z ∧ z < hi := by
  refine ⟨by simp [step, hy, Except.toOption, addOrig], fun i lo hi x h1 h2 h3 => ?_⟩
  obtain ⟨z, k1, _, k2, k3⟩ := (C40_reals_inside hb hy).2 i lo hi x h1 h2 h3
  exact ⟨z, k1, k2, k3⟩

example : Passed (α := Nat) [fun a => if a < 10 then some (a + 1) else none, fun a => some (2 * a)] 3 [4, 8] := .cons rfl (.cons rfl (.nil _))

end Coax.OrigInfo
