import Verif.Utils.Reload
import Mathlib.Logic.Relation
import Mathlib.Data.List.Nodup
import Mathlib.Tactic.ByContra

/-!
# C109: reloading modules

`reload_recursive` is documented to reload a module recursively "in order of dependence".
-/

namespace Coax.Reload

/-! ### Specification -/

/-- The module `m` refers to the module `a`, and `a` is to be reloaded with it: its name begins like that of `m`, or external modules are reloaded too. -/
def Edge (attrs : Name → List Name) (all : Bool) (m a : Name) : Prop := a ∈ attrs m ∧ (all = true ∨ m <+: a)

/-- `a` is to be reloaded with `m`, directly or indirectly. -/
def Reach (attrs : Name → List Name) (all : Bool) : Name → Name → Prop := Relation.ReflTransGen (Edge attrs all)

/-- Every module of the list comes after the modules that it refers to, and no module occurs twice. -/
def InOrder (attrs : Name → List Name) (all : Bool) (r : List Name) : Prop :=
  r.Nodup ∧ ∀ l₁ x l₂, r = l₁ ++ x :: l₂ → ∀ a, Edge attrs all x a → a ∈ l₁

/-! ### Lemmas -/

theorem follow_iff (attrs : Name → List Name) (all : Bool) (m : Name) (r : List Name) (a : Name) (ha : a ∈ attrs m) :
    follow all m r a = true ↔ a ∉ r ∧ Edge attrs all m a := by
  simp [follow, Edge, ha]

theorem inOrder_append {attrs : Name → List Name} {all : Bool} {r : List Name} {m : Name} (h : InOrder attrs all r) (hm : m ∉ r)
    (he : ∀ a, Edge attrs all m a → a ∈ r) : InOrder attrs all (r ++ [m]) := by
  refine ⟨?_, ?_⟩
  · rw [List.nodup_append]
    exact ⟨h.1, by simp, fun a ha b hb hab => hm (by rw [← List.mem_singleton.1 hb, ← hab]; exact ha)⟩
  · intro l₁ x l₂ heq a hxa
    rcases List.eq_nil_or_concat l₂ with rfl | ⟨l₂', y, rfl⟩
    · have := List.append_inj' heq rfl
      obtain ⟨h₁, h₂⟩ := this
      simp only [List.cons.injEq, and_true] at h₂
      subst h₂ h₁
      exact he a hxa
    · have heq' : r ++ [m] = (l₁ ++ x :: l₂') ++ [y] := by simpa using heq
      have := List.append_inj' heq' rfl
      exact h.2 l₁ x l₂' this.1 a hxa

/-- The loop over the attributes. -/
def loop (attrs : Name → List Name) (all : Bool) (depth : Nat) (m : Name) (l : List Name) (acc : Except Err (List Name)) : Except Err (List Name) :=
  l.foldl (fun acc a => match acc with
    | .error e => .error e
    | .ok r => if follow all m r a then reloadModule attrs all depth a r else .ok r) acc

theorem reloadModule_succ (attrs : Name → List Name) (all : Bool) (depth : Nat) (m : Name) (r : List Name) :
    reloadModule attrs all (depth + 1) m r = match loop attrs all depth m (attrs m) (.ok r) with
      | .error e => .error e
      | .ok r => .ok (r ++ [m]) := by
  rw [reloadModule]
  rfl

theorem loop_cons (attrs : Name → List Name) (all : Bool) (depth : Nat) (m a : Name) (l : List Name) (r : List Name) :
    loop attrs all depth m (a :: l) (.ok r) = loop attrs all depth m l (if follow all m r a then reloadModule attrs all depth a r else .ok r) := rfl

theorem loop_error (attrs : Name → List Name) (all : Bool) (depth : Nat) (m : Name) (l : List Name) (e : Err) :
    loop attrs all depth m l (.error e) = .error e := by
  induction l with
  | nil => rfl
  | cons a l ih => exact ih

/-- What one call achieves: it adds modules reachable from `m`, ends with `m`, and keeps the order. -/
def Achieved (attrs : Name → List Name) (all : Bool) (m : Name) (r r' : List Name) : Prop :=
  InOrder attrs all r' ∧ r <+: r' ∧ r'.getLast? = some m ∧ ∀ x ∈ r', x ∈ r ∨ Reach attrs all m x

theorem reload_ok (attrs : Name → List Name) (all : Bool) (rank : Name → Nat) :
    ∀ depth m r, (∀ x, Reach attrs all m x → ∀ a, Edge attrs all x a → rank a < rank x) → rank m < depth → InOrder attrs all r → m ∉ r →
      ∃ r', reloadModule attrs all depth m r = .ok r' ∧ Achieved attrs all m r r' := by
  intro depth
  induction depth with
  | zero => intro m r _ h; exact absurd h (by simp)
  | succ depth ih =>
    intro m r hrank hm hr hmr
    have hloop : ∀ l : List Name, (∀ a ∈ l, a ∈ attrs m) → ∀ r₁, InOrder attrs all r₁ →
        ∃ r₂, loop attrs all depth m l (.ok r₁) = .ok r₂ ∧ InOrder attrs all r₂ ∧ r₁ <+: r₂ ∧
          (∀ a ∈ l, Edge attrs all m a → a ∈ r₂) ∧ ∀ x ∈ r₂, x ∈ r₁ ∨ ∃ a, Edge attrs all m a ∧ Reach attrs all a x := by
      intro l
      induction l with
      | nil => intro _ r₁ h₁; exact ⟨r₁, rfl, h₁, List.prefix_refl _, by simp, fun x hx => Or.inl hx⟩
      | cons a l ihl =>
        intro hl r₁ h₁
        have ha : a ∈ attrs m := hl a (by simp)
        rw [loop_cons]
        by_cases hf : follow all m r₁ a = true
        · obtain ⟨har, hedge⟩ := (follow_iff attrs all m r₁ a ha).1 hf
          have hlt := hrank m .refl a hedge
          obtain ⟨r₂, hok, hach⟩ := ih a r₁ (fun x hx b hb => hrank x (Relation.ReflTransGen.head hedge hx) b hb) (by omega) h₁ har
          obtain ⟨r₃, hok₃, ho₃, hp₃, hc₃, hx₃⟩ := ihl (fun b hb => hl b (by simp [hb])) r₂ hach.1
          refine ⟨r₃, by rw [hf, if_pos rfl, hok]; exact hok₃, ho₃, hach.2.1.trans hp₃, ?_, ?_⟩
          · intro b hb hbe
            rcases List.mem_cons.1 hb with rfl | hb
            · exact hp₃.subset (List.mem_of_getLast? hach.2.2.1)
            · exact hc₃ b hb hbe
          · intro x hx
            rcases hx₃ x hx with hx | hx
            · rcases hach.2.2.2 x hx with hx | hx
              · exact Or.inl hx
              · exact Or.inr ⟨a, hedge, hx⟩
            · exact Or.inr hx
        · obtain ⟨r₃, hok₃, ho₃, hp₃, hc₃, hx₃⟩ := ihl (fun b hb => hl b (by simp [hb])) r₁ h₁
          refine ⟨r₃, by rw [if_neg hf]; exact hok₃, ho₃, hp₃, ?_, hx₃⟩
          intro b hb hbe
          rcases List.mem_cons.1 hb with rfl | hb
          · by_contra hcon
            exact hf ((follow_iff attrs all m r₁ b ha).2 ⟨fun h => hcon (hp₃.subset h), hbe⟩)
          · exact hc₃ b hb hbe
    obtain ⟨r₂, hok, ho, hp, hc, hx⟩ := hloop (attrs m) (fun a ha => ha) r hr
    have hm₂ : m ∉ r₂ := by
      intro hmem
      rcases hx m hmem with h | ⟨a, hedge, hreach⟩
      · exact hmr h
      · have hlt := hrank m .refl a hedge
        have : ∀ x, Reach attrs all a x → rank x ≤ rank a := by
          intro x hx
          induction hx with
          | refl => exact Nat.le_refl _
          | @tail y z hy hyz ihy => exact Nat.le_trans (Nat.le_of_lt (hrank y (Relation.ReflTransGen.head hedge hy) z hyz)) ihy
        have := this m hreach
        omega
    refine ⟨r₂ ++ [m], by rw [reloadModule_succ, hok], inOrder_append ho hm₂ (fun a ha => hc a ha.1 ha), hp.trans (List.prefix_append _ _), by simp, ?_⟩
    intro x hxm
    rcases List.mem_append.1 hxm with hxm | hxm
    · rcases hx x hxm with h | ⟨a, hedge, hreach⟩
      · exact Or.inl h
      · exact Or.inr (Relation.ReflTransGen.head hedge hreach)
    · rw [List.mem_singleton.1 hxm]
      exact Or.inr .refl

/-- From the empty list: everything reachable is reloaded. -/
theorem reach_mem {attrs : Name → List Name} {all : Bool} {m : Name} {r : List Name} (h : Achieved attrs all m [] r) {x : Name}
    (hx : Reach attrs all m x) : x ∈ r := by
  induction hx with
  | refl => exact List.mem_of_getLast? h.2.2.1
  | @tail y z _ hyz ih =>
    obtain ⟨l₁, l₂, hl⟩ := List.append_of_mem ih
    rw [hl]
    exact List.mem_append_left _ (h.1.2 l₁ y l₂ hl z hyz)

theorem reload_cyclic (attrs : Name → List Name) (all : Bool) (C : Name → Prop) (hC : ∀ x, C x → ∃ a, C a ∧ Edge attrs all x a) :
    ∀ depth m r r', (∀ x ∈ r, ¬ C x) → reloadModule attrs all depth m r = .ok r' → ¬ C m ∧ ∀ x ∈ r', ¬ C x := by
  intro depth
  induction depth with
  | zero => intro m r r' _ h; exact absurd h (by simp [reloadModule])
  | succ depth ih =>
    intro m r r' hr hok
    have hloop : ∀ l : List Name, (∀ a ∈ l, a ∈ attrs m) → ∀ r₁ r₂, (∀ x ∈ r₁, ¬ C x) → loop attrs all depth m l (.ok r₁) = .ok r₂ →
        (∀ a ∈ l, Edge attrs all m a → ¬ C a) ∧ ∀ x ∈ r₂, ¬ C x := by
      intro l
      induction l with
      | nil =>
        intro _ r₁ r₂ h₁ heq
        have : r₁ = r₂ := by simpa [loop] using heq
        subst this
        exact ⟨by simp, h₁⟩
      | cons a l ihl =>
        intro hl r₁ r₂ h₁ heq
        have ha : a ∈ attrs m := hl a (by simp)
        rw [loop_cons] at heq
        by_cases hf : follow all m r₁ a = true
        · rw [if_pos hf] at heq
          cases hrec : reloadModule attrs all depth a r₁ with
          | error e => rw [hrec, loop_error] at heq; exact absurd heq (by simp)
          | ok r₃ =>
            rw [hrec] at heq
            have h₃ := ih a r₁ r₃ h₁ hrec
            have := ihl (fun b hb => hl b (by simp [hb])) r₃ r₂ h₃.2 heq
            refine ⟨?_, this.2⟩
            intro b hb hbe
            rcases List.mem_cons.1 hb with rfl | hb
            · exact h₃.1
            · exact this.1 b hb hbe
        · rw [if_neg hf] at heq
          have := ihl (fun b hb => hl b (by simp [hb])) r₁ r₂ h₁ heq
          refine ⟨?_, this.2⟩
          intro b hb hbe
          rcases List.mem_cons.1 hb with rfl | hb
          · intro hCb
            refine hf ((follow_iff attrs all m r₁ b ha).2 ⟨fun h => h₁ b h hCb, hbe⟩)
          · exact this.1 b hb hbe
    rw [reloadModule_succ] at hok
    cases hl : loop attrs all depth m (attrs m) (.ok r) with
    | error e => rw [hl] at hok; exact absurd hok (by simp)
    | ok r₂ =>
      rw [hl] at hok
      simp only [Except.ok.injEq] at hok
      have h := hloop (attrs m) (fun a ha => ha) r r₂ hr hl
      have hm : ¬ C m := by
        intro hCm
        obtain ⟨a, hCa, hedge⟩ := hC m hCm
        exact h.1 a hedge.1 hedge hCa
      refine ⟨hm, ?_⟩
      rw [← hok]
      intro x hx
      rcases List.mem_append.1 hx with hx | hx
      · exact h.2 x hx
      · rw [List.mem_singleton.1 hx]; exact hm

theorem reload_error (attrs : Name → List Name) (all : Bool) : ∀ depth m r e, reloadModule attrs all depth m r = .error e → e = .runtimeError := by
  intro depth
  induction depth with
  | zero => intro m r e h; simpa [reloadModule, eq_comm] using h
  | succ depth ih =>
    intro m r e h
    rw [reloadModule_succ] at h
    cases hl : loop attrs all depth m (attrs m) (.ok r) with
    | ok r₂ => rw [hl] at h; exact absurd h (by simp)
    | error e' =>
      rw [hl] at h
      simp only [Except.error.injEq] at h
      subst h
      have : ∀ l : List Name, ∀ r₁, loop attrs all depth m l (.ok r₁) = .error e' → e' = .runtimeError := by
        intro l
        induction l with
        | nil => intro r₁ h; exact absurd h (by simp [loop])
        | cons a l ihl =>
          intro r₁ h
          rw [loop_cons] at h
          split at h
          · cases hrec : reloadModule attrs all depth a r₁ with
            | error e'' =>
              rw [hrec, loop_error] at h
              simp only [Except.error.injEq] at h
              subst h
              exact ih a r₁ _ hrec
            | ok r₃ => rw [hrec] at h; exact ihl r₃ h
          · exact ihl r₁ h
      exact this _ r hl

/-! ### C109 -/

/-- C109: reloading a module together with its submodules.  If no module among those to be reloaded is an attribute of itself, and the recursion limit exceeds
the lengths of their names, then the modules to be reloaded are reloaded, each exactly once, after those that it refers to, and the given module last. -/
theorem C109_submodules (attrs : Name → List Name) (m : Name) (L limit : Nat) (hself : ∀ x, Reach attrs false m x → x ∉ attrs x)
    (hL : ∀ x, Reach attrs false m x → x.length ≤ L) (hlimit : L < limit) :
    ∃ r, reloadRecursive attrs limit (.module m) false = .ok r ∧ InOrder attrs false r ∧ r.getLast? = some m ∧
      ∀ x, x ∈ r ↔ Reach attrs false m x := by
  obtain ⟨r, hok, hach⟩ := reload_ok attrs false (fun x => L - x.length) limit m [] (by
    intro x hx a hxa
    have hpre : x <+: a := by
      rcases hxa.2 with h | h
      · exact absurd h (by simp)
      · exact h
    have hne : x ≠ a := fun h => hself x hx (h ▸ hxa.1)
    have hlen : x.length < a.length := by
      rcases Nat.lt_or_ge x.length a.length with h | h
      · exact h
      · exact absurd (hpre.eq_of_length (Nat.le_antisymm hpre.length_le h)) hne
    have := hL a (Relation.ReflTransGen.tail hx hxa)
    show L - a.length < L - x.length
    omega) (by show L - m.length < limit; omega) ⟨List.nodup_nil, by simp⟩ (by simp)
  refine ⟨r, hok, hach.1, hach.2.2.1, fun x => ⟨fun hx => ?_, reach_mem hach⟩⟩
  rcases hach.2.2.2 x hx with h | h
  · exact absurd h (by simp)
  · exact h

/-- C109: the same with external modules, provided that the modules do not refer to each other in a cycle (`rank` decreases along references). -/
theorem C109_external (attrs : Name → List Name) (m : Name) (rank : Name → Nat) (limit : Nat)
    (hrank : ∀ x, Reach attrs true m x → ∀ a ∈ attrs x, rank a < rank x) (hlimit : rank m < limit) :
    ∃ r, reloadRecursive attrs limit (.module m) true = .ok r ∧ InOrder attrs true r ∧ r.getLast? = some m ∧
      ∀ x, x ∈ r ↔ Reach attrs true m x := by
  obtain ⟨r, hok, hach⟩ := reload_ok attrs true rank limit m [] (fun x hx a ha => hrank x hx a ha.1) hlimit ⟨List.nodup_nil, by simp⟩ (by simp)
  refine ⟨r, hok, hach.1, hach.2.2.1, fun x => ⟨fun hx => ?_, reach_mem hach⟩⟩
  rcases hach.2.2.2 x hx with h | h
  · exact absurd h (by simp)
  · exact h

/-- C109: if modules to be reloaded refer to each other in a cycle, or one of them to itself, the call ends with `RecursionError`, whatever the recursion limit. -/
theorem C109_cycle (attrs : Name → List Name) (all : Bool) (m x : Name) (limit : Nat) (hx : Reach attrs all m x)
    (hcycle : Relation.TransGen (Edge attrs all) x x) : reloadRecursive attrs limit (.module m) all = .error .runtimeError := by
  have hC : ∀ y, Reach attrs all y x → ∃ a, Reach attrs all a x ∧ Edge attrs all y a := by
    intro y hy
    rcases Relation.ReflTransGen.cases_head hy with rfl | ⟨a, hya, hax⟩
    · obtain ⟨a, h₁, h₂⟩ := Relation.TransGen.head'_iff.1 hcycle
      exact ⟨a, h₂, h₁⟩
    · exact ⟨a, hax, hya⟩
  show reloadModule attrs all limit m [] = _
  cases h : reloadModule attrs all limit m [] with
  | ok r => exact absurd hx (reload_cyclic attrs all (fun y => Reach attrs all y x) hC limit m [] r (by simp) h).1
  | error e => rw [reload_error attrs all limit m [] e h]

/-- C109: the argument: a name stands for the module that it names, anything else is a `TypeError`. -/
theorem C109_argument (attrs : Name → List Name) (limit : Nat) (m : Name) (all : Bool) :
    reloadRecursive attrs limit (.name m true) all = reloadRecursive attrs limit (.module m) all ∧
    reloadRecursive attrs limit .other all = .error .typeError := ⟨rfl, rfl⟩

/-- A package `p` with the submodules `p.a` and `p.b`, where `p.b` imports `p.a` and both import the external module `x`. -/
def examplePackage : Name → List Name := fun m =>
  if m = "p".toList then ["p.b".toList, "p.a".toList, "x".toList] else if m = "p.b".toList then ["p.a".toList, "x".toList]
  else if m = "p.a".toList then ["x".toList] else []

/-- Only what is named like a submodule of the module at hand is followed: `p.b` does not make `p.a` reloaded before it. -/
example : reloadRecursive examplePackage 10 (.module "p".toList) false = .ok ["p.b".toList, "p.a".toList, "p".toList] := by decide

/-- With external modules, the dependences are respected. -/
example : reloadRecursive examplePackage 10 (.module "p".toList) true = .ok ["x".toList, "p.a".toList, "p.b".toList, "p".toList] := by decide

/-- C109 fails as "order of dependence": without external modules, `p.b` is reloaded before `p.a`, although it refers to it, because the name of `p.a` does not begin
like that of `p.b`. -/
theorem C109_order_counterexample :
    ∃ r l₁ l₂, reloadRecursive examplePackage 10 (.module "p".toList) false = .ok r ∧ r = l₁ ++ "p.b".toList :: l₂ ∧
      "p.a".toList ∈ examplePackage "p.b".toList ∧ "p.a".toList ∈ l₂ :=
  ⟨["p.b".toList, "p.a".toList, "p".toList], [], ["p.a".toList, "p".toList], by decide, rfl, by decide, by decide⟩

/-- C109 fails as "only submodules": `pq`, which is not a submodule of `p`, is reloaded with `p`, because its name begins like that of `p`. -/
theorem C109_prefix_counterexample :
    reloadRecursive (fun m => if m = "p".toList then ["pq".toList] else []) 10 (.module "p".toList) false = .ok ["pq".toList, "p".toList] := by decide

end Coax.Reload
