import Verif.Core.Keys
import Mathlib.Tactic.ByContra
import Mathlib.Data.List.Nodup

/-! Property C101: random keys are reproducible and not used twice. -/

namespace Coax.Core

/-- `k'` is derived from `k` by any number of splits. -/
inductive Key.From (k : Key) : Key → Prop
  | refl : Key.From k k
  | fst {k'} : Key.From k k' → Key.From k k'.fst
  | snd {k'} : Key.From k k' → Key.From k k'.snd

/-- The number of objects after a history. -/
def objects : List KeyEvent → Nat
  | [] => 0
  | .new _ :: es => objects es + 1
  | .copy _ :: es => objects es + 1
  | _ :: es => objects es

/-- The seed that object `i` got last (before it was copied, if it is a copy), and how many keys were taken since (from it, and from what it is a copy of).  The list has the latest event first. -/
def lineage : List KeyEvent → Nat → Option (Nat × Nat)
  | [], _ => none
  | .new s :: es, i => if i = objects es then some (s, 0) else lineage es i
  | .copy j :: es, i => if i = objects es then lineage es j else lineage es i
  | .use j :: es, i => if i = j then (lineage es i).map fun p => (p.1, p.2 + 1) else lineage es i
  | .seed j s :: es, i => if i = j then some (s, 0) else lineage es i

/-- The events refer to objects that exist.  The latest event comes first. -/
def WellFormed : List KeyEvent → Prop
  | [] => True
  | .new _ :: es => WellFormed es
  | .copy j :: es => j < objects es ∧ WellFormed es
  | .use j :: es => j < objects es ∧ WellFormed es
  | .seed j _ :: es => j < objects es ∧ WellFormed es

/-- Seed and count for each key handed out, in order. -/
def usesOf : List KeyEvent → List (Nat × Nat)
  | [] => []
  | .use j :: es => usesOf es ++ (lineage es j).toList
  | _ :: es => usesOf es

/-- The state of the key of a seed after `c` uses. -/
def Key.after (s : Nat) : Nat → Key
  | 0 => .root s
  | c + 1 => (Key.after s c).fst

theorem after_inj {s s' c c' : Nat} (h : Key.after s c = Key.after s' c') : s = s' ∧ c = c' := by
  induction c generalizing c' with
  | zero => cases c' <;> simp [Key.after] at h ⊢; exact h
  | succ c ih =>
    cases c' with
    | zero => simp [Key.after] at h
    | succ c' => simp only [Key.after, Key.fst.injEq] at h; have := ih h; exact ⟨this.1, by omega⟩

/-- The chain of splits of a key, from the root. -/
def Key.path : Key → Nat × List Bool
  | .root s => (s, [])
  | .fst k => (k.path.1, k.path.2 ++ [false])
  | .snd k => (k.path.1, k.path.2 ++ [true])

theorem path_after (s c : Nat) : (Key.after s c).path = (s, List.replicate c false) := by
  induction c with
  | zero => rfl
  | succ c ih => simp [Key.after, Key.path, ih, List.replicate_succ']

theorem From.path {k k' : Key} (h : k.From k') : k'.path.1 = k.path.1 ∧ k.path.2 <+: k'.path.2 := by
  induction h with
  | refl => exact ⟨rfl, List.prefix_refl _⟩
  | fst _ ih => exact ⟨ih.1, ih.2.trans (List.prefix_append _ _)⟩
  | snd _ ih => exact ⟨ih.1, ih.2.trans (List.prefix_append _ _)⟩

theorem prefix_getElem? {l l' : List Bool} (h : l <+: l') {i : Nat} {b : Bool} (hb : l[i]? = some b) : l'[i]? = some b := by
  obtain ⟨t, rfl⟩ := h
  rw [List.getElem?_append_left (List.getElem?_eq_some_iff.1 hb).1, hb]

/-- Keys with a common descendant are the same. -/
theorem disjoint_of_ne {s s' c c' : Nat} {k : Key} (h : (Key.after s c).snd.From k) (h' : (Key.after s' c').snd.From k) : s = s' ∧ c = c' := by
  have h1 := From.path h
  have h2 := From.path h'
  simp only [Key.path, path_after] at h1 h2
  refine ⟨h1.1.symm.trans h2.1, ?_⟩
  have key : ∀ c c' : Nat, c < c' → List.replicate c false ++ [true] <+: k.path.2 → List.replicate c' false ++ [true] <+: k.path.2 → False := by
    intro c c' hlt p q
    have a := prefix_getElem? p (i := c) (b := true) (by simp)
    have b := prefix_getElem? q (i := c) (b := false) (by rw [List.getElem?_append_left (by simpa using hlt)]; simp [hlt])
    rw [a] at b; cases b
  rcases Nat.lt_trichotomy c c' with hc | hc | hc
  · exact (key c c' hc h1.2 h2.2).elim
  · exact hc
  · exact (key c' c hc h2.2 h1.2).elim

/-- The state of the program after a history. -/
theorem keyRun_state (es : List KeyEvent) (hw : WellFormed es) : ∃ objs ks, keyRun es.reverse = some (objs, ks) ∧ objs.length = objects es ∧
    (∀ i r, objs[i]? = some r → ∃ s c, lineage es i = some (s, c) ∧ r = ⟨s, Key.after s c⟩) ∧ ks = (usesOf es).map fun p => (Key.after p.1 p.2).snd := by
  induction es with
  | nil => exact ⟨[], [], rfl, rfl, by simp, rfl⟩
  | cons e es ih =>
    have hrun : ∀ objs ks, keyRun es.reverse = some (objs, ks) → keyRun (e :: es).reverse = (keyStep objs e).map fun q => (q.1, ks ++ q.2.toList) := by
      intro objs ks h
      unfold keyRun at h ⊢
      rw [List.reverse_cons, List.foldl_append, h]
      rfl
    cases e with
    | new s =>
      obtain ⟨objs, ks, h1, h2, h3, h4⟩ := ih hw
      refine ⟨_, _, (hrun _ _ h1).trans rfl, by simp [objects, h2], ?_, by simp [usesOf, h4]⟩
      intro i r hr
      simp only [lineage]
      rw [List.getElem?_append] at hr
      split at hr
      · rw [if_neg (by omega)]; exact h3 i r hr
      · rename_i hi
        have : i = objs.length := by
          by_contra hne
          rw [List.getElem?_eq_none (by simp; omega)] at hr; cases hr
        subst this
        rw [if_pos h2]
        simp at hr
        exact ⟨s, 0, rfl, hr.symm⟩
    | copy j =>
      obtain ⟨hj, hw⟩ := hw
      obtain ⟨objs, ks, h1, h2, h3, h4⟩ := ih hw
      obtain ⟨rj, hrj⟩ : ∃ r, objs[j]? = some r := ⟨_, List.getElem?_eq_getElem (by omega)⟩
      refine ⟨objs ++ [rj], ks, (hrun _ _ h1).trans (by simp [keyStep, hrj]), by simp [objects, h2], ?_, by simp [usesOf, h4]⟩
      intro i r hr
      simp only [lineage]
      rw [List.getElem?_append] at hr
      split at hr
      · rw [if_neg (by omega)]; exact h3 i r hr
      · have : i = objs.length := by
          by_contra hne
          rw [List.getElem?_eq_none (by simp; omega)] at hr; cases hr
        subst this
        rw [if_pos h2]
        simp at hr
        subst hr
        exact h3 j rj hrj
    | use j =>
      obtain ⟨hj, hw⟩ := hw
      obtain ⟨objs, ks, h1, h2, h3, h4⟩ := ih hw
      obtain ⟨rj, hrj⟩ : ∃ r, objs[j]? = some r := ⟨_, List.getElem?_eq_getElem (by omega)⟩
      obtain ⟨s, c, hl, rfl⟩ := h3 j rj hrj
      refine ⟨_, _, (hrun _ _ h1).trans (by simp only [keyStep, hrj]; rfl), by simp [objects, h2], ?_, by simp [usesOf, h4, hl, Rng.rng, Key.split]⟩
      intro i r hr
      simp only [lineage]
      rw [List.getElem?_set] at hr
      split at hr
      · rename_i hji
        subst hji
        rw [if_pos (by omega)] at hr
        rw [if_pos rfl, hl]
        exact ⟨s, c + 1, rfl, (Option.some.inj hr).symm⟩
      · rename_i hji
        rw [if_neg (fun h => hji h.symm)]; exact h3 i r hr
    | seed j s =>
      obtain ⟨hj, hw⟩ := hw
      obtain ⟨objs, ks, h1, h2, h3, h4⟩ := ih hw
      obtain ⟨rj, hrj⟩ : ∃ r, objs[j]? = some r := ⟨_, List.getElem?_eq_getElem (by omega)⟩
      refine ⟨_, _, (hrun _ _ h1).trans (by simp only [keyStep, hrj]; rfl), by simp [objects, h2], ?_, by simp [usesOf, h4]⟩
      intro i r hr
      simp only [lineage]
      rw [List.getElem?_set] at hr
      split at hr
      · rename_i hji
        subst hji
        rw [if_pos (by omega)] at hr
        rw [if_pos rfl]
        exact ⟨s, 0, rfl, (Option.some.inj hr).symm⟩
      · rename_i hji
        rw [if_neg (fun h => hji h.symm)]; exact h3 i r hr

/-- **C101** (which key).  In a program whose events refer to objects that exist nothing raises, and two keys that are handed out (the `m`-th and the `n`-th) are related in one of two ways only:
if seed and number of keys taken since are the same for both, the keys are the same; otherwise no key can be derived from both, by any splits. -/
theorem C101_keys (es : List KeyEvent) (hw : WellFormed es) : ∃ objs ks, keyRun es.reverse = some (objs, ks) ∧ ks.length = (usesOf es).length ∧
    ∀ (m n : Nat) (k k' : Key) (p p' : Nat × Nat), ks[m]? = some k → ks[n]? = some k' → (usesOf es)[m]? = some p → (usesOf es)[n]? = some p' →
      (p = p' → k = k') ∧ (p ≠ p' → ∀ d, k.From d → ¬ k'.From d) := by
  obtain ⟨objs, ks, h1, -, -, rfl⟩ := keyRun_state es hw
  refine ⟨objs, _, h1, by simp, ?_⟩
  intro m n k k' p p' hk hk' hp hp'
  rw [List.getElem?_map, hp] at hk
  rw [List.getElem?_map, hp'] at hk'
  simp only [Option.map_some, Option.some.injEq] at hk hk'
  subst hk hk'
  refine ⟨fun h => by rw [h], fun hne d hd hd' => hne ?_⟩
  have := disjoint_of_ne hd hd'
  exact Prod.ext this.1 this.2

/-- The seeds given in a history, to new objects or anew. -/
def seedsOf : List KeyEvent → List Nat
  | [] => []
  | .new s :: es => s :: seedsOf es
  | .seed _ s :: es => s :: seedsOf es
  | _ :: es => seedsOf es

/-- No copies are made. -/
def NoCopy (es : List KeyEvent) : Prop := ∀ i, KeyEvent.copy i ∉ es

theorem lineage_lt {es : List KeyEvent} (hw : WellFormed es) {i : Nat} {p : Nat × Nat} (h : lineage es i = some p) : i < objects es := by
  induction es generalizing i p with
  | nil => cases h
  | cons e es ih =>
    cases e with
    | new s =>
      simp only [lineage] at h; simp only [objects]
      split at h
      · omega
      · have := ih hw h; omega
    | copy j =>
      simp only [lineage] at h; simp only [objects]
      split at h
      · omega
      · have := ih hw.2 h; omega
    | use j =>
      simp only [lineage] at h; simp only [objects]
      split at h
      · rename_i hij; subst hij; exact hw.1
      · exact ih hw.2 h
    | seed j s =>
      simp only [lineage] at h; simp only [objects]
      split at h
      · rename_i hij; subst hij; exact hw.1
      · exact ih hw.2 h

theorem lineage_seed {es : List KeyEvent} {i : Nat} {p : Nat × Nat} (h : lineage es i = some p) : p.1 ∈ seedsOf es := by
  induction es generalizing i p with
  | nil => cases h
  | cons e es ih =>
    cases e with
    | new s =>
      simp only [lineage] at h
      split at h
      · cases h; simp [seedsOf]
      · exact List.mem_cons_of_mem _ (ih h)
    | copy j =>
      simp only [lineage] at h
      split at h <;> exact ih h
    | use j =>
      simp only [lineage] at h
      split at h
      · cases hl : lineage es i with
        | none => simp [hl] at h
        | some q => simp only [hl, Option.map_some, Option.some.injEq] at h; subst h; exact ih (p := q) hl
      · exact ih h
    | seed j s =>
      simp only [lineage] at h
      split at h
      · cases h; simp [seedsOf]
      · exact List.mem_cons_of_mem _ (ih h)

/-- Without copies and with different seeds: different objects have different seeds, and the keys handed out for a seed come before the present count. -/
theorem lineage_fresh {es : List KeyEvent} (hw : WellFormed es) (hc : NoCopy es) (hs : (seedsOf es).Nodup) :
    (∀ i j p q, lineage es i = some p → lineage es j = some q → p.1 = q.1 → i = j) ∧
    (∀ i p q, lineage es i = some p → q ∈ usesOf es → q.1 = p.1 → q.2 < p.2) ∧ (∀ q ∈ usesOf es, q.1 ∈ seedsOf es) ∧ (usesOf es).Nodup := by
  induction es with
  | nil => simp [lineage, usesOf]
  | cons e es ih =>
    have hc' : NoCopy es := fun i h => hc i (List.mem_cons_of_mem _ h)
    cases e with
    | copy j => exact (hc j (by simp)).elim
    | new s =>
      obtain ⟨hs0, hs'⟩ := List.nodup_cons.1 hs
      obtain ⟨a, b, c, d⟩ := ih hw hc' hs'
      refine ⟨?_, ?_, fun q hq => List.mem_cons_of_mem _ (c q hq), d⟩
      · intro i j p q hi hj hpq
        simp only [lineage] at hi hj
        split at hi <;> split at hj
        · omega
        · cases hi; exact (hs0 ((show s = q.1 from hpq) ▸ lineage_seed hj)).elim
        · cases hj; exact (hs0 ((show p.1 = s from hpq) ▸ lineage_seed hi)).elim
        · exact a i j p q hi hj hpq
      · intro i p q hi hq hqp
        simp only [lineage] at hi
        split at hi
        · cases hi; exact (hs0 ((show q.1 = s from hqp) ▸ c q hq)).elim
        · exact b i p q hi hq hqp
    | seed k s =>
      obtain ⟨hs0, hs'⟩ := List.nodup_cons.1 hs
      obtain ⟨a, b, c, d⟩ := ih hw.2 hc' hs'
      refine ⟨?_, ?_, fun q hq => List.mem_cons_of_mem _ (c q hq), d⟩
      · intro i j p q hi hj hpq
        simp only [lineage] at hi hj
        split at hi <;> split at hj
        · omega
        · cases hi; exact (hs0 ((show s = q.1 from hpq) ▸ lineage_seed hj)).elim
        · cases hj; exact (hs0 ((show p.1 = s from hpq) ▸ lineage_seed hi)).elim
        · exact a i j p q hi hj hpq
      · intro i p q hi hq hqp
        simp only [lineage] at hi
        split at hi
        · cases hi; exact (hs0 ((show q.1 = s from hqp) ▸ c q hq)).elim
        · exact b i p q hi hq hqp
    | use k =>
      obtain ⟨a, b, c, d⟩ := ih hw.2 hc' hs
      have hlin : ∀ i p, lineage (.use k :: es) i = some p → ∃ p0, lineage es i = some p0 ∧ p0.1 = p.1 ∧ p0.2 ≤ p.2 ∧ (i = k → p.2 = p0.2 + 1) := by
        intro i p h
        simp only [lineage] at h
        split at h
        · cases hl : lineage es i with
          | none => simp [hl] at h
          | some q => simp only [hl, Option.map_some, Option.some.injEq] at h; subst h; exact ⟨q, rfl, rfl, by simp, fun _ => rfl⟩
        · rename_i hne; exact ⟨p, h, rfl, Nat.le_refl _, fun e => (hne e).elim⟩
      refine ⟨?_, ?_, ?_, ?_⟩
      · intro i j p q hi hj hpq
        obtain ⟨p0, hp0, e1, -, -⟩ := hlin i p hi
        obtain ⟨q0, hq0, e2, -, -⟩ := hlin j q hj
        exact a i j p0 q0 hp0 hq0 (by rw [e1, e2, hpq])
      · intro i p q hi hq hqp
        obtain ⟨p0, hp0, e1, e2, e3⟩ := hlin i p hi
        simp only [usesOf, List.mem_append, Option.mem_toList] at hq
        rcases hq with hq | hq
        · exact Nat.lt_of_lt_of_le (b i p0 q hp0 hq (by rw [hqp, e1])) e2
        · have hik : i = k := a i k p0 q hp0 hq (by rw [e1, hqp])
          subst hik
          have hq' : lineage es i = some q := hq
          rw [hp0] at hq'
          cases hq'
          rw [e3 rfl]; exact Nat.lt_succ_self _
      · intro q hq
        simp only [usesOf, List.mem_append, Option.mem_toList] at hq
        rcases hq with hq | hq
        · exact c q hq
        · exact lineage_seed (es := es) hq
      · simp only [usesOf]
        cases hl : lineage es k with
        | none => simpa using d
        | some q =>
          rw [List.nodup_append]
          refine ⟨d, by simp, ?_⟩
          intro x hx y hy hxy
          have hy' : y = q := by simpa using hy
          subst hxy hy'
          exact absurd (b k x x hl hx rfl) (Nat.lt_irrefl _)

/-- **C101** (independence).  In a program that makes no copies and gives every seed once only, any two keys that are handed out at different times have no common descendant: no draw is ever repeated. -/
theorem C101_fresh_partial (es : List KeyEvent) (hw : WellFormed es) (hc : NoCopy es) (hs : (seedsOf es).Nodup) :
    ∃ objs ks, keyRun es.reverse = some (objs, ks) ∧
      ∀ (m n : Nat) (k k' : Key), m ≠ n → ks[m]? = some k → ks[n]? = some k' → ∀ d, k.From d → ¬ k'.From d := by
  obtain ⟨objs, ks, h1, hlen, h⟩ := C101_keys es hw
  refine ⟨objs, ks, h1, ?_⟩
  intro m n k k' hmn hk hk'
  have hm : m < (usesOf es).length := hlen ▸ (List.getElem?_eq_some_iff.1 hk).1
  have hn : n < (usesOf es).length := hlen ▸ (List.getElem?_eq_some_iff.1 hk').1
  refine (h m n k k' _ _ hk hk' (List.getElem?_eq_getElem hm) (List.getElem?_eq_getElem hn)).2 ?_
  intro he
  exact hmn ((List.Nodup.getElem_inj_iff (lineage_fresh hw hc hs).2.2.2).1 he)

/-- **C101** (copies repeat).  After any history, a copy of an object hands out the same key as the object itself hands out next, so a program with a copy does repeat draws. -/
theorem C101_copy_counterexample (es : List KeyEvent) (hw : WellFormed es) (i : Nat) (hi : i < objects es) :
    ∃ objs ks k, keyRun (es.reverse ++ [.copy i, .use i, .use (objects es)]) = some (objs, ks ++ [k, k]) := by
  obtain ⟨objs, ks, h1, h2, -, -⟩ := keyRun_state es hw
  obtain ⟨r, hr⟩ : ∃ r, objs[i]? = some r := ⟨_, List.getElem?_eq_getElem (by omega)⟩
  have hr' : ((objs ++ [r]).set i r.rng.1)[objects es]? = some r := by
    rw [List.getElem?_set_ne (by omega), ← h2]; simp
  have hr2 : (objs ++ [r])[i]? = some r := by rw [List.getElem?_append_left (by omega), hr]
  refine ⟨((objs ++ [r]).set i r.rng.1).set (objects es) r.rng.1, ks, r.rng.2, ?_⟩
  unfold keyRun at h1 ⊢
  rw [List.foldl_append, h1]
  simp only [List.foldl_cons, List.foldl_nil, Option.bind_some, keyStep, hr, Option.map_some, hr2, hr']
  simp

/-- Two objects with different seeds, a key from each in turn, one new seed: the hypotheses of `C101_fresh_partial` hold and five keys are handed out. -/
example : WellFormed [.use 1, .use 0, .seed 0 9, .use 0, .use 1, .use 0, .new 2, .new 1] ∧ NoCopy [.use 1, .use 0, .seed 0 9, .use 0, .use 1, .use 0, .new 2, .new 1] ∧
    (seedsOf [.use 1, .use 0, .seed 0 9, .use 0, .use 1, .use 0, .new 2, .new 1]).Nodup ∧
    usesOf [.use 1, .use 0, .seed 0 9, .use 0, .use 1, .use 0, .new 2, .new 1] = [(1, 0), (2, 0), (1, 1), (9, 0), (2, 1)] := by
  refine ⟨by simp [WellFormed, objects], by simp [NoCopy], by decide, by decide⟩

/-- A behavior policy that is copied from a policy after one use (`pi_behavior = pi.copy()`): the second and third key are the same. -/
example : keyRun [.new 7, .use 0, .copy 0, .use 0, .use 1] =
    some ([⟨7, (Key.root 7).fst.fst⟩, ⟨7, (Key.root 7).fst.fst⟩], [(Key.root 7).snd, (Key.root 7).fst.snd, (Key.root 7).fst.snd]) := by decide

end Coax.Core
