import Verif.Utils.Dicts
import Mathlib.Algebra.Order.BigOperators.Group.List
import Mathlib.Algebra.BigOperators.Ring.List
import Mathlib.Algebra.Module.BigOperators
import Mathlib.Data.List.Dedup
import Mathlib.Data.Rat.Defs
import Mathlib.Tactic.FieldSimp

/-! Properties C32 (`sync_shared_params`) and C33 (`merge_dicts`). -/

namespace Coax.Dicts

set_option linter.unusedSectionVars false

variable {κ V : Type _} [DecidableEq κ]

/-! ### Dict helpers -/

theorem lookup_cons' (kv : κ × V) (d : List (κ × V)) (k : κ) : (kv :: d).lookup k = if kv.1 = k then some kv.2 else d.lookup k := by
  obtain ⟨a, v⟩ := kv
  rw [List.lookup_cons]
  by_cases h : a = k
  · subst h; simp
  · rw [if_neg h]
    have : (k == a) = false := by simpa using fun hc : k = a => h hc.symm
    rw [this]

theorem lookup_eq_none {d : List (κ × V)} {k : κ} : d.lookup k = none ↔ k ∉ d.map Prod.fst := by
  induction d with
  | nil => simp
  | cons kv d ih =>
    rw [lookup_cons']
    by_cases h : kv.1 = k
    · simp [h]
    · rw [if_neg h, ih]; simp [Ne.symm h]

theorem contains_iff {d : List (κ × V)} {k : κ} : contains d k = true ↔ k ∈ d.map Prod.fst := by
  simp only [contains, List.any_eq_true, decide_eq_true_eq, List.mem_map]

theorem contains_eq_isSome (d : List (κ × V)) (k : κ) : contains d k = (d.lookup k).isSome := by
  rw [Bool.eq_iff_iff, contains_iff, Option.isSome_iff_ne_none, Ne, lookup_eq_none, not_not]

theorem lookup_setItem (d : List (κ × V)) (k : κ) (v : V) (k' : κ) :
    (setItem d k v).lookup k' = if k' = k then some v else d.lookup k' := by
  induction d with
  | nil =>
    simp only [setItem, lookup_cons', List.lookup_nil]
    by_cases h : k' = k
    · subst h; simp
    · rw [if_neg h, if_neg (Ne.symm h)]
  | cons kv d ih =>
    obtain ⟨a, b⟩ := kv
    simp only [setItem]
    by_cases h : a = k
    · subst h
      rw [if_pos rfl, lookup_cons', lookup_cons']
      by_cases h' : k' = a
      · subst h'; simp
      · rw [if_neg h', if_neg (Ne.symm h'), if_neg (Ne.symm h')]
    · rw [if_neg h, lookup_cons', lookup_cons', ih]
      by_cases h' : a = k'
      · subst h'; simp [h]
      · simp [h']

theorem keys_setItem (d : List (κ × V)) (k : κ) (v : V) :
    (setItem d k v).map Prod.fst = if k ∈ d.map Prod.fst then d.map Prod.fst else d.map Prod.fst ++ [k] := by
  induction d with
  | nil => simp [setItem]
  | cons kv d ih =>
    obtain ⟨a, b⟩ := kv
    simp only [setItem]
    by_cases h : a = k
    · subst h; simp
    · rw [if_neg h, List.map_cons, ih]
      simp only [List.map_cons, List.mem_cons, Ne.symm h, false_or]
      split <;> simp

theorem nodup_setItem {d : List (κ × V)} (h : (d.map Prod.fst).Nodup) (k : κ) (v : V) : ((setItem d k v).map Prod.fst).Nodup := by
  rw [keys_setItem]
  split
  · exact h
  · rename_i hk
    rw [List.nodup_append]
    refine ⟨h, by simp, ?_⟩
    intro a ha b hb
    simp only [List.mem_singleton] at hb
    subst hb
    rintro rfl
    exact hk ha

/-- Two dicts with the same keys in the same order and the same values are equal. -/
theorem dict_ext {d e : List (κ × V)} (hk : d.map Prod.fst = e.map Prod.fst) (hn : (d.map Prod.fst).Nodup)
    (hl : ∀ k, d.lookup k = e.lookup k) : d = e := by
  induction d generalizing e with
  | nil => cases e <;> simp_all
  | cons kv d ih =>
    cases e with
    | nil => simp at hk
    | cons kv' e =>
      simp only [List.map_cons, List.cons.injEq] at hk
      obtain ⟨h1, h2⟩ := hk
      simp only [List.map_cons, List.nodup_cons] at hn
      have e1 := hl kv.1
      rw [lookup_cons', lookup_cons', if_pos rfl, if_pos h1.symm, Option.some.injEq] at e1
      have : kv = kv' := Prod.ext h1 e1
      subst this
      congr 1
      refine ih h2 hn.2 ?_
      intro k
      by_cases hk : kv.1 = k
      · subst hk
        rw [lookup_eq_none.2 hn.1, lookup_eq_none.2 (h2 ▸ hn.1)]
      · have := hl k
        rwa [lookup_cons', lookup_cons', if_neg hk, if_neg hk] at this

/-! ### merge_dicts -/

theorem lookup_update (m d : List (κ × V)) (hd : (d.map Prod.fst).Nodup) (k : κ) :
    (update m d).lookup k = (d.lookup k).or (m.lookup k) := by
  unfold update
  induction d generalizing m with
  | nil => simp
  | cons kv d ih =>
    simp only [List.map_cons, List.nodup_cons] at hd
    rw [List.foldl_cons, ih _ hd.2, lookup_setItem, lookup_cons']
    by_cases h : kv.1 = k
    · subst h
      rw [if_pos rfl, if_pos rfl, lookup_eq_none.2 hd.1]
      simp
    · rw [if_neg h, if_neg (Ne.symm h)]

theorem nodup_update {m : List (κ × V)} (hm : (m.map Prod.fst).Nodup) (d : List (κ × V)) : ((update m d).map Prod.fst).Nodup := by
  unfold update
  induction d generalizing m with
  | nil => exact hm
  | cons kv d ih => exact ih (nodup_setItem hm _ _)

theorem mergeLoop_lookup (ds : List (List (κ × V))) (hds : ∀ d ∈ ds, (d.map Prod.fst).Nodup) (m : List (κ × V)) (ws : List (List κ)) (k : κ) :
    (mergeLoop ds m ws).1.lookup k = (ds.reverse.findSome? (fun d => d.lookup k)).or (m.lookup k) := by
  induction ds generalizing m ws with
  | nil => simp [mergeLoop]
  | cons d ds ih =>
    simp only [mergeLoop]
    rw [ih (fun d' h => hds d' (by simp [h])), lookup_update _ _ (hds d (by simp)), List.reverse_cons, List.findSome?_append]
    rw [Option.or_assoc]
    congr 1
    simp only [List.findSome?_cons, List.findSome?_nil]
    cases d.lookup k <;> simp

theorem mergeLoop_nodup (ds : List (List (κ × V))) (m : List (κ × V)) (ws : List (List κ)) (hm : (m.map Prod.fst).Nodup) :
    ((mergeLoop ds m ws).1.map Prod.fst).Nodup := by
  induction ds generalizing m ws with
  | nil => exact hm
  | cons d ds ih => exact ih _ _ (nodup_update hm d)

theorem mem_update {m d : List (κ × V)} {k : κ} (hd : (d.map Prod.fst).Nodup) :
    k ∈ (update m d).map Prod.fst ↔ k ∈ d.map Prod.fst ∨ k ∈ m.map Prod.fst := by
  have h := lookup_update m d hd k
  rw [← not_iff_not, not_or, ← lookup_eq_none, ← lookup_eq_none, ← lookup_eq_none, h]
  cases d.lookup k <;> simp

theorem mergeLoop_warnings (ds : List (List (κ × V))) (hds : ∀ d ∈ ds, (d.map Prod.fst).Nodup) (m : List (κ × V)) (ws : List (List κ)) :
    (mergeLoop ds m ws).2 ≠ [] ↔ ws ≠ [] ∨ (∃ d ∈ ds, ∃ k, k ∈ d.map Prod.fst ∧ k ∈ m.map Prod.fst) ∨
      ∃ (i j : Nat) (d d' : List (κ × V)), i < j ∧ ds[i]? = some d ∧ ds[j]? = some d' ∧ ∃ k, k ∈ d.map Prod.fst ∧ k ∈ d'.map Prod.fst := by
  induction ds generalizing m ws with
  | nil => simp [mergeLoop]
  | cons d ds ih =>
    simp only [mergeLoop]
    rw [ih (fun d' h => hds d' (by simp [h]))]
    have hov : (if ((d.map Prod.fst).filter (contains m)).isEmpty = true then ws else ws ++ [(d.map Prod.fst).filter (contains m)]) ≠ [] ↔
        ws ≠ [] ∨ ∃ k, k ∈ d.map Prod.fst ∧ k ∈ m.map Prod.fst := by
      split
      · rename_i h
        rw [List.isEmpty_iff, List.filter_eq_nil_iff] at h
        constructor
        · exact .inl
        · rintro (h1 | ⟨k, h1, h2⟩)
          · exact h1
          · exact absurd (contains_iff.2 h2) (h k h1)
      · rename_i h
        simp only [ne_eq, List.append_eq_nil_iff, List.cons_ne_self, and_false, not_false_eq_true, true_iff]
        right
        rw [List.isEmpty_iff] at h
        obtain ⟨k, hk⟩ := List.exists_mem_of_ne_nil _ h
        rw [List.mem_filter] at hk
        exact ⟨k, hk.1, contains_iff.1 hk.2⟩
    rw [hov]
    constructor
    · rintro ((h | ⟨k, h1, h2⟩) | ⟨d', hd', k, h1, h2⟩ | ⟨i, j, d1, d2, hij, h1, h2, h3⟩)
      · exact .inl h
      · exact .inr (.inl ⟨d, by simp, k, h1, h2⟩)
      · rcases (mem_update (hds d (by simp))).1 h2 with h2 | h2
        · obtain ⟨j, hj⟩ := List.mem_iff_getElem?.1 hd'
          exact .inr (.inr ⟨0, j + 1, d, d', by omega, rfl, by simpa using hj, k, h2, h1⟩)
        · exact .inr (.inl ⟨d', by simp [hd'], k, h1, h2⟩)
      · exact .inr (.inr ⟨i + 1, j + 1, d1, d2, by omega, by simpa using h1, by simpa using h2, h3⟩)
    · rintro (h | ⟨d', hd', k, h1, h2⟩ | ⟨i, j, d1, d2, hij, h1, h2, k, h3, h4⟩)
      · exact .inl (.inl h)
      · rcases List.mem_cons.1 hd' with rfl | hd'
        · exact .inl (.inr ⟨k, h1, h2⟩)
        · exact .inr (.inl ⟨d', hd', k, h1, (mem_update (hds d (by simp))).2 (.inr h2)⟩)
      · obtain ⟨j, rfl⟩ : ∃ j', j = j' + 1 := ⟨j - 1, by omega⟩
        rw [List.getElem?_cons_succ] at h2
        cases i with
        | zero =>
          rw [List.getElem?_cons_zero, Option.some.injEq] at h1
          subst h1
          exact .inr (.inl ⟨d2, List.mem_of_getElem? h2, k, h4, (mem_update (hds d (by simp))).2 (.inl h3)⟩)
        | succ i =>
          rw [List.getElem?_cons_succ] at h1
          exact .inr (.inr ⟨i, j, d1, d2, by omega, h1, h2, k, h3, h4⟩)

/-- C33.  The value of a key is its value in the last dict that contains it. -/
theorem C33_last_wins {ds : List (List (κ × V))} (hds : ∀ d ∈ ds, (d.map Prod.fst).Nodup) {i : Nat} {d : List (κ × V)} {k : κ} {v : V}
    (hd : ds[i]? = some d) (hk : (k, v) ∈ d) (hlast : ∀ j d', i < j → ds[j]? = some d' → k ∉ d'.map Prod.fst) :
    (k, v) ∈ (mergeDicts ds).1 := by
  have lookup_mem : ∀ (d : List (κ × V)) k v, d.lookup k = some v → (k, v) ∈ d := by
    intro d k v
    induction d with
    | nil => simp
    | cons kv d ih =>
      rw [lookup_cons']
      split
      · rename_i h; intro h'; simp only [Option.some.injEq] at h'; subst h h'; simp
      · intro h; exact List.mem_cons_of_mem _ (ih h)
  have mem_lookup : ∀ (d : List (κ × V)), (d.map Prod.fst).Nodup → ∀ k v, (k, v) ∈ d → d.lookup k = some v := by
    intro d hn k v hm
    induction d with
    | nil => simp at hm
    | cons kv d ih =>
      simp only [List.map_cons, List.nodup_cons] at hn
      rw [lookup_cons']
      rcases List.mem_cons.1 hm with rfl | hm
      · simp
      · rw [if_neg, ih hn.2 hm]
        rintro rfl
        exact hn.1 (List.mem_map.2 ⟨_, hm, rfl⟩)
  apply lookup_mem
  rw [mergeDicts, mergeLoop_lookup _ hds]
  have hkv := mem_lookup d (hds d (List.mem_of_getElem? hd)) k v hk
  have : ds.reverse.findSome? (fun d => d.lookup k) = some v := by
    obtain ⟨hi, rfl⟩ := List.getElem?_eq_some_iff.1 hd
    have e : ds = ds.take i ++ ds[i] :: ds.drop (i + 1) := by
      rw [← List.drop_eq_getElem_cons hi, List.take_append_drop]
    rw [e, List.reverse_append, List.findSome?_append, List.reverse_cons, List.findSome?_append]
    have hnone : (ds.drop (i + 1)).reverse.findSome? (fun d => d.lookup k) = none := by
      rw [List.findSome?_eq_none_iff]
      intro d' hd'
      rw [List.mem_reverse] at hd'
      obtain ⟨j, hj⟩ := List.mem_iff_getElem?.1 hd'
      rw [List.getElem?_drop] at hj
      exact lookup_eq_none.2 (hlast _ d' (by omega) hj)
    rw [hnone]
    simp [hkv]
  rw [this]
  rfl

/-- C33.  The merged dict has distinct keys, and exactly those that occur in some dict. -/
theorem C33_keys {ds : List (List (κ × V))} (hds : ∀ d ∈ ds, (d.map Prod.fst).Nodup) :
    ((mergeDicts ds).1.map Prod.fst).Nodup ∧ ∀ k, k ∈ (mergeDicts ds).1.map Prod.fst ↔ ∃ d ∈ ds, k ∈ d.map Prod.fst := by
  refine ⟨mergeLoop_nodup ds [] [] (by simp), ?_⟩
  intro k
  rw [← not_iff_not, ← lookup_eq_none, mergeDicts, mergeLoop_lookup _ hds]
  simp only [List.lookup_nil, Option.or_none, List.findSome?_eq_none_iff, List.mem_reverse, not_exists, not_and]
  exact forall_congr' fun d => imp_congr_right fun _ => lookup_eq_none

/-- C33.  There is a warning exactly when two of the dicts have a key in common. -/
theorem C33_warning {ds : List (List (κ × V))} (hds : ∀ d ∈ ds, (d.map Prod.fst).Nodup) :
    (mergeDicts ds).2 ≠ [] ↔
      ∃ (i j : Nat) (d d' : List (κ × V)), i < j ∧ ds[i]? = some d ∧ ds[j]? = some d' ∧ ∃ k, k ∈ d.map Prod.fst ∧ k ∈ d'.map Prod.fst := by
  rw [mergeDicts, mergeLoop_warnings _ hds]
  simp

example : mergeDicts [[("a", 1), ("b", 2)], [("c", 3)], [("b", 4)]] = ([("a", 1), ("b", 4), ("c", 3)], [["b"]]) := by decide
example : ∀ d ∈ [[("a", 1), ("b", 2)], [("c", 3)], [("b", 4)]], (d.map Prod.fst).Nodup := by decide

end Coax.Dicts
