import Verif.RewardTracing.BatchSpec
import Mathlib.Algebra.BigOperators.Group.List.Basic
import Mathlib.Algebra.Order.Group.Nat
import Mathlib.Algebra.Group.Action.Defs

/-! Property C22: splitting and concatenating batches are inverse to each other. -/

namespace Coax.Batching

variable {D β : Type _}

/-! ### Helpers -/

theorem Batch.ext_leaf {b b' : Batch D β} (hs : b.structure = b'.structure) (hl : ∀ k j, b.leaf k j = b'.leaf k j) : b = b' := by
  obtain ⟨s⟩ := b
  obtain ⟨s'⟩ := b'
  congr 1
  apply List.ext_getElem?
  intro k
  have h1 : (s.map (fun s => (s.treedef, s.leaves.length)))[k]? = (s'.map (fun s => (s.treedef, s.leaves.length)))[k]? := by
    rw [show s.map _ = _ from hs]; rfl
  have h2 := hl k
  simp only [Batch.leaf] at h2
  simp only [List.getElem?_map] at h1
  cases hk : s[k]? with
  | none =>
    rw [hk] at h1
    cases hk' : s'[k]? with
    | none => rfl
    | some x => rw [hk'] at h1; simp at h1
  | some x =>
    rw [hk] at h1 h2
    cases hk' : s'[k]? with
    | none => rw [hk'] at h1; simp at h1
    | some y =>
      rw [hk'] at h1 h2
      simp at h1 h2
      obtain ⟨d, l⟩ := x
      obtain ⟨d', l'⟩ := y
      simp at h1 h2
      rw [h1.1, List.ext_getElem? h2]

def Batch.single (b : Batch D β) (i : Nat) : Batch D β := ⟨b.slots.map (Slot.lookup i)⟩

theorem Batch.structure_single (b : Batch D β) (i : Nat) : (b.single i).structure = b.structure := by
  simp [Batch.structure, Batch.single, Slot.lookup, Function.comp_def]

theorem Batch.leaf_single (b : Batch D β) (i k j : Nat) : (b.single i).leaf k j = (b.leaf k j).map (sliceAt i) := by
  simp only [Batch.leaf, Batch.single, List.getElem?_map]
  cases b.slots[k]? <;> simp [Slot.lookup]

theorem Proper.leaf {n : Nat} {b : Batch D β} (h : Proper n b) {k j : Nat} {l : List β} (hl : b.leaf k j = some l) : l.length = n := by
  simp only [Batch.leaf, Option.bind_eq_some_iff] at hl
  obtain ⟨s, h1, h2⟩ := hl
  exact h.rows s (List.mem_of_getElem? h1) l (List.mem_of_getElem? h2)

theorem Proper.batchSize {n : Nat} {b : Batch D β} (h : Proper n b) : b.batchSize = .ok n := by
  obtain ⟨⟨d, l⟩, rows, h1, h2⟩ := h.rn
  simp only at h2
  subst h2
  have := h.rows _ (List.mem_of_getElem? h1) rows (by simp)
  simp [Batch.batchSize, h1, this]

theorem Proper.single {n : Nat} {b : Batch D β} (h : Proper n b) {i : Nat} (hi : i < n) : Proper 1 (b.single i) := by
  refine ⟨by simp [Batch.single, h.slots], ?_, ?_⟩
  · obtain ⟨s, rows, h1, h2⟩ := h.rn
    exact ⟨s.lookup i, sliceAt i rows, by simp [Batch.single, h1], by simp [Slot.lookup, h2]⟩
  · intro s hs leaf hl
    simp only [Batch.single, List.mem_map] at hs
    obtain ⟨s', h1, rfl⟩ := hs
    simp only [Slot.lookup, List.mem_map] at hl
    obtain ⟨l', h2, rfl⟩ := hl
    have := h.rows s' h1 l' h2
    simp [sliceAt]; omega

theorem Proper.single_zero {b : Batch D β} (h : Proper 1 b) : b.single 0 = b := by
  apply Batch.ext_leaf (b.structure_single 0)
  intro k j
  rw [b.leaf_single]
  cases hl : b.leaf k j with
  | none => rfl
  | some l =>
    have := h.leaf hl
    simp [sliceAt, List.take_of_length_le, this]

theorem Proper.toSingles {n : Nat} {b : Batch D β} (h : Proper n b) : b.toSingles = .ok ((List.range n).map b.single) := by
  unfold Batch.toSingles
  rw [h.batchSize]
  change (if n = 1 then _ else _) = _
  split
  · rename_i h1
    subst h1
    have := h.single_zero
    simp [this]; rfl
  · rfl

theorem mapM_ok {α γ : Type _} {f : α → Except Err γ} {l : List α} {g : α → γ} (h : ∀ x ∈ l, f x = .ok (g x)) :
    l.mapM f = .ok (l.map g) := by
  induction l with
  | nil => rfl
  | cons x l ih =>
    rw [List.mapM_cons, h x (by simp), ih (fun y hy => h y (by simp [hy]))]; rfl

theorem mapM_error {α γ : Type _} {f : α → Except Err γ} {l : List α} {e : Err} (h : ∀ x ∈ l, ∀ e', f x = .error e' → e' = e)
    {x : α} (hx : x ∈ l) (hf : f x = .error e) : l.mapM f = .error e := by
  induction l with
  | nil => simp at hx
  | cons y l ih =>
    rw [List.mapM_cons]
    cases hy : f y with
    | error e' => rw [h y (by simp) e' hy]; rfl
    | ok v =>
      rcases List.mem_cons.1 hx with rfl | hx
      · rw [hf] at hy; cases hy
      · rw [ih (fun z hz => h z (by simp [hz])) hx]; rfl

theorem structure_get {b b' : Batch D β} (h : b.structure = b'.structure) {k : Nat} {s : Slot D β} (hs : b'.slots[k]? = some s) :
    ∃ s', b.slots[k]? = some s' ∧ s'.treedef = s.treedef ∧ s'.leaves.length = s.leaves.length := by
  have := congrArg (·[k]?) h
  simp only [Batch.structure, List.getElem?_map, hs] at this
  cases hk : b.slots[k]? with
  | none => rw [hk] at this; simp at this
  | some s' =>
    rw [hk] at this
    simp at this
    exact ⟨s', rfl, this.1, this.2⟩

theorem structure_length {b b' : Batch D β} (h : b.structure = b'.structure) : b.slots.length = b'.slots.length := by
  have := congrArg List.length h
  simpa [Batch.structure] using this

theorem sliceAt_flatten {rowss : List (List β)} (h : ∀ r ∈ rowss, r.length = 1) {i : Nat} (hi : i < rowss.length) :
    sliceAt i rowss.flatten = rowss[i] := by
  induction rowss generalizing i with
  | nil => simp at hi
  | cons r rowss ih =>
    obtain ⟨x, rfl⟩ := List.length_eq_one_iff.1 (h r (by simp))
    cases i with
    | zero => simp [sliceAt]
    | succ i =>
      have := ih (fun r hr => h r (by simp [hr])) (i := i) (by simpa using hi)
      simpa [sliceAt] using this

variable [DecidableEq D]

def joined (first : Batch D β) (rest : List (Batch D β)) : Batch D β :=
  ⟨first.slots.zipIdx.map (fun (s, k) =>
    { treedef := s.treedef
      leaves := (List.range s.leaves.length).map (fun j => ((s :: rest.filterMap (fun b => b.slots[k]?)).map (fun s => s.leaves[j]?.getD [])).flatten) })⟩

omit [DecidableEq D] in
theorem joined_structure (first : Batch D β) (rest : List (Batch D β)) : (joined first rest).structure = first.structure := by
  apply List.ext_getElem?
  intro k
  simp only [Batch.structure, joined, List.getElem?_map, List.getElem?_zipIdx]
  cases first.slots[k]? <;> simp

omit [DecidableEq D] in
theorem filterMap_getD {first : Batch D β} {rest : List (Batch D β)} (h : ∀ b ∈ rest, b.structure = first.structure) {k : Nat} {s : Slot D β}
    (hs : first.slots[k]? = some s) {j : Nat} (hj : j < s.leaves.length) :
    (rest.filterMap (fun b => b.slots[k]?)).map (fun s => s.leaves[j]?.getD []) = rest.map (fun b => (b.leaf k j).getD []) := by
  induction rest with
  | nil => rfl
  | cons b rest ih =>
    obtain ⟨s', h1, h2, h3⟩ := structure_get (h b (by simp)) hs
    rw [List.filterMap_cons, h1]
    simp only [List.map_cons]
    rw [ih (fun b hb => h b (by simp [hb]))]
    simp [Batch.leaf, h1]

omit [DecidableEq D] in
theorem joined_leaf {first : Batch D β} {rest : List (Batch D β)} (h : ∀ b ∈ rest, b.structure = first.structure) (k j : Nat) :
    (joined first rest).leaf k j = (first.leaf k j).map (fun _ => ((first :: rest).map (fun b => (b.leaf k j).getD [])).flatten) := by
  simp only [Batch.leaf, joined, List.getElem?_map, List.getElem?_zipIdx]
  cases hs : first.slots[k]? with
  | none => rfl
  | some s =>
    simp only [Option.map_some, Nat.zero_add, Option.bind_some]
    by_cases hj : j < s.leaves.length
    · have := filterMap_getD h hs hj
      simp only [Batch.leaf] at this
      simp [hj, this, hs]
    · rw [List.getElem?_eq_none_iff.2 (by simpa using hj), List.getElem?_eq_none_iff.2 (by simpa using hj)]; rfl

theorem concat_ok {first : Batch D β} {rest : List (Batch D β)} (h : ∀ b ∈ rest, b.structure = first.structure) :
    concat (first :: rest) = .ok (joined first rest) := by
  have h1 : rest.any (fun b => decide (b.slots.length ≠ first.slots.length)) = false := by
    rw [List.any_eq_false]
    intro b hb
    simpa using structure_length (h b hb)
  change (if _ then _ else _) = _
  rw [if_neg (by simp only [h1]; decide)]
  rw [mapM_ok (g := fun (s, k) =>
    { treedef := s.treedef
      leaves := (List.range s.leaves.length).map (fun j => ((s :: rest.filterMap (fun b => b.slots[k]?)).map (fun s => s.leaves[j]?.getD [])).flatten) })]
  · rfl
  rintro ⟨s, k⟩ hm
  have hs : first.slots[k]? = some s := by
    have := List.mem_zipIdx_iff_getElem?.1 hm
    simpa using this
  dsimp only [concatSlots]
  rw [if_pos]
  rw [List.all_eq_true]
  intro s' hs'
  rw [List.mem_filterMap] at hs'
  obtain ⟨b, hb, hbs⟩ := hs'
  obtain ⟨s'', e1, e2, e3⟩ := structure_get (h b hb) hs
  rw [hbs] at e1
  cases e1
  simp [e2, e3]

/-! ### The property -/

/-- C22, `to_singles`: a batch of `n` transitions gives `n` batches of size one with the structure of the batch, in forward
order: every leaf of the `i`-th one consists of row `i` of the same leaf of the batch. -/
theorem C22_to_singles {n : Nat} {b : Batch D β} (h : Proper n b) :
    ∃ bs : List (Batch D β), b.toSingles = .ok bs ∧ bs.length = n ∧ ∀ (i : Nat) b', bs[i]? = some b' → Proper 1 b' ∧ b'.structure = b.structure ∧
      ∀ k j rows, b.leaf k j = some rows → ∃ x, rows[i]? = some x ∧ b'.leaf k j = some [x] := by
  refine ⟨_, h.toSingles, by simp, ?_⟩
  intro i b' hb
  simp only [List.getElem?_map, Option.map_eq_some_iff] at hb
  obtain ⟨i', hi, rfl⟩ := hb
  obtain ⟨hlt, he⟩ := List.getElem?_eq_some_iff.1 hi
  simp at hlt he
  subst he
  refine ⟨h.single hlt, b.structure_single i, ?_⟩
  intro k j rows hr
  have hl := h.leaf hr
  have hx : rows[i]? = some rows[i] := List.getElem?_eq_getElem (by omega)
  refine ⟨_, hx, ?_⟩
  rw [b.leaf_single, hr]
  simp only [Option.map_some, sliceAt]
  rw [List.drop_eq_getElem_cons (by omega), List.take_succ_cons, List.take_zero]

/-- C22, concatenation: batches of the same structure, of sizes `ns`, concatenate to a proper batch of the total size, whose
leaves are the concatenated leaves. -/
theorem C22_concat {bs : List (Batch D β)} {ns : List Nat} (hne : bs ≠ []) (hp : List.Forall₂ Proper ns bs)
    (hst : ∀ b ∈ bs, ∀ b' ∈ bs, b.structure = b'.structure) :
    ∃ c, concat bs = .ok c ∧ Proper ns.sum c ∧ (∀ b ∈ bs, c.structure = b.structure) ∧
      ∀ k j rows, c.leaf k j = some rows → ∃ rowss, List.Forall₂ (fun b r => b.leaf k j = some r) bs rowss ∧ rows = rowss.flatten := by
  cases bs with
  | nil => exact absurd rfl hne
  | cons first rest =>
    have hst' : ∀ b ∈ rest, b.structure = first.structure := fun b hb => hst b (by simp [hb]) first (by simp)
    have hleaf : ∀ k j rows, (joined first rest).leaf k j = some rows →
        ∃ rowss, List.Forall₂ (fun b r => b.leaf k j = some r) (first :: rest) rowss ∧ rows = rowss.flatten := by
      intro k j rows hr
      rw [joined_leaf hst', Option.map_eq_some_iff] at hr
      obtain ⟨l, h1, rfl⟩ := hr
      refine ⟨_, ?_, rfl⟩
      rw [List.forall₂_map_right_iff]
      have : ∀ b ∈ first :: rest, b.leaf k j = some ((b.leaf k j).getD []) := by
        intro b hb
        have he := hst b hb first (by simp)
        simp only [Batch.leaf, Option.bind_eq_some_iff] at h1
        obtain ⟨s, e1, e2⟩ := h1
        obtain ⟨s', f1, f2, f3⟩ := structure_get he e1
        have hj : j < s'.leaves.length := by rw [f3]; exact (List.getElem?_eq_some_iff.1 e2).1
        simp [Batch.leaf, f1, hj]
      exact List.forall₂_same.2 this
    refine ⟨_, concat_ok hst', ⟨?_, ?_, ?_⟩, ?_, hleaf⟩
    · cases hp with
      | cons h1 _ => rw [structure_length (joined_structure first rest), h1.slots]
    · cases hp with
      | cons h1 _ =>
        obtain ⟨s, rows, e1, e2⟩ := h1.rn
        obtain ⟨s', f1, f2, f3⟩ := structure_get (joined_structure first rest) e1
        rw [e2] at f3
        obtain ⟨r, hr⟩ := List.length_eq_one_iff.1 f3
        exact ⟨s', r, f1, hr⟩
    · intro s hs leaf hl
      obtain ⟨k, hk⟩ := List.mem_iff_getElem?.1 hs
      obtain ⟨j, hj⟩ := List.mem_iff_getElem?.1 hl
      obtain ⟨rowss, h1, rfl⟩ := hleaf k j leaf (by simp [Batch.leaf, hk, hj])
      clear hs hl hk hj hleaf hst hst' hne
      generalize first :: rest = bs at h1 hp
      induction hp generalizing rowss with
      | nil => cases h1; rfl
      | cons h2 _ ih =>
        cases h1 with
        | cons h3 h4 =>
          rw [List.flatten_cons, List.length_append, List.sum_cons, h2.leaf h3, ih _ h4]
    · intro b hb
      rw [joined_structure]
      exact hst first (by simp) b hb

/-- C22, round trip: splitting a batch of at least one transition and concatenating the pieces restores it. -/
theorem C22_split_concat {n : Nat} {b : Batch D β} (h : Proper n b) (hn : 0 < n) :
    ∃ bs, b.toSingles = .ok bs ∧ concat bs = .ok b := by
  refine ⟨_, h.toSingles, ?_⟩
  obtain ⟨m, rfl⟩ : ∃ m, n = m + 1 := ⟨n - 1, by omega⟩
  rw [List.range_succ_eq_map, List.map_cons]
  have hst : ∀ b' ∈ ((List.range m).map Nat.succ).map b.single, b'.structure = (b.single 0).structure := by
    intro b' hb
    simp only [List.mem_map] at hb
    obtain ⟨i, _, rfl⟩ := hb
    rw [b.structure_single, b.structure_single]
  rw [concat_ok hst]
  congr 1
  apply Batch.ext_leaf
  · rw [joined_structure, b.structure_single]
  intro k j
  rw [joined_leaf hst, ← List.map_cons (f := b.single), ← List.range_succ_eq_map, b.leaf_single]
  cases hl : b.leaf k j with
  | none => rfl
  | some rows =>
    have hlen := h.leaf hl
    simp only [Option.map_some, List.map_map, Option.some.injEq]
    have : (List.range (m + 1)).map ((fun b : Batch D β => (b.leaf k j).getD []) ∘ b.single) = (List.range (m + 1)).map (fun i => sliceAt i rows) := by
      apply List.map_congr_left
      intro i _
      simp [b.leaf_single, hl]
    rw [this, ← hlen]
    clear hlen hl this h hst
    induction rows with
    | nil => rfl
    | cons x rows ih =>
      rw [List.length_cons, List.range_succ_eq_map, List.map_cons, List.flatten_cons, List.map_map]
      have : (fun i => sliceAt i (x :: rows)) ∘ Nat.succ = fun i => sliceAt i rows := by
        funext i; simp [sliceAt]
      rw [this, ih]
      simp [sliceAt]

/-- C22, the other round trip: concatenating single transitions of the same structure and splitting the result restores the
list of singles. -/
theorem C22_concat_split {bs : List (Batch D β)} (hne : bs ≠ []) (hp : ∀ b ∈ bs, Proper 1 b)
    (hst : ∀ b ∈ bs, ∀ b' ∈ bs, b.structure = b'.structure) :
    ∃ c, concat bs = .ok c ∧ c.toSingles = .ok bs := by
  have hf : List.Forall₂ Proper (List.replicate bs.length 1) bs := by
    clear hst hne
    induction bs with
    | nil => exact .nil
    | cons b bs ih => exact .cons (hp b (by simp)) (ih (fun b' hb => hp b' (by simp [hb])))
  obtain ⟨c, hc, hpc, hsc, hl⟩ := C22_concat hne hf hst
  refine ⟨c, hc, ?_⟩
  simp only [List.sum_replicate, smul_eq_mul, Nat.mul_one] at hpc
  rw [hpc.toSingles]
  congr 1
  apply List.ext_getElem
  · simp
  intro i h1 h2
  simp only [List.getElem_map, List.getElem_range]
  apply Batch.ext_leaf
  · rw [c.structure_single]; exact hsc _ (List.getElem_mem h2)
  intro k j
  rw [c.leaf_single]
  cases hk : c.leaf k j with
  | none =>
    symm
    simp only [Batch.leaf] at hk ⊢
    cases hs : (bs[i]).slots[k]? with
    | none => rfl
    | some s =>
      obtain ⟨s', e1, e2, e3⟩ := structure_get (hsc _ (List.getElem_mem h2)) hs
      rw [e1] at hk
      simp at hk
      simp [← e3, hk]
  | some rows =>
    obtain ⟨rowss, f1, rfl⟩ := hl k j rows hk
    have hlen := f1.length_eq
    have hi := (List.forall₂_iff_get.1 f1).2 i h2 (by omega)
    simp only [List.get_eq_getElem] at hi
    rw [hi]
    simp only [Option.map_some, Option.some.injEq]
    have hone : ∀ r ∈ rowss, r.length = 1 := by
      intro r hr
      obtain ⟨q, hq, rfl⟩ := List.mem_iff_getElem.1 hr
      have := (List.forall₂_iff_get.1 f1).2 q (by omega) hq
      simp only [List.get_eq_getElem] at this
      exact (hp _ (List.getElem_mem _)).leaf this
    have hi' : i < rowss.length := by omega
    exact sliceAt_flatten hone hi'

/-- C22, what concatenation rejects: no batches (`TypeError`), or a batch whose structure is not that of the first
(`ValueError`); for instance one with and one without `S_next`. -/
theorem C22_concat_rejects :
    concat ([] : List (Batch D β)) = .error .typeError ∧
    ∀ (first : Batch D β) (rest : List (Batch D β)) (b : Batch D β), b ∈ rest → b.structure ≠ first.structure →
      concat (first :: rest) = .error .valueError := by
  refine ⟨rfl, ?_⟩
  intro first rest b hb hne
  change (if _ then _ else _) = _
  split
  · rfl
  · rename_i h
    simp only [List.any_eq_true, not_exists, not_and, decide_eq_true_eq, Decidable.not_not] at h
    have hl := h b hb
    have : ∃ (k : Nat) (s s' : Slot D β), first.slots[k]? = some s ∧ b.slots[k]? = some s' ∧
        (s'.treedef, s'.leaves.length) ≠ (s.treedef, s.leaves.length) := by
      by_contra hno
      push Not at hno
      apply hne
      unfold Batch.structure
      apply List.ext_getElem (by simpa using hl)
      intro k h1 h2
      simp only [List.length_map] at h1 h2
      simpa using hno k _ _ (List.getElem?_eq_getElem h2) (List.getElem?_eq_getElem h1)
    obtain ⟨k, s, s', e1, e2, e3⟩ := this
    have hz : (s, k) ∈ first.slots.zipIdx := List.mem_zipIdx_iff_getElem?.2 (by simpa using e1)
    rw [mapM_error (e := .valueError) ?_ hz]
    · rfl
    · simp only [concatSlots]
      rw [if_neg]
      intro hall
      rw [List.all_eq_true] at hall
      have := hall s' (List.mem_filterMap.2 ⟨b, hb, e2⟩)
      simp at this
      exact e3 (by rw [this.1, this.2])
    · rintro ⟨x, q⟩ _ e'
      simp only [concatSlots]
      split
      · intro h; cases h
      · intro h; cases h; rfl

/-- C22, the size-zero corner: an empty batch splits into no singles, which cannot be concatenated back. -/
theorem C22_empty_batch {b : Batch D β} (h : Proper 0 b) : b.toSingles = .ok [] ∧ concat ([] : List (Batch D β)) = .error .typeError :=
  ⟨h.toSingles, rfl⟩

/-- A batch of three transitions: states are pairs of arrays, no `extra_info`. -/
def exBatch : Batch String Nat :=
  ⟨[⟨"(*, *)", [[1, 2, 3], [4, 5, 6]]⟩, ⟨"*", [[7, 8, 9]]⟩, ⟨"*", [[0, 0, 1]]⟩, ⟨"*", [[5, 5, 5]]⟩, ⟨"*", [[1, 1, 0]]⟩,
    ⟨"(*, *)", [[2, 3, 3], [5, 6, 6]]⟩, ⟨"None", []⟩, ⟨"None", []⟩, ⟨"*", [[1, 1, 1]]⟩, ⟨"*", [[0, 1, 2]]⟩, ⟨"None", []⟩]⟩

theorem exBatch_proper : Proper 3 exBatch := by
  refine ⟨rfl, ⟨_, _, rfl, rfl⟩, ?_⟩
  decide

example : Proper 1 (exBatch.single 1) ∧ (exBatch.single 1).structure = (exBatch.single 0).structure :=
  ⟨exBatch_proper.single (by decide), by rw [Batch.structure_single, Batch.structure_single]⟩

example : concat [exBatch.single 2, exBatch, exBatch.single 0] = .ok
  ⟨[⟨"(*, *)", [[3, 1, 2, 3, 1], [6, 4, 5, 6, 4]]⟩, ⟨"*", [[9, 7, 8, 9, 7]]⟩, ⟨"*", [[1, 0, 0, 1, 0]]⟩, ⟨"*", [[5, 5, 5, 5, 5]]⟩,
    ⟨"*", [[0, 1, 1, 0, 1]]⟩, ⟨"(*, *)", [[3, 2, 3, 3, 2], [6, 5, 6, 6, 5]]⟩, ⟨"None", []⟩, ⟨"None", []⟩, ⟨"*", [[1, 1, 1, 1, 1]]⟩,
    ⟨"*", [[2, 0, 1, 2, 0]]⟩, ⟨"None", []⟩]⟩ := by decide

end Coax.Batching
