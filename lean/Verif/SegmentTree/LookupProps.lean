import Verif.SegmentTree.Lookup
import Verif.SegmentTree.Props

/-! C141: what square-bracket lookups return, and what writes through the returned views do. -/

namespace Coax.SegmentTree

variable {α : Type _}

/-- The level `level` of a segment tree over `values`: the values are cut in blocks of length `2^d`, `d` steps above
the leaves, and every block is reduced. -/
def blocks (red : α → α → α) (init : α) (values : List α) (d n : Nat) : List α :=
  (List.range n).map (fun k => reduce red init (slice values (k * 2 ^ d) ((k + 1) * 2 ^ d)))

variable {cap : Nat} {red : α → α → α} {init : α} {t : Tree α}

theorem Inv.reduce_slice_leaves (hu : IsUnital red init) (h : Inv cap red init t) (s e : Nat) :
    reduce red init (slice t.leaves s e) = reduce red init (slice t.values s e) := by
  have hr : ∀ (n a b : Nat), reduce red init (slice (List.replicate n init) a b) = init := by
    intro n a b
    unfold slice
    rw [List.take_replicate, List.drop_replicate]
    exact reduce_replicate hu _
  have h1 : slice t.leaves s e = slice t.values s e ++
      slice (List.replicate (2 ^ (t.height - 1) - cap) init) (s - min e t.values.length)
        (e - t.values.length) := by
    rw [h.leaves_eq]
    unfold slice
    rw [List.take_append, List.drop_append, List.length_take]
  rw [h1, reduce_append hu, hr, hu.unit_right]

theorem Inv.level_eq (hu : IsUnital red init) (h : Inv cap red init t) {l : Nat} (hl : l < t.height) :
    t.getLevel l = .ok (blocks red init t.values (t.height - 1 - l) (min (2 ^ l) cap)) := by
  rw [h.getLevel_ok hl]
  congr 1
  have hlen : 2 ^ l - 1 + 2 ^ l ≤ t.arr.length := by
    have h1 := node_lt (h := t.height) (lev := l) (k := 2 ^ l - 1) hl (by have := Nat.two_pow_pos l; omega)
    have h2 := Nat.two_pow_pos l
    have := h.len
    omega
  apply List.ext_getElem?
  intro k
  by_cases hk : k < min (2 ^ l) cap
  · have hv := h.node_value hu (t.height - 1 - l) l k (by omega) (by omega)
    rw [h.reduce_slice_leaves hu] at hv
    rw [List.getElem?_take, if_pos hk, List.getElem?_drop, hv]
    simp [blocks, hk]
  · rw [List.getElem?_take, if_neg hk]
    simp [blocks, hk]

theorem Tree.getLevel_wrap (t : Tree α) {l : Int} (h1 : -(t.height : Int) ≤ l) (h2 : l < 0) :
    t.getLevel l = t.getLevel (l + t.height) := by
  have e : (l + t.height) % (t.height : Int) = l % t.height := Int.add_emod_right ..
  simp only [Tree.getLevel, Tree.checkLevelLookup, e]
  rw [if_pos (by omega), if_pos (by omega)]

/-- C141, levels.  After any history of `set_values` calls, `tree[level]` is the list of the reductions of the blocks of
`2^(height - 1 - level)` values (the last blocks may be cut short or empty); a negative level counts from the leaves
upwards; `tree[-1]` is `values`; `tree[level,]` is the same as `tree[level]`; any other level raises `IndexError`. -/
theorem C141_levels (hc : 0 < cap) (hu : IsUnital red init) (h : Reachable cap red init t) :
    t.height = Nat.clog 2 cap + 1 ∧
    (∀ l : Nat, l < t.height →
      t.getItem (.int l) = .ok (.arr (blocks red init t.values (t.height - 1 - l) (min (2 ^ l) cap))) ∧
      t.getItem (.int ((l : Int) - t.height)) = t.getItem (.int l)) ∧
    t.getItem (.int 0) = .ok (.arr [reduce red init t.values]) ∧
    t.getItem (.int (-1)) = .ok (.arr t.values) ∧
    (∀ l : Int, l < -(t.height : Int) ∨ (t.height : Int) ≤ l → t.getItem (.int l) = .error .indexError) ∧
    (∀ lookup, t.getItem (.one lookup) = t.getItem lookup) := by
  have hi := h.inv hc (hu.unit_left init)
  have hh := hi.height_pos
  have hlev : ∀ l : Nat, l < t.height →
      t.getItem (.int l) = .ok (.arr (blocks red init t.values (t.height - 1 - l) (min (2 ^ l) cap))) := by
    intro l hl
    simp only [Tree.getItem, hi.level_eq hu hl]
    rfl
  have hwrap : ∀ l : Nat, l < t.height → t.getItem (.int ((l : Int) - t.height)) = t.getItem (.int l) := by
    intro l hl
    simp only [Tree.getItem]
    rw [t.getLevel_wrap (by omega) (by omega), Int.sub_add_cancel]
  refine ⟨hi.height_eq, fun l hl => ⟨hlev l hl, hwrap l hl⟩, ?_, ?_, ?_, fun _ => rfl⟩
  · have h0 := hlev 0 hh
    rw [Nat.cast_zero] at h0
    rw [h0]
    have : min (2 ^ 0) cap = 1 := by simp; omega
    rw [this]
    have hall : slice t.values 0 (2 ^ (t.height - 1)) = t.values := by
      apply slice_all
      rw [hi.values_length]; exact hi.cap_le
    simp [blocks, hall]
  · have h1 := hwrap (t.height - 1) (by omega)
    have e : ((t.height - 1 : Nat) : Int) - t.height = -1 := by omega
    rw [e] at h1
    rw [h1]
    simp only [Tree.getItem, hi.getLevel_ok (show t.height - 1 < t.height by omega)]
    rw [Nat.min_eq_right hi.cap_le]
    rw [← hi.cap_eq]
    rfl
  · intro l hl
    have : ¬ (-(t.height : Int) ≤ l ∧ l < t.height) := by omega
    simp only [Tree.getItem, Tree.getLevel, Tree.checkLevelLookup, if_neg this]
    rfl

theorem position_ok {n p : Nat} {i : Int} (hp : p < n) (hd : denotes n i p) : position n i = .ok p := by
  unfold denotes at hd
  unfold position
  rcases hd with hd | hd
  · rw [if_pos (by omega)]; congr 1; omega
  · rw [if_neg (by omega), if_pos (by omega)]; congr 1; omega

theorem position_err {n : Nat} {i : Int} (h : ∀ p < n, ¬ denotes n i p) : position n i = .error .indexError := by
  unfold denotes at h
  unfold position
  rw [if_neg, if_neg]
  · rintro ⟨h1, h2⟩
    exact h (i + n).toNat (by omega) (Or.inr (by omega))
  · rintro ⟨h1, h2⟩
    exact h i.toNat (by omega) (Or.inl (by omega))

/-- Whether position `k` of a sequence of length `n` belongs to the Python slice `start:stop`: a non-negative end is
compared with `k`, a negative one with `k - n`. -/
def inSlice (n : Nat) (start stop : Option Int) (k : Nat) : Bool :=
  start.all (fun (i : Int) => if 0 ≤ i then decide (i ≤ k) else decide (i ≤ (k : Int) - n)) &&
    stop.all (fun (i : Int) => if 0 ≤ i then decide ((k : Int) < i) else decide ((k : Int) - n < i))

theorem slice_range (n : Nat) (start stop : Option Int) :
    ((List.range n).take ((stop.map (clipEnd n)).getD n)).drop ((start.map (clipEnd n)).getD 0) =
      (List.range n).filter (fun k => inSlice n start stop k) := by
  have key : ∀ n a b : Nat, b ≤ n → ((List.range n).take b).drop a =
      (List.range n).filter (fun k => decide (a ≤ k) && decide (k < b)) := by
    intro n a
    induction n with
    | zero => simp
    | succ n ih =>
      intro b hb
      rw [List.range_succ, List.filter_append]
      by_cases hbn : b ≤ n
      · rw [List.take_append_of_le_length (by simpa using hbn), ih b hbn]
        have : List.filter (fun k => decide (a ≤ k) && decide (k < b)) [n] = [] := by
          rw [List.filter_eq_nil_iff]; simp; omega
        rw [this, List.append_nil]
      · have hb' : b = n + 1 := by omega
        subst hb'
        rw [List.take_of_length_le (by simp), List.drop_append]
        have h1 := ih n le_rfl
        rw [List.take_of_length_le (by simp)] at h1
        rw [h1]
        congr 1
        · apply List.filter_congr
          intro k hk
          have h2 := List.mem_range.1 hk
          have h3 : k < n + 1 := by omega
          simp [h2, h3]
        · by_cases ha : a ≤ n
          · simp [ha]
          · simp [ha]; omega
  have hb : (stop.map (clipEnd n)).getD n ≤ n := by
    cases stop with
    | none => simp
    | some i => simp only [Option.map_some, Option.getD_some, clipEnd]; split_ifs <;> omega
  rw [key n _ _ hb]
  apply List.filter_congr
  intro k hk
  have hk := List.mem_range.1 hk
  unfold inSlice
  congr 1
  · cases start with
    | none => simp
    | some i =>
      simp only [Option.map_some, Option.getD_some, clipEnd, Option.all_some]
      split_ifs <;> first | omega | (rw [decide_eq_decide]; omega)
  · cases stop with
    | none => simp [hk]
    | some i =>
      simp only [Option.map_some, Option.getD_some, clipEnd, Option.all_some]
      split_ifs <;> first | omega | (rw [decide_eq_decide]; omega)

/-- C141, entries.  `tree[level, i]` is the reduction of the block that `i` denotes within its level (negative `i`
counted from the end), `tree[level, [i, ...]]` lists the entries one by one, `tree[level, a:b]` lists the entries of the slice,
and an `i` outside the level raises `IndexError`, as do lookups of any other form. -/
theorem C141_entries (hc : 0 < cap) (hu : IsUnital red init) (h : Reachable cap red init t) {l : Nat}
    (hl : l < t.height) :
    (∀ (i : Int) (p : Nat), p < min (2 ^ l) cap → denotes (min (2 ^ l) cap) i p →
      t.getItem (.two (.int l) (.int i)) =
        .ok (.scalar (reduce red init (slice t.values (p * 2 ^ (t.height - 1 - l)) ((p + 1) * 2 ^ (t.height - 1 - l)))))) ∧
    (∀ (is : List Int) (ps : List Nat), List.Forall₂ (fun i p => p < min (2 ^ l) cap ∧ denotes (min (2 ^ l) cap) i p) is ps →
      t.getItem (.two (.int l) (.ints is)) = .ok (.arr (ps.map (fun p =>
        reduce red init (slice t.values (p * 2 ^ (t.height - 1 - l)) ((p + 1) * 2 ^ (t.height - 1 - l))))))) ∧
    (∀ a b : Option Int, t.getItem (.two (.int l) (.slice a b)) =
      .ok (.arr (((List.range (min (2 ^ l) cap)).filter (fun k => inSlice (min (2 ^ l) cap) a b k)).map (fun p =>
        reduce red init (slice t.values (p * 2 ^ (t.height - 1 - l)) ((p + 1) * 2 ^ (t.height - 1 - l))))))) ∧
    (∀ i : Int, (∀ p < min (2 ^ l) cap, ¬ denotes (min (2 ^ l) cap) i p) →
      t.getItem (.two (.int l) (.int i)) = .error .indexError ∧
      ∀ is, i ∈ is → t.getItem (.two (.int l) (.ints is)) = .error .indexError) ∧
    (∀ (i : Int) (index : Index), t.getItem (.two (.two (.int l) (.int i)) index) = .error .indexError) ∧
    t.getItem .other = .error .indexError := by
  have hi := h.inv hc (hu.unit_left init)
  have hlev : t.getItem (.int l) =
      .ok (.arr (blocks red init t.values (t.height - 1 - l) (min (2 ^ l) cap))) := by
    simp only [Tree.getItem, hi.level_eq hu hl]
    rfl
  have hlen : (blocks red init t.values (t.height - 1 - l) (min (2 ^ l) cap)).length = min (2 ^ l) cap := by
    simp [blocks]
  have hget : ∀ p < min (2 ^ l) cap, (blocks red init t.values (t.height - 1 - l) (min (2 ^ l) cap))[p]? =
      some (reduce red init (slice t.values (p * 2 ^ (t.height - 1 - l)) ((p + 1) * 2 ^ (t.height - 1 - l)))) := by
    intro p hp
    simp [blocks, hp]
  have htwo : ∀ index, t.getItem (.two (.int l) index) =
      numpyIndex (blocks red init t.values (t.height - 1 - l) (min (2 ^ l) cap)) index := by
    intro index
    rw [Tree.getItem, hlev]
    rfl
  have hone : ∀ (i : Int) (p : Nat), p < min (2 ^ l) cap → denotes (min (2 ^ l) cap) i p →
      t.getItem (.two (.int l) (.int i)) = .ok (.scalar (reduce red init
        (slice t.values (p * 2 ^ (t.height - 1 - l)) ((p + 1) * 2 ^ (t.height - 1 - l))))) := by
    intro i p hp hd
    rw [htwo]
    simp only [numpyIndex, hlen, position_ok hp hd]
    simp only [bind, Except.bind, readAt_of_some (hget p hp)]
    rfl
  have hbad : ∀ i : Int, (∀ p < min (2 ^ l) cap, ¬ denotes (min (2 ^ l) cap) i p) →
      t.getItem (.two (.int l) (.int i)) = .error .indexError := by
    intro i hb
    rw [htwo]
    simp only [numpyIndex, hlen, position_err hb]
    rfl
  refine ⟨hone, ?_, ?_, ?_, ?_, rfl⟩
  · intro is ps hf
    rw [htwo]
    have h1 : is.mapM (position (min (2 ^ l) cap)) = .ok ps := by
      induction hf with
      | nil => rfl
      | cons hd _ ih => simp only [List.mapM_cons, position_ok hd.1 hd.2, ih]; rfl
    have h2 : ∀ p ∈ ps, p < min (2 ^ l) cap := by
      clear h1
      induction hf with
      | nil => simp
      | cons hd _ ih => simp only [List.mem_cons]; rintro p (rfl | hp); exacts [hd.1, ih p hp]
    simp only [numpyIndex, hlen, h1]
    have h3 := mapM_readAt (ks := ps) (fun p hp => hget p (h2 p hp))
    simp only [bind, Except.bind, h3]
    rfl
  · intro a b
    rw [htwo]
    simp only [numpyIndex, hlen]
    unfold blocks
    rw [← List.map_take, ← List.map_drop]
    congr 3
    exact slice_range _ a b
  · intro i hb
    refine ⟨hbad i hb, ?_⟩
    intro is hm
    rw [htwo]
    have h1 : is.mapM (position (min (2 ^ l) cap)) = .error .indexError := by
      have hall : ∀ j, (∃ p, position (min (2 ^ l) cap) j = .ok p) ∨
          position (min (2 ^ l) cap) j = .error .indexError := by
        intro j
        unfold position
        split_ifs
        · exact Or.inl ⟨_, rfl⟩
        · exact Or.inl ⟨_, rfl⟩
        · exact Or.inr rfl
      induction is with
      | nil => cases hm
      | cons j is ih =>
        rcases hall j with ⟨p, hp⟩ | hj
        · have hm' : i ∈ is := by
            rcases List.mem_cons.1 hm with rfl | hm
            · rw [position_err hb] at hp; cases hp
            · exact hm
          simp only [List.mapM_cons, hp, ih hm']
          rfl
        · simp only [List.mapM_cons, hj]
          rfl
    simp only [numpyIndex, hlen, h1]
    rfl
  · intro i index
    rw [Tree.getItem]
    by_cases hex : ∃ p < min (2 ^ l) cap, denotes (min (2 ^ l) cap) i p
    · obtain ⟨p, hp, hd⟩ := hex
      rw [hone i p hp hd]
      rfl
    · rw [hbad i (fun p hp hd => hex ⟨p, hp, hd⟩)]
      rfl

/-! ### Writes through views -/

theorem readAt_set {arr : List α} {P k : Nat} (v : α) (h : k ≠ P) : readAt (arr.set P v) k = readAt arr k := by
  unfold readAt
  rw [List.getElem?_set_ne (fun e => h e.symm)]

theorem mapM_readAt_set {arr : List α} {P : Nat} (v : α) : ∀ {ks : List Nat}, (∀ k ∈ ks, k ≠ P) →
    ks.mapM (readAt (arr.set P v)) = ks.mapM (readAt arr)
  | [], _ => rfl
  | k :: ks, h => by
    have ih := mapM_readAt_set (arr := arr) v (ks := ks) (fun k' hk' => h k' (List.mem_cons_of_mem _ hk'))
    simp only [List.mapM_cons, readAt_set v (h k (by simp)), ih]

theorem writeAll_set {P : Nat} (v : α) : ∀ {ps : List (Nat × α)} {arr : List α}, (∀ p ∈ ps, p.1 ≠ P) →
    writeAll (arr.set P v) ps = (writeAll arr ps).map (·.set P v)
  | [], _, _ => rfl
  | (k, x) :: ps, arr, h => by
    have hk : k ≠ P := h (k, x) (by simp)
    simp only [writeAll, List.length_set]
    split_ifs
    · rw [List.set_comm _ _ (fun e => hk e.symm)]
      exact writeAll_set v (fun p hp => h p (by simp [hp]))
    · rfl

/-- The upward loop neither reads nor writes a position outside the pairs of siblings that it starts from. -/
theorem climb_set (red : α → α → α) {P : Nat} (v : α) : ∀ (lev : Nat) (idx : List Nat) (arr : List α),
    (∀ k ∈ idx, k < 2 ^ lev) → (2 ^ (lev + 1) - 1 ≤ P ∨ ∃ p, P = 2 ^ lev - 1 + p ∧ ∀ k ∈ idx, k / 2 ≠ p / 2) →
    climb red lev (2 ^ lev - 1) idx (arr.set P v) = (climb red lev (2 ^ lev - 1) idx arr).map (·.set P v)
  | 0, _, _, _, _ => rfl
  | lev + 1, idx, arr, hidx, hP => by
    have hpos := Nat.two_pow_pos lev
    have e1 : 2 ^ (lev + 1) = 2 * 2 ^ lev := by rw [Nat.pow_succ]; ring
    have e2 : 2 ^ (lev + 1 + 1) = 4 * 2 ^ lev := by rw [Nat.pow_succ, Nat.pow_succ]; ring
    have hu : ∀ k ∈ unique (idx.map (· / 2)), ∃ k' ∈ idx, k' / 2 = k ∧ k < 2 ^ lev := by
      intro k hk
      rw [mem_unique, List.mem_map] at hk
      obtain ⟨k', hk', rfl⟩ := hk
      have := hidx k' hk'
      exact ⟨k', hk', rfl, by omega⟩
    have hchild : ∀ k ∈ unique (idx.map (· / 2)), 2 ^ (lev + 1) - 1 + 2 * k ≠ P ∧ 2 ^ (lev + 1) - 1 + 2 * k + 1 ≠ P := by
      intro k hk
      obtain ⟨k', hk', e, hlt⟩ := hu k hk
      rcases hP with hP | ⟨p, rfl, hp⟩
      · omega
      · have := hp k' hk'
        omega
    have hPge : 2 ^ (lev + 1) - 1 ≤ P := by
      rcases hP with hP | ⟨p, rfl, -⟩ <;> omega
    have hr1 : ((unique (idx.map (· / 2))).map (fun k => 2 ^ (lev + 1) - 1 + 2 * k)).mapM (readAt (arr.set P v)) =
        ((unique (idx.map (· / 2))).map (fun k => 2 ^ (lev + 1) - 1 + 2 * k)).mapM (readAt arr) := by
      apply mapM_readAt_set
      intro k hk
      obtain ⟨k', hk', rfl⟩ := List.mem_map.1 hk
      exact (hchild k' hk').1
    have hr2 : (((unique (idx.map (· / 2))).map (fun k => 2 ^ (lev + 1) - 1 + 2 * k)).map (· + 1)).mapM (readAt (arr.set P v)) =
        (((unique (idx.map (· / 2))).map (fun k => 2 ^ (lev + 1) - 1 + 2 * k)).map (· + 1)).mapM (readAt arr) := by
      apply mapM_readAt_set
      intro k hk
      obtain ⟨k', hk', rfl⟩ := List.mem_map.1 hk
      obtain ⟨k'', hk'', rfl⟩ := List.mem_map.1 hk'
      exact (hchild k'' hk'').2
    simp only [climb, hr1, hr2]
    cases ((unique (idx.map (· / 2))).map (fun k => 2 ^ (lev + 1) - 1 + 2 * k)).mapM (readAt arr) with
    | error e => rfl
    | ok l =>
      cases (((unique (idx.map (· / 2))).map (fun k => 2 ^ (lev + 1) - 1 + 2 * k)).map (· + 1)).mapM (readAt arr) with
      | error e => rfl
      | ok r =>
        simp only [bind, Except.bind]
        rw [writeAll_set v]
        · cases writeAll arr (((unique (idx.map (· / 2))).map (fun k => 2 ^ lev - 1 + k)).zip (List.zipWith red l r)) with
          | error e => rfl
          | ok arr' =>
            simp only [Except.map]
            exact climb_set red v lev _ arr' (fun k hk => (hu k hk).choose_spec.2.2) (Or.inl hPge)
        · intro q hq
          have := (List.of_mem_zip hq).1
          obtain ⟨k, hk, e⟩ := List.mem_map.1 this
          have := (hu k hk).choose_spec.2.2
          rw [← e]
          omega

/-- The tree with the leaf `p` overwritten and nothing else. -/
def Tree.poke (t : Tree α) (p : Nat) (v : α) : Tree α := { t with arr := t.arr.set (2 ^ (t.height - 1) - 1 + p) v }

theorem Tree.poke_checkIdx (t : Tree α) (p : Nat) (v : α) (idx : IdxArg) : (t.poke p v).checkIdx idx = t.checkIdx idx := by
  rfl

/-- A `set_values` call that touches neither `p` nor its sibling does not see that `p` was overwritten. -/
theorem Inv.setValues_poke (h : Inv cap red init t) {p : Nat} (v : α) {idx : List Int}
    (hi : ∀ k ∈ idx, ∀ q < cap, denotes cap k q → q / 2 ≠ p / 2) (vals : List α) :
    (t.poke p v).setValues (.arr idx) vals = (t.setValues (.arr idx) vals).map (·.poke p v) := by
  have hc := h.cap_pos
  have hcl := h.cap_le
  by_cases hv : ∀ k ∈ idx, -(cap : Int) ≤ k ∧ k < cap
  · have hchk := h.checkIdx_ok (idx := .arr idx) (by simpa [IdxArg.toList] using hv)
    have hks : ∀ k ∈ idx.map (fun k => (k % (cap : Int)).toNat), k < cap ∧ k / 2 ≠ p / 2 := by
      intro k hk
      obtain ⟨k', hk', rfl⟩ := List.mem_map.1 hk
      have hlt := emod_toNat_lt hc k'
      exact ⟨hlt, hi k' hk' _ hlt ((denotes_iff hc (hv k' hk') hlt).2 rfl)⟩
    simp only [Tree.setValues, Tree.poke_checkIdx, hchk, IdxArg.toList]
    simp only [bind, Except.bind]
    cases broadcast (idx.map (fun k => (k % (cap : Int)).toNat)).length vals with
    | error e => rfl
    | ok vals' =>
      simp only
      rw [show (t.poke p v).arr = t.arr.set (2 ^ (t.height - 1) - 1 + p) v from rfl,
        show (t.poke p v).reducer = t.reducer from rfl, show (t.poke p v).height = t.height from rfl, writeAll_set v]
      · cases writeAll t.arr (((idx.map (fun k => (k % (cap : Int)).toNat)).map
            (fun k => 2 ^ (t.height - 1) - 1 + k % cap)).zip vals') with
        | error e => rfl
        | ok arr =>
          simp only [Except.map]
          rw [climb_set t.reducer v (t.height - 1) _ arr (fun k hk => by have := (hks k hk).1; omega)
            (Or.inr ⟨p, rfl, fun k hk => (hks k hk).2⟩)]
          cases climb t.reducer (t.height - 1) (2 ^ (t.height - 1) - 1)
            (idx.map (fun k => (k % (cap : Int)).toNat)) arr with
          | error e => rfl
          | ok arr' => rfl
      · intro q hq
        obtain ⟨k, hk, e⟩ := List.mem_map.1 (List.of_mem_zip hq).1
        have := hks k hk
        rw [Nat.mod_eq_of_lt this.1] at e
        intro e'
        apply this.2
        congr 1
        omega
  · have hv' : ¬ ∀ k ∈ (IdxArg.arr idx).toList cap, -(cap : Int) ≤ k ∧ k < cap := by simpa [IdxArg.toList] using hv
    rw [h.setValues_bad_idx hv']
    simp only [Tree.setValues, Tree.poke_checkIdx, h.checkIdx_err hv']
    rfl

theorem Inv.poke_values (h : Inv cap red init t) {p : Nat} (hp : p < cap) (v : α) :
    (t.poke p v).values = t.values.set p v := by
  have hl := h.values_length
  have hlen := h.len_eq
  have hcl := h.cap_le
  apply List.ext_getElem?
  intro q
  simp only [Tree.values, Tree.poke, List.getElem?_take, List.getElem?_drop, List.getElem?_set, h.cap_eq,
    List.length_take, List.length_drop]
  by_cases hq : q < cap
  · by_cases hpq : p = q
    · subst hpq
      simp only [if_pos hq]
      rw [if_pos trivial, if_pos trivial, if_pos (by omega), if_pos (by omega)]
    · rw [if_pos hq, if_neg (by omega), if_neg hpq, if_pos hq]
  · rw [if_neg hq, if_neg (by omega), if_neg hq]

theorem Inv.poke_root (h : Inv cap red init t) (hc : 2 ≤ cap) (p : Nat) (v : α) :
    (t.poke p v).rootValue = t.rootValue := by
  have hh : 2 ≤ 2 ^ (t.height - 1) := le_trans hc h.cap_le
  exact readAt_set v (by omega)

theorem Inv.checkLevel_last (h : Inv cap red init t) :
    t.checkLevelLookup (-1) = .ok (2 ^ (t.height - 1) - 1, cap) := by
  have hh := h.height_pos
  have e : ((-1 : Int) % t.height) = ((t.height : Int) - 1) % t.height := by
    rw [← Int.add_emod_right]; congr 1
  have := h.checkLevel
  simp only [Tree.checkLevelLookup] at this ⊢
  rw [if_pos (by omega)] at this ⊢
  rw [e]; exact this

/-- C141, writes through a view.  `tree.values[i] = v` and `tree[-1][i] = v` change that value and nothing else: the
root keeps the reduction of the old values. -/
theorem C141_view_write (hc : 2 ≤ cap) (hu : IsUnital red init) (h : Reachable cap red init t) {p : Nat} (hp : p < cap)
    {i : Int} (hd : denotes cap i p) (v : α) :
    ∃ t', t.writeView (-1) i v = .ok t' ∧ t'.values = t.values.set p v ∧
      t'.rootValue = .ok (reduce red init t.values) := by
  have hi := h.inv (by omega) (hu.unit_left init)
  have hh := hi.height_pos
  refine ⟨t.poke p v, ?_, hi.poke_values hp v, ?_⟩
  · have hlk := hi.checkLevel_last
    simp only [Tree.writeView, hlk, bind, Except.bind, position_ok hp hd]
    rfl
  · rw [hi.poke_root hc]
    exact C01_root_is_reduction (by omega) hu h

theorem run_poke {p : Nat} (v : α) (hp : p < cap) : ∀ (calls : List (Call α)) {t : Tree α}, Inv cap red init t →
    (∀ c ∈ calls, ∀ k ∈ c.idx.toList cap, ∀ q < cap, denotes cap k q → q / 2 ≠ p / 2) →
    run (t.poke p v) calls = (run t calls).poke p v
  | [], _, _, _ => rfl
  | c :: cs, t, h, hcs => by
    have hc := hcs c (by simp)
    obtain ⟨idx, vals⟩ := c
    cases idx with
    | all =>
      exact absurd rfl (hc (p : Int) (by simp [IdxArg.toList]; omega) p hp (Or.inl rfl))
    | arr idx =>
      have h1 := h.setValues_poke (idx := idx) v hc vals
      have h2 := h.step ⟨.arr idx, vals⟩
      have ih := fun t' ht' => run_poke v hp cs (t := t') ht' (fun c hc => hcs c (by simp [hc]))
      simp only [run, List.foldl_cons] at ih ⊢
      rw [h1]
      simp only at h2
      cases e : t.setValues (.arr idx) vals with
      | ok t' => rw [e] at h2; exact ih t' h2
      | error e' => rw [e] at h2; exact ih t h2

/-- The value at a position that no call touches stays. -/
theorem run_untouched {p : Nat} (hp : p < cap) : ∀ (calls : List (Call α)) {t : Tree α}, Inv cap red init t →
    (∀ c ∈ calls, ∀ k ∈ c.idx.toList cap, ¬ denotes cap k p) → (run t calls).values[p]? = t.values[p]?
  | [], _, _, _ => rfl
  | c :: cs, t, h, hcs => by
    have hc := hcs c (by simp)
    have h2 := h.step c
    have ih := fun t' ht' => run_untouched hp cs (t := t') ht' (fun c hc => hcs c (by simp [hc]))
    simp only [run, List.foldl_cons] at ih ⊢
    refine (ih _ h2).trans ?_
    by_cases hi : ∀ k ∈ c.idx.toList cap, -(cap : Int) ≤ k ∧ k < cap
    · cases hb : broadcast (c.idx.toList cap).length c.values with
      | ok vals' =>
        obtain ⟨t', e, _, _, hv⟩ := h.setValues_ok hi hb
        rw [e]
        simp only
        rw [hv p hp]
        have hnone : lastAssigned cap (c.idx.toList cap) vals' p = none := by
          unfold lastAssigned
          rw [List.filter_eq_nil_iff.2]
          · rfl
          · intro kv hkv
            have := hc kv.1 (List.of_mem_zip hkv).1
            simpa using this
        rw [hnone]; rfl
      | error e => rw [h.setValues_bad_shape hi hb]
    · rw [h.setValues_bad_idx hi]

/-- C141, the damage stays.  After `tree.values[p] = v`, no history of `set_values` calls that leaves `p` and its sibling
alone brings the root in line with the values: it is the reduction of the values with the *old* value at `p`. -/
theorem C141_view_write_stale (hc : 2 ≤ cap) (hu : IsUnital red init) (h : Reachable cap red init t) {p : Nat}
    (hp : p < cap) {i : Int} (hd : denotes cap i p) (v : α) {calls : List (Call α)}
    (hcs : ∀ c ∈ calls, ∀ k ∈ c.idx.toList cap, ∀ q < cap, denotes cap k q → q / 2 ≠ p / 2) :
    ∃ t' old, t.writeView (-1) i v = .ok t' ∧ t.values[p]? = some old ∧ (run t' calls).values[p]? = some v ∧
      (run t' calls).rootValue = .ok (reduce red init ((run t' calls).values.set p old)) := by
  have hi := h.inv (by omega) (hu.unit_left init)
  obtain ⟨t', e, hv, -⟩ := C141_view_write hc hu h hp hd v
  have hl := hi.values_length
  have hold : t.values[p]? = some t.values[p] := List.getElem?_eq_getElem (by omega)
  have ht' : t' = t.poke p v := by
    have hh := hi.height_pos
    have hlk := hi.checkLevel_last
    simp only [Tree.writeView, hlk, bind, Except.bind, position_ok hp hd] at e
    injection e with e
    exact e.symm
  have hrun := hi.run calls
  have hun := run_untouched hp calls hi (fun c hc k hk hd => hcs c hc k hk p hp hd rfl)
  have hl' := hrun.values_length
  refine ⟨t', t.values[p], e, hold, ?_, ?_⟩
  · rw [ht', run_poke v hp calls hi hcs, hrun.poke_values hp, List.getElem?_set_self (by omega)]
  · rw [ht', run_poke v hp calls hi hcs, hrun.poke_values hp, hrun.poke_root hc, List.set_set]
    have : (run t calls).values.set p t.values[p] = (run t calls).values := by
      rw [hold] at hun
      obtain ⟨h1, h2⟩ := List.getElem?_eq_some_iff.1 hun
      rw [← h2]; exact List.set_getElem_self h1
    rw [this]
    exact readAt_of_some (hrun.root hu)

theorem setValues_poke_covered (h : Inv cap red init t) {t₀ : Tree α} (h0 : t₀ = { t with arr := t₀.arr })
    (hlen : t₀.arr.length = t.arr.length) {idx : IdxArg}
    (hi : ∀ k ∈ idx.toList cap, -(cap : Int) ≤ k ∧ k < cap)
    (hsame : ∀ c, t₀.arr[c]? = t.arr[c]? ∨ ∃ p < cap, c = 2 ^ (t.height - 1) - 1 + p ∧ ∃ k ∈ idx.toList cap, denotes cap k p)
    (vals : List α) : t₀.setValues idx vals = t.setValues idx vals := by
  have hc := h.cap_pos
  have hcl := h.cap_le
  have hlen' := h.len_eq
  have hchk := h.checkIdx_ok hi
  have hchk' : t₀.checkIdx idx = t.checkIdx idx := by rw [h0]; rfl
  simp only [Tree.setValues, hchk', hchk]
  simp only [bind, Except.bind]
  cases hb : broadcast ((idx.toList cap).map (fun k => (k % (cap : Int)).toNat)).length vals with
  | error e => rfl
  | ok vals' =>
    simp only
    have hbl : vals'.length = (idx.toList cap).length := by
      unfold broadcast at hb
      split_ifs at hb with h1
      · injection hb with hb; rw [← hb, h1, List.length_map]
      · split at hb
        · injection hb with hb; rw [← hb]; simp
        · cases hb
    let ps := (((idx.toList cap).map (fun k => (k % (cap : Int)).toNat)).map
      (fun k => 2 ^ (t.height - 1) - 1 + k % cap)).zip vals'
    have hps : ∀ q ∈ ps, q.1 < t.arr.length := by
      intro q hq
      obtain ⟨k, hk, e⟩ := List.mem_map.1 (List.of_mem_zip hq).1
      obtain ⟨k', hk', rfl⟩ := List.mem_map.1 hk
      have := emod_toNat_lt hc k'
      rw [Nat.mod_eq_of_lt this] at e
      omega
    obtain ⟨a, ea, la, ra⟩ := writeAll_ok (arr := t.arr) (ps := ps) hps
    obtain ⟨b, eb, lb, rb⟩ := writeAll_ok (arr := t₀.arr) (ps := ps) (fun q hq => by rw [hlen]; exact hps q hq)
    have hab : a = b := by
      apply List.ext_getElem?
      intro c
      rw [ra, rb]
      rcases hsame c with hs | ⟨p, hp, rfl, k, hk, hd⟩
      · rw [hs]
      · have hl := lastW_leaf hc (2 ^ (t.height - 1) - 1) hi vals' hp
        have hne : lastAssigned cap (idx.toList cap) vals' p ≠ none := by
          unfold lastAssigned
          obtain ⟨n, hn, e⟩ := List.getElem_of_mem hk
          have hm : (k, vals'[n]) ∈ ((idx.toList cap).zip vals').filter (fun kv => decide (denotes cap kv.1 p)) := by
            rw [List.mem_filter]
            refine ⟨?_, by simpa using hd⟩
            rw [List.mem_iff_getElem]
            exact ⟨n, by simp; omega, by simp [e]⟩
          intro hnone
          rw [Option.map_eq_none_iff, List.getLast?_eq_none_iff] at hnone
          rw [hnone] at hm
          cases hm
        change (lastW ps _).or _ = (lastW ps _).or _
        obtain ⟨x, hx⟩ := Option.ne_none_iff_exists'.1 hne
        have hl' : lastW ps (2 ^ (t.height - 1) - 1 + p) = some x := hl.trans hx
        rw [hl']
        rfl
    simp only [ps] at ea eb
    rw [ea, eb, hab]
    rw [h0]

/-- Apply a list of assignments `tree.values[i] = v`; an assignment that raises is skipped. -/
def writeViews (t : Tree α) (ws : List (Int × α)) : Tree α :=
  ws.foldl (fun t w => match t.writeView (-1) w.1 w.2 with
    | .ok t' => t'
    | .error _ => t) t

/-- C141, repair.  Whatever was written through `values`, a `set_values` call whose indices include all the positions
written to has the same effect as on the tree without these writes; in particular the root agrees with the values
again. -/
theorem C141_view_write_repair (hc : 0 < cap) (hu : red init init = init) (h : Reachable cap red init t)
    (ws : List (Int × α)) {idx : IdxArg} (hi : ∀ k ∈ idx.toList cap, -(cap : Int) ≤ k ∧ k < cap)
    (hcov : ∀ w ∈ ws, ∀ p < cap, denotes cap w.1 p → ∃ k ∈ idx.toList cap, denotes cap k p) (vals : List α) :
    (writeViews t ws).setValues idx vals = t.setValues idx vals := by
  have hinv := h.inv hc hu
  have hh := hinv.height_pos
  have key : ∀ (ws : List (Int × α)) (t₁ : Tree α),
      (∀ w ∈ ws, ∀ p < cap, denotes cap w.1 p → ∃ k ∈ idx.toList cap, denotes cap k p) →
      t₁ = { t with arr := t₁.arr } → t₁.arr.length = t.arr.length →
      (∀ c, t₁.arr[c]? = t.arr[c]? ∨ ∃ p < cap, c = 2 ^ (t.height - 1) - 1 + p ∧ ∃ k ∈ idx.toList cap, denotes cap k p) →
      (writeViews t₁ ws).setValues idx vals = t.setValues idx vals := by
    intro ws
    induction ws with
    | nil => intro t₁ _ h1 h2 h3; exact setValues_poke_covered hinv h1 h2 hi h3 vals
    | cons w ws ih =>
      intro t₁ hcov h1 h2 h3
      simp only [writeViews, List.foldl_cons] at ih ⊢
      have hcov' := fun w' hw' => hcov w' (List.mem_cons_of_mem _ hw')
      have hlk : t₁.checkLevelLookup (-1) = .ok (2 ^ (t.height - 1) - 1, cap) := by
        rw [h1]; exact hinv.checkLevel_last
      by_cases hex : ∃ p < cap, denotes cap w.1 p
      · obtain ⟨p, hp, hd⟩ := hex
        have ew : t₁.writeView (-1) w.1 w.2 = .ok { t₁ with arr := t₁.arr.set (2 ^ (t.height - 1) - 1 + p) w.2 } := by
          simp only [Tree.writeView, hlk, bind, Except.bind, position_ok hp hd]
          rfl
        rw [ew]
        apply ih _ hcov'
        · rw [h1]
        · simpa using h2
        · intro c
          by_cases e : c = 2 ^ (t.height - 1) - 1 + p
          · right
            exact ⟨p, hp, e, hcov w (by simp) p hp hd⟩
          · have := h3 c
            simp only
            rw [List.getElem?_set_ne (fun e' => e e'.symm)]
            exact this
      · have ew : t₁.writeView (-1) w.1 w.2 = .error .indexError := by
          simp only [Tree.writeView, hlk, bind, Except.bind, position_err (fun p hp hd => hex ⟨p, hp, hd⟩)]
        rw [ew]
        exact ih _ hcov' h1 h2 h3
  exact key ws t hcov rfl rfl (fun c => Or.inl rfl)

theorem five_levels {x : List Int} (hx : x.length = 15) {t₀ : Tree Int} (h0 : t₀ = ⟨5, (· + ·), 0, 4, x⟩) (v : Int)
    (a b c d e : Int) : ∃ t' t'', t₀.writeView 2 3 v = .ok t' ∧ t'.setValues .all [a, b, c, d, e] = .ok t'' ∧
      t''.values = [a, b, c, d, e] ∧ t''.rootValue = .ok (a + b + (c + d) + (e + x[12]'(by omega) + v)) := by
  match x, hx with
  | [x0, x1, x2, x3, x4, x5, x6, x7, x8, x9, x10, x11, x12, x13, x14], _ =>
    subst h0
    have u1 : unique [0, 0, 1, 1, 2] = [0, 1, 2] := by decide
    have u2 : unique [0, 0, 1] = [0, 1] := by decide
    have u3 : unique [0, 0] = [0] := by decide
    exact ⟨⟨5, (· + ·), 0, 4, [x0, x1, x2, x3, x4, x5, v, x7, x8, x9, x10, x11, x12, x13, x14]⟩,
      ⟨5, (· + ·), 0, 4, [a + b + (c + d) + (e + x12 + v), a + b + (c + d), e + x12 + v, a + b, c + d, e + x12, v,
        a, b, c, d, e, x12, x13, x14]⟩, rfl, by
        simp [Tree.setValues, Tree.checkIdx, Tree.checkLevelLookup, broadcast, writeAll, climb, readAt, u1, u2, u3,
          List.range_succ, bind, Except.bind, pure, Except.pure], rfl, rfl⟩

/-- C141, no repair.  A write through the view of an *inner* level can hit a node that no value lies below: in a sum
tree for five values, rewriting all values after `tree[2][3] = v` leaves the root too large by `v`. -/
theorem C141_inner_view_write {t : Tree Int} (h : Reachable 5 (· + ·) 0 t) (v : Int) {vals : List Int}
    (hlen : vals.length = 5) :
    ∃ t' t'', t.writeView 2 3 v = .ok t' ∧ t'.setValues .all vals = .ok t'' ∧ t''.values = vals ∧
      t''.rootValue = .ok (vals.sum + v) := by
  have hi := h.inv (by omega) (by simp)
  have hh : t.height = 4 := by rw [hi.height_eq]; rfl
  have hl : t.arr.length = 15 := by rw [hi.len, hh]; rfl
  have hpad : t.arr[12]'(by omega) = 0 := by
    have := hi.pad 5 (by omega) (by rw [hh]; norm_num)
    rw [hh] at this
    exact (List.getElem?_eq_some_iff.1 this).2
  have ht : t = ⟨5, (· + ·), 0, 4, t.arr⟩ := by
    have h1 := hi.cap_eq
    have h2 := hi.red_eq
    have h3 := hi.init_eq
    obtain ⟨_, _, _, _, _⟩ := t
    simp only at h1 h2 h3 hh
    subst h1 h2 h3 hh
    rfl
  match vals, hlen with
  | [a, b, c, d, e], _ =>
    obtain ⟨t', t'', h1, h2, h3, h4⟩ := five_levels hl ht v a b c d e
    refine ⟨t', t'', h1, h2, h3, h4.trans ?_⟩
    rw [hpad]
    simp only [List.sum_cons, List.sum_nil]
    congr 1
    ring

/-- The theorems on a sum tree for six values: lookups with negative levels and indices, a write through `values` that
later calls do not notice, and its repair. -/
example : ∃ t : Tree Int, Reachable 6 (· + ·) 0 t ∧ IsUnital (α := Int) (· + ·) 0 ∧ t.values = [1, 2, 3, 4, 5, 6] ∧
    t.getItem (.int 1) = .ok (.arr [10, 11]) ∧ t.getItem (.int (-2)) = .ok (.arr [3, 7, 11, 0]) ∧
    t.getItem (.two (.int 2) (.int (-2))) = .ok (.scalar 11) ∧
    (∃ t', t.writeView (-1) 4 50 = .ok t' ∧ t'.rootValue = .ok 21 ∧
      (run t' [⟨.arr [0, -3], [7, 8]⟩]).values = [7, 2, 3, 8, 50, 6] ∧
      (run t' [⟨.arr [0, -3], [7, 8]⟩]).rootValue = .ok 31 ∧
      (run t' [⟨.arr [4], [50]⟩]).rootValue = .ok 66) :=
  ⟨run (Tree.init 6 (· + ·) 0) [⟨.all, [1, 2, 3, 4, 5, 6]⟩], ⟨_, rfl⟩,
    ⟨fun a b c => by ring, fun a => by simp, fun a => by simp⟩, by decide +kernel, by rfl, by rfl, by rfl,
    ⟨_, rfl, by decide +kernel, by decide +kernel, by decide +kernel, by decide +kernel⟩⟩

end Coax.SegmentTree
