import Verif.SegmentTree.Spec
import Mathlib.Tactic.Ring
import Mathlib.Tactic.Linarith

/-! Lemmas about the segment-tree model: array writes, the repair loop, and node values. -/

namespace Coax.SegmentTree

variable {α : Type _}

theorem readAt_of_some {arr : List α} {k : Nat} {v : α} (h : arr[k]? = some v) : readAt arr k = .ok v := by
  simp [readAt, h]

theorem mapM_readAt {arr : List α} {f : Nat → α} : ∀ {ks : List Nat}, (∀ k ∈ ks, arr[k]? = some (f k)) →
    ks.mapM (readAt arr) = .ok (ks.map f)
  | [], _ => rfl
  | k :: ks, h => by
    have h1 : readAt arr k = .ok (f k) := readAt_of_some (h k (by simp))
    have h2 := mapM_readAt (arr := arr) (f := f) (ks := ks) (fun k' hk' => h k' (by simp [hk']))
    simp [List.mapM_cons, h1, h2]
    rfl

/-- Last value assigned to position `k`. -/
def lastW (ps : List (Nat × α)) (k : Nat) : Option α :=
  ((ps.filter (fun p => decide (p.1 = k))).getLast?).map (·.2)

theorem lastW_nil (k : Nat) : lastW ([] : List (Nat × α)) k = none := rfl

theorem lastW_cons (k₀ : Nat) (v : α) (ps : List (Nat × α)) (k : Nat) :
    lastW ((k₀, v) :: ps) k = (lastW ps k).or (if k₀ = k then some v else none) := by
  unfold lastW
  by_cases h : k₀ = k
  · simp only [List.filter_cons, h, decide_true, if_true, List.getLast?_cons]
    cases ((ps.filter (fun p => decide (p.1 = k))).getLast?) <;> simp
  · simp [h]

theorem lastW_none {ps : List (Nat × α)} {k : Nat} (h : ∀ p ∈ ps, p.1 ≠ k) : lastW ps k = none := by
  induction ps with
  | nil => rfl
  | cons p ps ih =>
    obtain ⟨k₀, v⟩ := p
    have := h (k₀, v) (by simp)
    rw [lastW_cons, ih (fun p hp => h p (by simp [hp]))]
    simp at this; simp [this]

/-- Successful fancy assignment. -/
theorem writeAll_ok : ∀ {arr : List α} {ps : List (Nat × α)}, (∀ p ∈ ps, p.1 < arr.length) →
    ∃ arr', writeAll arr ps = .ok arr' ∧ arr'.length = arr.length ∧
      (∀ k, arr'[k]? = (lastW ps k).or arr[k]?)
  | arr, [], _ => ⟨arr, rfl, rfl, fun k => by simp [lastW_nil]⟩
  | arr, (k₀, v) :: ps, h => by
    have h0 : k₀ < arr.length := h (k₀, v) (by simp)
    obtain ⟨arr', e, hl, hr⟩ := writeAll_ok (arr := arr.set k₀ v) (ps := ps)
      (fun p hp => by simpa using h p (by simp [hp]))
    refine ⟨arr', by simp [writeAll, h0, e], by simpa using hl, fun k => ?_⟩
    rw [hr, lastW_cons, List.getElem?_set]
    by_cases hk : k₀ = k
    · subst hk; cases lastW ps k₀ <;> simp [h0]
    · cases lastW ps k <;> simp [hk]

theorem mem_unique {l : List Nat} {k : Nat} : k ∈ unique l ↔ k ∈ l := by
  simp [unique]

theorem nodup_unique (l : List Nat) : (unique l).Nodup := by
  unfold unique
  exact (List.perm_insertionSort _ _).nodup_iff.2 (List.nodup_dedup l)

theorem lastW_zip_map {ks : List Nat} (hn : ks.Nodup) (off : Nat) (f : Nat → α) (k : Nat) :
    lastW ((ks.map (fun k => off + k)).zip (ks.map f)) (off + k) = if k ∈ ks then some (f k) else none := by
  induction ks with
  | nil => simp [lastW]
  | cons k₀ ks ih =>
    simp only [List.nodup_cons] at hn
    simp only [List.map_cons, List.zip_cons_cons, lastW_cons, ih hn.2]
    by_cases h : k₀ = k
    · subst h; simp [hn.1]
    · have h' : ¬ k = k₀ := fun e => h e.symm
      by_cases hk : k ∈ ks <;> simp [h, h', hk]

/-- Node `k` of level `lev` is the reduction of its children. -/
def NodeOk (red : α → α → α) (arr : List α) (lev k : Nat) : Prop :=
  ∃ l r, arr[2 ^ (lev + 1) - 1 + 2 * k]? = some l ∧ arr[2 ^ (lev + 1) - 1 + 2 * k + 1]? = some r ∧
    arr[2 ^ lev - 1 + k]? = some (red l r)

theorem node_lt {h lev k : Nat} (hl : lev < h) (hk : k < 2 ^ lev) : 2 ^ lev - 1 + k < 2 ^ h - 1 := by
  have : 2 ^ (lev + 1) ≤ 2 ^ h := Nat.pow_le_pow_right (by omega) hl
  have : 0 < 2 ^ lev := Nat.two_pow_pos lev
  rw [Nat.pow_succ] at *
  omega

/-- The repair loop of `set_values`: if only ancestors of `idx` can be out of date, it repairs all of them, succeeds,
and leaves the levels from `lev` downwards alone. -/
theorem climb_ok (red : α → α → α) (h : Nat) : ∀ (lev : Nat) (idx : List Nat) (arr : List α),
    lev < h → arr.length = 2 ^ h - 1 → (∀ k ∈ idx, k < 2 ^ lev) →
    (∀ l, lev ≤ l → l + 1 < h → ∀ k, k < 2 ^ l → NodeOk red arr l k) →
    (∀ l, l < lev → ∀ k, k < 2 ^ l → (∀ i ∈ idx, i / 2 ^ (lev - l) ≠ k) → NodeOk red arr l k) →
    ∃ arr', climb red lev (2 ^ lev - 1) idx arr = .ok arr' ∧ arr'.length = arr.length ∧
      (∀ c, 2 ^ lev - 1 ≤ c → arr'[c]? = arr[c]?) ∧
      (∀ l, l + 1 < h → ∀ k, k < 2 ^ l → NodeOk red arr' l k)
  | 0, idx, arr, hlev, hlen, hidx, hlow, hup =>
    ⟨arr, rfl, rfl, fun _ _ => rfl, fun l hl k hk => hlow l (by omega) hl k hk⟩
  | lev + 1, idx, arr, hlev, hlen, hidx, hlow, hup => by
    let idx' := unique (idx.map (· / 2))
    have hidx' : ∀ k ∈ idx', k < 2 ^ lev := by
      intro k hk
      simp only [idx', mem_unique, List.mem_map] at hk
      obtain ⟨i, hi, rfl⟩ := hk
      have := hidx i hi
      rw [Nat.pow_succ] at this
      omega
    have hmem : ∀ k, k ∈ idx' ↔ ∃ i ∈ idx, i / 2 = k := by
      intro k; simp [idx', mem_unique]
    have hlenpos : 0 < arr.length := by
      rw [hlen]
      have : 2 ^ (0 + 1) < 2 ^ h + 1 := by
        have := Nat.pow_le_pow_right (n := 2) (by omega) (show 0 + 1 ≤ h by omega)
        omega
      simp at this; omega
    let d : α := arr[0]
    let f : Nat → α := fun c => arr[c]?.getD d
    have hread : ∀ c, c < 2 ^ h - 1 → arr[c]? = some (f c) := by
      intro c hc
      have : c < arr.length := by omega
      simp [f, List.getElem?_eq_getElem this]
    have hchild : ∀ k ∈ idx', 2 ^ (lev + 1) - 1 + 2 * k + 1 < 2 ^ h - 1 := by
      intro k hk
      have := hidx' k hk
      have h2 : 2 * k + 1 < 2 ^ (lev + 1) := by rw [Nat.pow_succ]; omega
      have := node_lt hlev h2
      omega
    have el : (idx'.map (fun k => 2 ^ (lev + 1) - 1 + 2 * k)).mapM (readAt arr)
        = .ok ((idx'.map (fun k => 2 ^ (lev + 1) - 1 + 2 * k)).map f) := by
      apply mapM_readAt
      intro c hc
      simp only [List.mem_map] at hc
      obtain ⟨k, hk, rfl⟩ := hc
      have := hchild k hk
      exact hread _ (by omega)
    have er : ((idx'.map (fun k => 2 ^ (lev + 1) - 1 + 2 * k)).map (· + 1)).mapM (readAt arr)
        = .ok (((idx'.map (fun k => 2 ^ (lev + 1) - 1 + 2 * k)).map (· + 1)).map f) := by
      apply mapM_readAt
      intro c hc
      simp only [List.mem_map] at hc
      obtain ⟨_, ⟨k, hk, rfl⟩, rfl⟩ := hc
      have := hchild k hk
      exact hread _ (by omega)
    let g : Nat → α := fun k => red (f (2 ^ (lev + 1) - 1 + 2 * k)) (f (2 ^ (lev + 1) - 1 + 2 * k + 1))
    have ezip : List.zipWith red ((idx'.map (fun k => 2 ^ (lev + 1) - 1 + 2 * k)).map f)
        (((idx'.map (fun k => 2 ^ (lev + 1) - 1 + 2 * k)).map (· + 1)).map f) = idx'.map g := by
      simp only [List.map_map, List.zipWith_map_left, List.zipWith_map_right, List.zipWith_self]
      rfl
    have hparent : ∀ k, k < 2 ^ lev → 2 ^ lev - 1 + k < 2 ^ (lev + 1) - 1 := fun k hk => node_lt (by omega) hk
    obtain ⟨arr₁, e1, hl1, hr1⟩ := writeAll_ok (arr := arr)
      (ps := (idx'.map (fun k => 2 ^ lev - 1 + k)).zip (idx'.map g)) (by
        intro p hp
        have := List.of_mem_zip hp
        simp only [List.mem_map] at this
        obtain ⟨⟨k, hk, hk'⟩, _⟩ := this
        rw [← hk', hlen]
        exact node_lt (by omega) (hidx' k hk))
    -- values after the write
    have hw : ∀ k, k < 2 ^ lev → arr₁[2 ^ lev - 1 + k]? =
        if k ∈ idx' then some (g k) else arr[2 ^ lev - 1 + k]? := by
      intro k _
      rw [hr1, lastW_zip_map (nodup_unique _)]
      by_cases hk : k ∈ idx'
      · simp only [idx'] at hk; simp [hk, idx']
      · simp only [idx'] at hk; simp [hk, idx']
    have hsame : ∀ c, (c < 2 ^ lev - 1 ∨ 2 ^ (lev + 1) - 1 ≤ c) → arr₁[c]? = arr[c]? := by
      intro c hc
      rw [hr1, lastW_none]
      · simp
      · intro p hp
        have := List.of_mem_zip hp
        simp only [List.mem_map] at this
        obtain ⟨⟨k, hk, hk'⟩, _⟩ := this
        have := hparent k (hidx' k hk)
        omega
    have hdiv : ∀ l, l < lev → ∀ i, i / 2 ^ (lev + 1 - l) = i / 2 / 2 ^ (lev - l) := by
      intro l hl i
      rw [Nat.div_div_eq_div_mul, ← Nat.pow_succ']
      congr 2; omega
    -- children offsets of a level above `lev`
    have hoff : ∀ l k, k < 2 ^ l → 2 ^ (l + 1) - 1 + 2 * k + 1 < 2 ^ (l + 2) - 1 := by
      intro l k hk
      have : 2 * k + 1 < 2 ^ (l + 1) := by rw [Nat.pow_succ]; omega
      have := node_lt (h := l + 2) (lev := l + 1) (by omega) this
      omega
    obtain ⟨arr', e2, hl2, hleaf2, hok2⟩ := climb_ok red h lev idx' arr₁ (by omega) (by omega) hidx'
      (by
        intro l hl hlh k hk
        rcases Nat.eq_or_lt_of_le hl with rfl | hl
        · -- the level just written
          by_cases hmk : k ∈ idx'
          · refine ⟨f (2 ^ (lev + 1) - 1 + 2 * k), f (2 ^ (lev + 1) - 1 + 2 * k + 1), ?_, ?_, ?_⟩
            · rw [hsame _ (by omega)]; have := hchild k hmk; exact hread _ (by omega)
            · rw [hsame _ (by omega)]; have := hchild k hmk; exact hread _ (by omega)
            · rw [hw k hk]; simp [hmk, g]
          · obtain ⟨a, b, ha, hb, hab⟩ := hup lev (by omega) k hk (by
              intro i hi e
              apply hmk
              rw [hmem]
              refine ⟨i, hi, ?_⟩
              simpa using e)
            refine ⟨a, b, ?_, ?_, ?_⟩
            · rw [hsame _ (by omega)]; exact ha
            · rw [hsame _ (by omega)]; exact hb
            · rw [hw k hk]; simp [hmk, hab]
        · obtain ⟨a, b, ha, hb, hab⟩ := hlow l (by omega) hlh k hk
          have hp : 2 ^ (lev + 1) ≤ 2 ^ l := Nat.pow_le_pow_right (by omega) hl
          have hp2 : 2 ^ l ≤ 2 ^ (l + 1) := Nat.pow_le_pow_right (by omega) (by omega)
          refine ⟨a, b, ?_, ?_, ?_⟩
          · rw [hsame _ (by omega)]; exact ha
          · rw [hsame _ (by omega)]; exact hb
          · rw [hsame _ (by omega)]; exact hab)
      (by
        intro l hl k hk hne
        obtain ⟨a, b, ha, hb, hab⟩ := hup l (by omega) k hk (by
          intro i hi e
          rw [hdiv l hl] at e
          exact hne (i / 2) ((hmem _).2 ⟨i, hi, rfl⟩) e)
        have hpar : 2 ^ l - 1 + k < 2 ^ lev - 1 := node_lt hl hk
        by_cases hl1 : l + 1 = lev
        · subst hl1
          have h0 : 2 * k < 2 ^ (l + 1) := by rw [Nat.pow_succ]; omega
          have h1 : 2 * k + 1 < 2 ^ (l + 1) := by rw [Nat.pow_succ]; omega
          have hn0 : 2 * k ∉ idx' := by
            intro hm
            exact hne _ hm (by
              have : l + 1 - l = 1 := by omega
              rw [this]; omega)
          have hn1 : 2 * k + 1 ∉ idx' := by
            intro hm
            exact hne _ hm (by
              have : l + 1 - l = 1 := by omega
              rw [this]; omega)
          refine ⟨a, b, ?_, ?_, ?_⟩
          · rw [hw _ h0]; simp [hn0, ha]
          · have := hw _ h1
            rw [Nat.add_assoc, this]; simp [hn1]
            rw [← Nat.add_assoc]; exact hb
          · rw [hsame _ (by omega)]; exact hab
        · have := hoff l k hk
          have hp2 : 2 ^ (l + 2) ≤ 2 ^ lev := Nat.pow_le_pow_right (by omega) (by omega)
          refine ⟨a, b, ?_, ?_, ?_⟩
          · rw [hsame _ (by omega)]; exact ha
          · rw [hsame _ (by omega)]; exact hb
          · rw [hsame _ (by omega)]; exact hab)
    refine ⟨arr', ?_, by omega, ?_, hok2⟩
    · simp only [climb]
      change (do
        let l ← (idx'.map (fun k => 2 ^ (lev + 1) - 1 + 2 * k)).mapM (readAt arr)
        let r ← ((idx'.map (fun k => 2 ^ (lev + 1) - 1 + 2 * k)).map (· + 1)).mapM (readAt arr)
        let arr ← writeAll arr ((idx'.map (fun k => 2 ^ lev - 1 + k)).zip (List.zipWith red l r))
        climb red lev (2 ^ lev - 1) idx' arr) = _
      rw [el, er]
      change (do
        let arr ← writeAll arr ((idx'.map (fun k => 2 ^ lev - 1 + k)).zip (List.zipWith red _ _))
        climb red lev (2 ^ lev - 1) idx' arr) = _
      rw [ezip, e1]
      exact e2
    · intro c hc
      have : 2 ^ lev ≤ 2 ^ (lev + 1) := Nat.pow_le_pow_right (by omega) (by omega)
      rw [hleaf2 c (by omega), hsame c (by omega)]

end Coax.SegmentTree
