import Verif.Replay.PrioritizedSpec
import Verif.Replay.SimpleLemmas
import Verif.SegmentTree.InverseCdf

namespace Coax.Replay

open Coax.SegmentTree (readAt writeAll lastW lastW_none lastW_nil lastW_cons writeAll_ok lastAssigned denotes Inv IdxArg
  readAt_of_some unital_add mapM_ok mapM_error broadcast Reachable)

variable {σ : Type _}

theorem mod_ne {cap i j : Nat} (h1 : i < j) (h2 : j < i + cap) : i % cap ≠ j % cap := by
  intro h
  have h3 := Nat.sub_mod_eq_zero_of_mod_eq h.symm
  have h4 := Nat.le_of_dvd (by omega) (Nat.dvd_of_mod_eq_zero h3)
  omega

theorem slot_live {cap L p : Nat} (hc : 0 < cap) (hp : p < cap) (hL : p < L) :
    ∃ i, i < L ∧ L ≤ i + cap ∧ i % cap = p := by
  refine ⟨p + cap * ((L - 1 - p) / cap), ?_, ?_, ?_⟩
  · have := Nat.mul_div_le (L - 1 - p) cap
    omega
  · have h1 := Nat.div_add_mod (L - 1 - p) cap
    have h2 := Nat.mod_lt (L - 1 - p) hc
    omega
  · rw [Nat.add_mul_mod_self_left, Nat.mod_eq_of_lt hp]

theorem live_unique {cap L i j : Nat} (hi : i < L) (hi2 : L ≤ i + cap) (hj : j < L) (hj2 : L ≤ j + cap)
    (h : i % cap = j % cap) : i = j := by
  rcases Nat.lt_trichotomy i j with hlt | he | hlt
  · exact absurd h (mod_ne hlt (by omega))
  · exact he
  · exact absurd h.symm (mod_ne hlt (by omega))

theorem lastW_snoc {β : Type _} (ps : List (Nat × β)) (q : Nat × β) (k : Nat) :
    lastW (ps ++ [q]) k = if q.1 = k then some q.2 else lastW ps k := by
  unfold lastW
  rw [List.filter_append]
  by_cases h : q.1 = k <;> simp [h]

/-- Keys of consecutive identifiers, wrapped around. -/
def wrapKeys (cap k n : Nat) : List Nat := ((List.range n).map (fun i => k + i)).map (fun i => i % cap)

theorem wrapKeys_succ (cap k n : Nat) : wrapKeys cap k (n + 1) = wrapKeys cap k n ++ [(k + n) % cap] := by
  simp [wrapKeys, List.range_succ]

theorem wrapKeys_length (cap k n : Nat) : (wrapKeys cap k n).length = n := by simp [wrapKeys]

theorem lastW_wrap_new {β : Type _} {cap k : Nat} (vals : List β) : ∀ i, k ≤ i → i < k + vals.length →
    k + vals.length ≤ i + cap → lastW ((wrapKeys cap k vals.length).zip vals) (i % cap) = vals[i - k]? := by
  induction vals using List.reverseRecOn with
  | nil => intro i h1 h2; simp at h2; omega
  | append_singleton vs v ih =>
    intro i h1 h2 h3
    simp only [List.length_append, List.length_singleton] at h2 h3 ⊢
    rw [wrapKeys_succ, List.zip_append (by rw [wrapKeys_length]), List.zip_cons_cons, List.zip_nil_left, lastW_snoc]
    by_cases hi : i = k + vs.length
    · subst hi; simp
    · rw [if_neg (fun h => mod_ne (show i < k + vs.length by omega) (by omega) h.symm), ih i h1 (by omega) (by omega),
        List.getElem?_append_left (by omega)]

theorem lastW_wrap_none {β : Type _} {cap k : Nat} (vals : List β) {p : Nat}
    (h : ∀ j, j < vals.length → (k + j) % cap ≠ p) : lastW ((wrapKeys cap k vals.length).zip vals) p = none := by
  apply lastW_none
  rintro ⟨q, v⟩ hq
  have := (List.of_mem_zip hq).1
  simp only [wrapKeys, List.map_map, List.mem_map, List.mem_range] at this
  obtain ⟨j, hj, rfl⟩ := this
  exact h j hj

theorem lastAssigned_nat {β : Type _} {cap : Nat} (slots : List Nat) (vals : List β) {p : Nat} (hp : p < cap) :
    lastAssigned cap (slots.map (fun (q : Nat) => (q : Int))) vals p = lastW (slots.zip vals) p := by
  unfold lastAssigned lastW
  have : ∀ (slots : List Nat) (vals : List β),
      ((slots.map (fun (q : Nat) => (q : Int))).zip vals).filter (fun kv => decide (denotes cap kv.1 p)) =
      ((slots.zip vals).filter (fun q => decide (q.1 = p))).map (fun q => ((q.1 : Int), q.2)) := by
    intro slots
    induction slots with
    | nil => simp
    | cons q slots ih =>
      intro vals
      cases vals with
      | nil => simp
      | cons v vals =>
        simp only [List.map_cons, List.zip_cons_cons, List.filter_cons, ih]
        have : denotes cap (q : Int) p ↔ q = p := by unfold denotes; omega
        by_cases hq : q = p
        · simp [this, hq, show denotes cap (p : Int) p from .inl rfl]
        · simp [this, hq]
  rw [this, List.getLast?_map, Option.map_map]
  rfl

theorem reachable_step {β : Type _} {cap : Nat} {red : β → β → β} {init : β} {t t' : SegmentTree.Tree β}
    (h : Reachable cap red init t) {idx : IdxArg} {vals : List β} (e : t.setValues idx vals = .ok t') :
    Reachable cap red init t' := by
  obtain ⟨calls, rfl⟩ := h
  refine ⟨calls ++ [⟨idx, vals⟩], ?_⟩
  simp only [SegmentTree.run, List.foldl_append, List.foldl_cons, List.foldl_nil] at e ⊢
  rw [e]

/-- The invariant relating the buffer and its specification. -/
structure PHolds (cap : Nat) (s : PSys σ) (sp : PSpec σ) : Prop where
  cap_pos : 0 < cap
  cap_eq : s.buf.capacity = cap
  alpha_eq : s.buf.alpha = sp.alpha
  beta_eq : s.buf.beta = sp.beta
  eps_eq : s.buf.epsilon = sp.epsilon
  alpha_pos : 0 < sp.alpha
  beta_pos : 0 < sp.beta
  eps_pos : 0 < sp.epsilon
  base_len : sp.base.length = sp.log.length
  base_pos : ∀ x ∈ sp.base, 0 < x
  index : s.buf.index = sp.log.length
  st_len : s.buf.storage.length = cap
  full : ∀ i, i < sp.log.length → sp.log.length ≤ i + cap → ∃ r row, s.buf.storage[i % cap]? = some (some r) ∧
    sp.log[i]? = some row ∧ s.heap[r]? = some ⟨[row], [i]⟩
  empty : ∀ p, p < cap → sp.log.length ≤ p → s.buf.storage[p]? = some none
  tree : Inv cap (· + ·) 0 s.buf.tree
  reach : Reachable cap (· + ·) 0 s.buf.tree
  vals : ∀ i, i < sp.log.length → sp.log.length ≤ i + cap → ∃ x, sp.base[i]? = some x ∧
    s.buf.tree.values[i % cap]? = some (x ^ sp.alpha)
  zeros : ∀ p, p < cap → sp.log.length ≤ p → s.buf.tree.values[p]? = some 0
  tame_eq : sp.tame → sp.doc = sp.base

theorem PHolds.init {cap : Nat} {heap : Heap (Row σ)} {a b e : ℝ} {s : PSys σ} (h : PSys.init heap cap a b e = .ok s) :
    PHolds cap s ⟨[], [], [], True, a, b, e⟩ := by
  unfold PSys.init at h
  by_cases hc : 0 < (cap : Int) ∧ 0 < a ∧ 0 < b ∧ 0 < e
  · rw [if_pos hc] at h
    cases h
    have hinv : Inv cap (· + ·) (0 : ℝ) (SegmentTree.Tree.initSum cap) :=
      SegmentTree.inv_init (by omega) (add_zero 0)
    refine ⟨by omega, rfl, rfl, rfl, rfl, hc.2.1, hc.2.2.1, hc.2.2.2, rfl, by simp, rfl, by simp [PBuf.clear], ?_, ?_, hinv, ⟨[], rfl⟩, ?_, ?_, fun _ => rfl⟩
    · intro i hi; simp at hi
    · intro p hp _; simp [PBuf.clear, List.getElem?_replicate, hp]
    · intro i hi; simp at hi
    · intro p hp _
      change (SegmentTree.Tree.initSum cap).values[p]? = _
      rw [hinv.values_get hp]
      have := hinv.cap_le
      have h2 := hinv.len_eq
      have hlt : 2 ^ ((SegmentTree.Tree.initSum cap : SegmentTree.Tree ℝ).height - 1) - 1 + p <
        (SegmentTree.Tree.initSum cap : SegmentTree.Tree ℝ).arr.length := by omega
      rw [List.getElem?_eq_getElem hlt]
      simp [SegmentTree.Tree.initSum, SegmentTree.Tree.init]
  · rw [if_neg hc] at h; cases h

/-- References in the storage are to live single objects. -/
theorem PHolds.ref {cap : Nat} {s : PSys σ} {sp : PSpec σ} (h : PHolds cap s sp) {r : Ref}
    (hr : some r ∈ s.buf.storage) : ∃ row i, s.heap[r]? = some ⟨[row], [i]⟩ := by
  obtain ⟨p, hp, e⟩ := List.getElem_of_mem hr
  have hpc : p < cap := by rw [← h.st_len]; exact hp
  have hget : s.buf.storage[p]? = some (some r) := by rw [List.getElem?_eq_getElem hp, e]
  by_cases hL : p < sp.log.length
  · obtain ⟨i, h1, h2, rfl⟩ := slot_live h.cap_pos hpc hL
    obtain ⟨r', row, e1, _, e3⟩ := h.full i h1 h2
    rw [hget] at e1
    cases e1
    exact ⟨row, i, e3⟩
  · rw [h.empty p hpc (by omega)] at hget
    cases hget

/-- Changing the heap outside the stored references keeps the invariant. -/
theorem PHolds.heap {cap : Nat} {s : PSys σ} {sp : PSpec σ} (h : PHolds cap s sp) {heap : Heap (Row σ)}
    (hh : ∀ r, some r ∈ s.buf.storage → heap[r]? = s.heap[r]?) : PHolds cap { s with heap := heap } sp := by
  refine { h with full := ?_ }
  intro i h1 h2
  obtain ⟨r, row, e1, e2, e3⟩ := h.full i h1 h2
  exact ⟨r, row, e1, e2, by rw [← e3]; exact hh r (List.mem_of_getElem? e1)⟩

theorem PHolds.new {cap : Nat} {s : PSys σ} {sp : PSpec σ} (h : PHolds cap s sp) (o : Obj (Row σ)) :
    PHolds cap { s with heap := s.heap ++ [o] } sp := by
  apply h.heap
  intro r hr
  obtain ⟨row, i, e⟩ := h.ref hr
  exact List.getElem?_append_left (List.getElem?_eq_some_iff.1 e).1

theorem PHolds.setIdx {cap : Nat} {s : PSys σ} {sp : PSpec σ} (h : PHolds cap s sp) {r : Ref} {o : Obj (Row σ)}
    (ho : s.heap[r]? = some o) (hf : o.rows.length = 1 → some r ∉ s.buf.storage) (o' : Obj (Row σ)) :
    ∀ x, some x ∈ s.buf.storage → (s.heap.set r o')[x]? = s.heap[x]? := by
  intro x hx
  obtain ⟨row, i, e⟩ := h.ref hx
  by_cases hxr : x = r
  · subst hxr
    rw [ho] at e
    cases e
    exact absurd hx (hf rfl)
  · exact List.getElem?_set_ne (Ne.symm hxr)

theorem PHolds.addRejected {cap : Nat} {s : PSys σ} {sp : PSpec σ} (h : PHolds cap s sp) {r : Ref} {Adv : List ℝ}
    (hr : ∀ o, s.heap[r]? = some o → (o.rows.length = 1 → some r ∉ s.buf.storage) ∧ Adv.length ≠ o.rows.length) :
    PHolds cap (s.add r Adv).1 sp ∧
      ((s.heap[r]? = none ∧ (s.add r Adv).2 = some .typeError) ∨ (s.add r Adv).2 = some .assertionError) := by
  unfold PSys.add
  cases ho : s.heap[r]? with
  | none => exact ⟨h, .inl ⟨rfl, rfl⟩⟩
  | some o =>
    obtain ⟨h1, h2⟩ := hr o ho
    simp only [List.length_map, List.length_range, Obj.batchSize]
    rw [if_pos h2]
    exact ⟨h.heap (h.setIdx ho h1 _), .inr rfl⟩

theorem PHolds.add {cap : Nat} {s : PSys σ} {sp : PSpec σ} (h : PHolds cap s sp) {r : Ref} {o : Obj (Row σ)}
    {Adv : List ℝ} (ho : s.heap[r]? = some o) (hf : o.rows.length = 1 → some r ∉ s.buf.storage)
    (hlen : Adv.length = o.rows.length) :
    PHolds cap (s.add r Adv).1
      { sp with
        log := sp.log ++ o.rows
        base := sp.base ++ Adv.map (fun a => |a| + sp.epsilon)
        doc := sp.doc ++ Adv.map (fun a => |a| + sp.epsilon) } ∧
    (s.add r Adv).2 = none := by
  have hc := h.cap_pos
  have hrlt : r < s.heap.length := (List.getElem?_eq_some_iff.1 ho).1
  let n := o.rows.length
  let k := s.buf.index
  let o' : Obj (Row σ) := { o with idx := (List.range n).map (fun i => k + i) }
  have hget : (s.heap.set r o')[r]? = some o' := by simp [hrlt]
  obtain ⟨hs1, hs2⟩ := toSingles_spec hget (k := k) rfl
  generalize hts : toSingles (s.heap.set r o') r o' = ts at hs1 hs2
  obtain ⟨heap', singles⟩ := ts
  have hsl : singles.length = n := by
    have := congrArg List.length hs1
    simpa [o', n] using this
  -- storage
  have hkeys : ∀ q, q ∈ wrapKeys cap k n → q < cap := by
    intro q hq
    simp only [wrapKeys, List.map_map, List.mem_map] at hq
    obtain ⟨_, _, rfl⟩ := hq
    exact Nat.mod_lt _ hc
  obtain ⟨storage', est, hstl, hstv⟩ := writeAll_ok (arr := s.buf.storage)
    (ps := (wrapKeys cap k n).zip (singles.map some)) (by
      rintro ⟨q, v⟩ hq
      rw [h.st_len]
      exact hkeys q (List.of_mem_zip hq).1)
  obtain ⟨tree', etr, hinv', _, hv⟩ := h.tree.setValues_ok (idx := .arr ((wrapKeys cap k n).map (fun (p : Nat) => (p : Int))))
    (by
      simp only [IdxArg.toList, List.mem_map]
      rintro _ ⟨q, hq, rfl⟩
      have := hkeys q hq
      omega)
    (vals := Adv.map s.buf.priority) (vals' := Adv.map s.buf.priority) (by
      unfold broadcast
      rw [if_pos (by simp [IdxArg.toList, wrapKeys_length, hlen, n])])
  have hadd : s.add r Adv = ({ heap := heap', buf := { s.buf with storage := storage', tree := tree', index := k + n } }, none) := by
    unfold PSys.add
    simp only [ho, h.cap_eq]
    rw [if_neg (by simp [Obj.batchSize, hlen])]
    simp only [wrapKeys, n] at est etr hts
    simp only [Obj.batchSize]
    simp only [k, o', n, Obj.batchSize] at hts
    simp only [hts]
    simp only [k] at est etr
    simp only [est, etr]
    rfl
  rw [hadd]
  refine ⟨?_, rfl⟩
  have hk : k = sp.log.length := h.index
  have hvlen : (Adv.map s.buf.priority).length = n := by simp [hlen, n]
  -- lookups of stored references
  have hold : ∀ x, some x ∈ s.buf.storage → heap'[x]? = s.heap[x]? := by
    intro x hx
    have hset := h.setIdx ho hf o' x hx
    obtain ⟨row, i, e⟩ := h.ref hx
    rw [hs2 x (by simpa using (List.getElem?_eq_some_iff.1 e).1), hset]
  -- new identifiers
  have hnew : ∀ i, k ≤ i → i < k + n → k + n ≤ i + cap → ∃ r row, storage'[i % cap]? = some (some r) ∧
      (sp.log ++ o.rows)[i]? = some row ∧ heap'[r]? = some ⟨[row], [i]⟩ := by
    intro i h1 h2 h3
    have hlw := lastW_wrap_new (cap := cap) (k := k) (singles.map some) i h1 (by simpa [hsl] using h2) (by simpa [hsl] using h3)
    simp only [List.length_map, hsl] at hlw
    have hlt : i - k < singles.length := by omega
    have hlt2 : i - k < o.rows.length := by omega
    refine ⟨singles[i - k], o.rows[i - k], ?_, ?_, ?_⟩
    · rw [hstv, hlw, List.getElem?_map, List.getElem?_eq_getElem hlt]; rfl
    · rw [List.getElem?_append_right (by omega), ← hk, List.getElem?_eq_getElem hlt2]
    · have := congrArg (fun l => l[i - k]?) hs1
      simp only [List.getElem?_map, List.getElem?_eq_getElem hlt, Option.map_some, List.getElem?_zipIdx] at this
      simp only [o', List.getElem?_eq_getElem hlt2, Option.map_some, Option.some.injEq] at this
      rw [this, show k + (i - k) = i by omega]; rfl
  have holdslot : ∀ i, i < k → k + n ≤ i + cap → ∀ {β : Type _} (vals : List β), vals.length = n →
      lastW ((wrapKeys cap k n).zip vals) (i % cap) = none := by
    intro i h1 h2 β vals hl
    rw [← hl]
    apply lastW_wrap_none
    intro j hj he
    exact mod_ne (show i < k + j by omega) (by omega) he.symm
  have hempty : ∀ p, p < cap → k + n ≤ p → ∀ {β : Type _} (vals : List β), vals.length = n →
      lastW ((wrapKeys cap k n).zip vals) p = none := by
    intro p h1 h2 β vals hl
    rw [← hl]
    apply lastW_wrap_none
    intro j hj he
    rw [Nat.mod_eq_of_lt (by omega)] at he
    omega
  have hL : (sp.log ++ o.rows).length = k + n := by simp [hk, n]
  refine
    { cap_pos := hc
      cap_eq := h.cap_eq
      alpha_eq := h.alpha_eq
      beta_eq := h.beta_eq
      eps_eq := h.eps_eq
      alpha_pos := h.alpha_pos
      beta_pos := h.beta_pos
      eps_pos := h.eps_pos
      base_len := by simp [h.base_len, hlen]
      base_pos := ?_
      index := hL.symm
      st_len := by rw [hstl]; exact h.st_len
      full := ?_
      empty := ?_
      tree := hinv'
      reach := reachable_step h.reach etr
      tame_eq := fun ht => by dsimp only at ht ⊢; rw [h.tame_eq ht]
      vals := ?_
      zeros := ?_ }
  · intro x hx
    rcases List.mem_append.1 hx with hx | hx
    · exact h.base_pos x hx
    · obtain ⟨a, _, rfl⟩ := List.mem_map.1 hx
      have := h.eps_pos
      positivity
  · intro i h1 h2
    dsimp only at h1 h2 ⊢
    rw [hL] at h1 h2
    by_cases hi : k ≤ i
    · exact hnew i hi h1 h2
    · obtain ⟨r0, row, e1, e2, e3⟩ := h.full i (by omega) (by omega)
      refine ⟨r0, row, ?_, ?_, ?_⟩
      · rw [hstv, holdslot i (by omega) h2 _ (by simpa using hsl)]; simpa using e1
      · rw [List.getElem?_append_left (by omega)]; exact e2
      · rw [hold r0 (List.mem_of_getElem? e1)]; exact e3
  · intro p h1 h2
    dsimp only at h2 ⊢
    rw [hL] at h2
    rw [hstv, hempty p h1 h2 _ (by simpa using hsl)]
    simpa using h.empty p h1 (by omega)
  · intro i h1 h2
    dsimp only at h1 h2 ⊢
    rw [hL] at h1 h2
    have hm : i % cap < cap := Nat.mod_lt _ hc
    rw [hv _ hm]
    simp only [IdxArg.toList]
    rw [lastAssigned_nat _ _ hm]
    by_cases hi : k ≤ i
    · have hlw := lastW_wrap_new (cap := cap) (k := k) (Adv.map s.buf.priority) i hi (by rw [hvlen]; exact h1)
        (by rw [hvlen]; exact h2)
      rw [hvlen] at hlw
      have hlt : i - k < Adv.length := by omega
      refine ⟨|Adv[i - k]| + sp.epsilon, ?_, ?_⟩
      · rw [List.getElem?_append_right (by rw [h.base_len]; omega), h.base_len, ← hk, List.getElem?_map,
          List.getElem?_eq_getElem hlt]; rfl
      · rw [hlw, List.getElem?_map, List.getElem?_eq_getElem hlt]
        simp [PBuf.priority, h.alpha_eq, h.eps_eq]
    · obtain ⟨x, e1, e2⟩ := h.vals i (by omega) (by omega)
      refine ⟨x, ?_, ?_⟩
      · rw [List.getElem?_append_left (by rw [h.base_len]; omega)]; exact e1
      · rw [holdslot i (by omega) h2 _ hvlen]; simpa using e2
  · intro p h1 h2
    dsimp only at h2 ⊢
    rw [hL] at h2
    rw [hv p h1]
    simp only [IdxArg.toList]
    rw [lastAssigned_nat _ _ h1, hempty p h1 h2 _ hvlen]
    simpa using h.zeros p h1 (by omega)

end Coax.Replay
