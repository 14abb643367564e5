import Verif.Replay.PrioritizedUpdate
import Verif.SegmentTree.Props
import Mathlib.Order.Interval.Finset.Nat
import Mathlib.Algebra.BigOperators.Intervals

/-! Properties C10–C14: `PrioritizedReplayBuffer`. -/

namespace Coax.Replay

open Coax.SegmentTree (readAt lastW mapM_ok Reachable readAt_of_some cumsum)

variable {σ : Type _} {cap : Nat} {s : PSys σ} {sp : PSpec σ}

/-! ### C10: contents -/

/-- The object in the slot of identifier `i`, read from outside. -/
def PSys.objectFor (s : PSys σ) (i : Nat) : Option (Obj (Row σ)) :=
  match s.buf.storage[i % s.buf.capacity]? with
  | some (some r) => s.heap[r]?
  | _ => none

/-- C10.  After any history the slots of the last `min(capacity, n)` identifiers hold exactly the last transitions added,
each as a batch of size one carrying its identifier (the same list as `C08_keeps_most_recent` gives for a
`SimpleReplayBuffer`), and `len` is their number. -/
theorem C10_keeps_most_recent (h : PHistory cap s sp) :
    (lastN cap (List.range sp.log.length)).map s.objectFor =
        (lastN cap sp.log.zipIdx).map (fun p => some ⟨[p.1], [p.2]⟩) ∧
      s.buf.len = min cap sp.log.length := by
  have hh := h.holds
  refine ⟨?_, by simp [PBuf.len, hh.cap_eq, hh.index]⟩
  apply List.ext_getElem?
  intro k
  simp only [lastN, List.length_range, List.length_zipIdx, List.getElem?_map, List.getElem?_drop]
  by_cases hk : sp.log.length - cap + k < sp.log.length
  · obtain ⟨r, row, e1, e2, e3⟩ := hh.full (sp.log.length - cap + k) hk (by omega)
    have e4 : sp.log[sp.log.length - cap + k] = row := (List.getElem?_eq_some_iff.1 e2).2
    simp [hk, e4, PSys.objectFor, hh.cap_eq, e1, e3]
  · simp [List.getElem?_range, hk, List.getElem?_zipIdx, List.getElem?_eq_none (show sp.log.length ≤ sp.log.length - cap + k by omega)]

theorem slots_perm (hc : 0 < cap) (L : Nat) :
    (List.range (min cap L)).Perm ((lastN cap (List.range L)).map (· % cap)) := by
  have hmem : ∀ i, i ∈ lastN cap (List.range L) ↔ i < L ∧ L ≤ i + cap := by
    intro i
    simp only [lastN, List.length_range]
    constructor
    · intro h
      obtain ⟨k, hk, e⟩ := List.getElem_of_mem h
      simp at e hk
      omega
    · intro h
      rw [List.mem_iff_getElem?]
      exact ⟨i - (L - cap), by rw [List.getElem?_drop, show L - cap + (i - (L - cap)) = i by omega, List.getElem?_range h.1]⟩
  rw [List.perm_ext_iff_of_nodup List.nodup_range]
  · intro p
    simp only [List.mem_range, List.mem_map, hmem]
    constructor
    · intro hp
      obtain ⟨i, h1, h2, h3⟩ := slot_live (L := L) hc (show p < cap by omega) (by omega)
      exact ⟨i, ⟨h1, h2⟩, h3⟩
    · rintro ⟨i, ⟨h1, h2⟩, rfl⟩
      have := Nat.mod_lt i hc
      have := Nat.mod_le i cap
      omega
  · apply List.Nodup.map_on
    · intro x hx y hy hxy
      exact live_unique ((hmem x).1 hx).1 ((hmem x).1 hx).2 ((hmem y).1 hy).1 ((hmem y).1 hy).2 hxy
    · exact (List.nodup_range).sublist (List.drop_sublist _ _)

/-- C10: iterating the buffer yields exactly these transitions (in slot order). -/
theorem C10_iteration (h : PHistory cap s sp) :
    s.iter.Perm ((lastN cap sp.log.zipIdx).map (fun p => some ⟨[p.1], [p.2]⟩)) := by
  have hh := h.holds
  rw [← (C10_keeps_most_recent h).1]
  have hlen : s.buf.len = min cap sp.log.length := (C10_keeps_most_recent h).2
  have e1 : s.iter = (List.range (min cap sp.log.length)).map s.objectFor := by
    unfold PSys.iter
    rw [hlen]
    apply List.ext_getElem?
    intro k
    simp only [List.getElem?_map, List.getElem?_take]
    by_cases hk : k < min cap sp.log.length
    · have hks : k < s.buf.storage.length := by rw [hh.st_len]; omega
      simp only [hk, if_true, List.getElem?_range, Option.map_some, PSys.objectFor, hh.cap_eq,
        Nat.mod_eq_of_lt (show k < cap by omega), List.getElem?_eq_getElem hks]
      cases s.buf.storage[k] <;> rfl
    · simp [hk, List.getElem?_range]
  have e2 : ∀ i, s.objectFor (i % cap) = s.objectFor i := by
    intro i; simp [PSys.objectFor, hh.cap_eq]
  have := (slots_perm hh.cap_pos sp.log.length).map s.objectFor
  rw [List.map_map] at this
  rw [e1]
  exact this.trans (by rw [show s.objectFor ∘ (· % cap) = s.objectFor from funext e2])

/-- C10, rejected calls: `add` of something that is not a `TransitionBatch`, or with the wrong number of advantages,
leaves the buffer itself unchanged. -/
theorem C10_add_rejected (s : PSys σ) (r : Ref) (Adv : List ℝ)
    (hr : ∀ o, s.heap[r]? = some o → Adv.length ≠ o.rows.length) :
    (s.add r Adv).1.buf = s.buf ∧
      (s.add r Adv).2 = some (if s.heap[r]? = none then .typeError else .assertionError) := by
  unfold PSys.add
  cases ho : s.heap[r]? with
  | none => exact ⟨rfl, rfl⟩
  | some o =>
    simp only [List.length_map, List.length_range, Obj.batchSize]
    rw [if_pos (hr o ho)]
    exact ⟨rfl, rfl⟩

/-- The constructor accepts exactly the positive parameters. -/
theorem C10_init (heap : Heap (Row σ)) (capacity : Int) (a b e : ℝ) :
    (0 < capacity ∧ 0 < a ∧ 0 < b ∧ 0 < e → ∃ s, PSys.init heap capacity a b e = .ok s ∧ s.buf.len = 0) ∧
    (¬ (0 < capacity ∧ 0 < a ∧ 0 < b ∧ 0 < e) → PSys.init heap capacity a b e = .error .typeError) := by
  constructor
  · intro h
    exact ⟨_, by unfold PSys.init; rw [if_pos h], by simp [PBuf.len, PBuf.clear]⟩
  · intro h; unfold PSys.init; rw [if_neg h]

/-! ### C11: priorities -/

/-- The sampling weight of the slot of identifier `i`. -/
def PSys.weightFor (s : PSys σ) (i : Nat) : Option ℝ := s.buf.tree.values[i % s.buf.capacity]?

/-- C11 (partial: for `tame` histories, see `PSpec`).  The sampling weight of every stored transition is
`(|Adv| + epsilon)^alpha` for the advantage supplied last for its identifier; slots never filled have weight zero. -/
theorem C11_weights_partial (h : PHistory cap s sp) (ht : sp.tame) :
    (∀ i, i < sp.log.length → sp.log.length ≤ i + cap →
      ∃ x, sp.doc[i]? = some x ∧ 0 < x ∧ s.weightFor i = some (x ^ sp.alpha)) ∧
    (∀ p, sp.log.length ≤ p → p < cap → s.weightFor p = some 0) := by
  have hh := h.holds
  rw [hh.tame_eq ht]
  constructor
  · intro i h1 h2
    obtain ⟨x, e1, e2⟩ := hh.vals i h1 h2
    exact ⟨x, e1, hh.base_pos x (List.mem_of_getElem? e1), by rw [PSys.weightFor, hh.cap_eq]; exact e2⟩
  · intro p h1 h2
    rw [PSys.weightFor, hh.cap_eq, Nat.mod_eq_of_lt h2]
    exact hh.zeros p h2 h1

/-- C11, for every history: the weights are the `alpha`-th powers of the bases the buffer really uses. -/
theorem C11_weights (h : PHistory cap s sp) :
    (∀ i, i < sp.log.length → sp.log.length ≤ i + cap →
      ∃ x, sp.base[i]? = some x ∧ 0 < x ∧ s.weightFor i = some (x ^ sp.alpha)) ∧
    (∀ p, sp.log.length ≤ p → p < cap → s.weightFor p = some 0) := by
  have hh := h.holds
  constructor
  · intro i h1 h2
    obtain ⟨x, e1, e2⟩ := hh.vals i h1 h2
    exact ⟨x, e1, hh.base_pos x (List.mem_of_getElem? e1), by rw [PSys.weightFor, hh.cap_eq]; exact e2⟩
  · intro p h1 h2
    rw [PSys.weightFor, hh.cap_eq, Nat.mod_eq_of_lt h2]
    exact hh.zeros p h2 h1

theorem values_eq (hh : PHolds cap s sp) : s.buf.tree.values =
    (List.range (min cap sp.log.length)).map (fun p => (sp.base[liveId cap sp.log.length p]?.getD 0) ^ sp.alpha) ++
      List.replicate (cap - sp.log.length) 0 := by
  have hc := hh.cap_pos
  apply List.ext_getElem?
  intro p
  by_cases hp : p < cap
  · by_cases hL : p < sp.log.length
    · obtain ⟨h1, h2, h3⟩ := liveId_spec hc hp hL
      obtain ⟨x, e1, e2⟩ := hh.vals _ h1 h2
      rw [h3] at e2
      have hm : p < min cap sp.log.length := by omega
      rw [e2, List.getElem?_append_left (by simpa using hm), List.getElem?_map, List.getElem?_range hm,
        Option.map_some, e1]; rfl
    · rw [hh.zeros p hp (by omega), List.getElem?_append_right (by simp; omega), List.getElem?_replicate,
        if_pos (by simp; omega)]
  · rw [List.getElem?_eq_none (by rw [hh.tree.values_length]; omega), List.getElem?_eq_none (by simp; omega)]

/-- Sum of the priorities of the stored transitions. -/
noncomputable def PSpec.total (cap : Nat) (sp : PSpec σ) : ℝ := ((lastN cap sp.base).map (fun x => x ^ sp.alpha)).sum

theorem values_sum (hh : PHolds cap s sp) : s.buf.tree.values.sum = sp.total cap := by
  have hc := hh.cap_pos
  rw [values_eq hh]
  simp only [List.sum_append, List.sum_replicate, smul_zero, add_zero]
  have hperm := (slots_perm hc sp.log.length).map
    (fun p => (sp.base[liveId cap sp.log.length p]?.getD 0) ^ sp.alpha)
  rw [hperm.sum_eq, List.map_map]
  unfold PSpec.total
  congr 1
  apply List.ext_getElem?
  intro k
  simp only [lastN, List.length_range, List.getElem?_map, List.getElem?_drop, hh.base_len]
  by_cases hk : sp.log.length - cap + k < sp.log.length
  · have hkb : sp.log.length - cap + k < sp.base.length := by rw [hh.base_len]; exact hk
    have hm := Nat.mod_lt (sp.log.length - cap + k) hc
    have hle := Nat.mod_le (sp.log.length - cap + k) cap
    obtain ⟨h1, h2, h3⟩ := liveId_spec (L := sp.log.length) hc hm (by omega)
    have hid := live_unique h1 h2 hk (by omega) h3
    simp [List.getElem?_range, hk, List.getElem?_eq_getElem hkb, hid]
  · rw [List.getElem?_eq_none (by simp; omega), List.getElem?_eq_none (by rw [hh.base_len]; omega)]
    rfl

/-- C11, the normaliser: the root of the sum tree is the sum of the weights of the stored transitions. -/
theorem C11_normaliser (h : PHistory cap s sp) : s.buf.tree.rootValue = .ok (sp.total cap) := by
  rw [h.holds.tree.root_sum, values_sum h.holds]

theorem total_pos (hh : PHolds cap s sp) (hL : 0 < sp.log.length) : 0 < sp.total cap := by
  have hc := hh.cap_pos
  unfold PSpec.total
  apply List.sum_pos
  · intro y hy
    obtain ⟨x, hx, rfl⟩ := List.mem_map.1 hy
    exact Real.rpow_pos_of_pos (hh.base_pos x (List.mem_of_mem_drop hx)) _
  · intro hnil
    have := congrArg List.length hnil
    simp [lastN, hh.base_len] at this
    omega

theorem values_nonneg (hh : PHolds cap s sp) : ∀ y ∈ s.buf.tree.values, 0 ≤ y := by
  intro y hy
  rw [values_eq hh] at hy
  rcases List.mem_append.1 hy with hy | hy
  · obtain ⟨p, hp, rfl⟩ := List.mem_map.1 hy
    have hp' := List.mem_range.1 hp
    obtain ⟨h1, h2, _⟩ := liveId_spec (L := sp.log.length) hh.cap_pos (show p < cap by omega) (by omega)
    have hlt : liveId cap sp.log.length p < sp.base.length := by rw [hh.base_len]; exact h1
    rw [List.getElem?_eq_getElem hlt]
    exact (Real.rpow_pos_of_pos (hh.base_pos _ (List.getElem_mem hlt)) _).le
  · rw [(List.mem_replicate.1 hy).2]

/-- C11, sampling: a stored transition is drawn with probability `weight / total`. -/
theorem C11_sampling_probability (h : PHistory cap s sp) {i : Nat} (hi : i < sp.log.length)
    (hi2 : sp.log.length ≤ i + cap) {x : ℝ} (hx : sp.base[i]? = some x) :
    MeasureTheory.volume {u : ℝ | u ∈ Set.Ico 0 1 ∧ s.buf.tree.inverseCdf [u] = .ok [i % cap]} =
      ENNReal.ofReal (x ^ sp.alpha / sp.total cap) := by
  have hh := h.holds
  obtain ⟨x', e1, e2⟩ := hh.vals i hi hi2
  rw [hx] at e1
  cases e1
  rw [SegmentTree.C06_sample_probability hh.cap_pos hh.reach (values_nonneg hh) ?_ e2, values_sum hh]
  rw [values_sum hh]; exact total_pos hh (by omega)

/-! ### C12: stale updates -/

theorem values_ext {s' : PSys σ} {sp' : PSpec σ} (h : PHolds cap s sp) (h' : PHolds cap s' sp')
    (hb : sp'.base = sp.base) (hl : sp'.log.length = sp.log.length) (ha : sp'.alpha = sp.alpha) :
    s'.buf.tree.values = s.buf.tree.values := by
  rw [values_eq h, values_eq h', hb, hl, ha]

/-- C12.  An `update` that lists only identifiers whose transitions are no longer in the buffer (or never were) changes
no weight at all, whatever the outcome of the call. -/
theorem C12_stale_updates_harmless (h : PHistory cap s sp) {idx : List Int} (hst : ∀ i ∈ idx, ¬ sp.Live cap i)
    (Adv : List ℝ) : (s.update idx Adv).1.buf.tree.values = s.buf.tree.values := by
  have hh := h.holds
  by_cases hacc : sp.Accepts cap idx Adv
  · have h' := (hh.update hacc).1
    refine values_ext hh h' ?_ rfl rfl
    dsimp only
    apply List.ext_getElem?
    intro i
    unfold PSpec.overwrite
    rw [List.getElem?_mapIdx]
    cases hx : sp.base[i]? with
    | none => rfl
    | some x =>
      rw [Option.map_some]
      split
      · rename_i hl
        split
        · rename_i q hq
          rw [if_neg]
          rintro hqi
          have hm := List.mem_of_mem_filter (List.mem_of_getLast? hq)
          exact hst q.1 (List.of_mem_zip hm).1 (hqi ▸ hl)
        · rfl
      · rfl
  · obtain ⟨e, he, _⟩ := hh.updateRejected hacc
    rw [he]

/-- C12, exactly: after an accepted `update` the weight of a live identifier is decided by the last listed pair whose
identifier falls in the same slot. -/
theorem C12_update_exact (h : PHistory cap s sp) {idx : List Int} {Adv : List ℝ}
    (hacc : sp.Accepts cap idx Adv) {i : Nat} (hi : i < sp.log.length) (hi2 : sp.log.length ≤ i + cap) :
    (s.update idx Adv).2 = none ∧
    (s.update idx Adv).1.weightFor i =
      match ((idx.zip Adv).filter (fun q => decide (q.1 % (cap : Int) = (i : Int) % (cap : Int)))).getLast? with
      | some q => if q.1 = i then some ((|q.2| + sp.epsilon) ^ sp.alpha) else s.weightFor i
      | none => s.weightFor i := by
  have hh := h.holds
  obtain ⟨h', hnone⟩ := hh.update hacc
  refine ⟨hnone, ?_⟩
  obtain ⟨x', e1, e2⟩ := h'.vals i hi hi2
  obtain ⟨x, e3, e4⟩ := hh.vals i hi hi2
  have hcap : (s.update idx Adv).1.buf.capacity = cap := h'.cap_eq
  have hx' := overwrite_live (live_nat.2 ⟨hi, hi2⟩) e3 (idx.zip Adv)
  dsimp only at e1
  rw [e1] at hx'
  simp only [PSys.weightFor, hcap, hh.cap_eq, e2, e4]
  rw [Option.some.inj hx']
  cases ((idx.zip Adv).filter (fun q => decide (q.1 % (cap : Int) = (i : Int) % (cap : Int)))).getLast? with
  | none => rfl
  | some q =>
    dsimp only
    split <;> rfl

/-- C12, mixed calls (partial: only for lists in which no stale identifier follows a live one of the same slot).  Every
live identifier gets the weight of its last listed advantage; the other weights stay. -/
theorem C12_mixed_updates_partial (h : PHistory cap s sp) {idx : List Int} {Adv : List ℝ} (hcl : sp.Clean cap idx)
    (hacc : sp.Accepts cap idx Adv) {i : Nat} (hi : i < sp.log.length) (hi2 : sp.log.length ≤ i + cap) :
    (s.update idx Adv).2 = none ∧
    (s.update idx Adv).1.weightFor i =
      match ((idx.zip Adv).filter (fun q => decide (q.1 = (i : Int)))).getLast? with
      | some q => some ((|q.2| + sp.epsilon) ^ sp.alpha)
      | none => s.weightFor i := by
  have hh := h.holds
  have hc := hh.cap_pos
  obtain ⟨e1, e2⟩ := C12_update_exact h hacc hi hi2
  refine ⟨e1, e2.trans ?_⟩
  have hlive : sp.Live cap (i : Int) := live_nat.2 ⟨hi, hi2⟩
  have hfst : (idx.zip Adv).map (·.1) = idx := by
    rw [List.map_fst_zip]; exact hacc.1.le
  rw [← hfst] at hcl
  generalize idx.zip Adv = pairs at hcl
  clear e1 e2 hfst
  induction pairs using List.reverseRecOn with
  | nil => rfl
  | append_singleton ps q ih =>
    rw [List.map_append] at hcl
    obtain ⟨hcl1, hcl2⟩ := clean_snoc hcl
    have ih := ih hcl1
    rw [List.filter_append, List.filter_append]
    by_cases hq : q.1 = (i : Int)
    · simp [hq]
    · have h0 : (List.filter (fun q : Int × ℝ => decide (q.1 = (i : Int))) [q]) = [] := by simp [hq]
      rw [h0, List.append_nil]
      by_cases hs : q.1 % (cap : Int) = (i : Int) % (cap : Int)
      · have hnl : ¬ sp.Live cap q.1 := by
          intro hl
          obtain ⟨j', hj⟩ : ∃ j' : Nat, q.1 = j' := ⟨q.1.toNat, by have := hl.1; omega⟩
          rw [hj] at hl hs hq
          have hl' := live_nat.1 hl
          rw [← slotOf_eq_iff hc, slotOf_nat, slotOf_nat] at hs
          exact hq (by rw [live_unique hl'.1 hl'.2 hi hi2 hs])
        have hnone : ps.filter (fun q => decide (q.1 = (i : Int))) = [] := by
          rw [List.filter_eq_nil_iff]
          intro p hp he
          have he : p.1 = (i : Int) := by simpa using he
          exact hcl2 hnl p.1 (List.mem_map.2 ⟨p, hp, rfl⟩) (he ▸ hlive) (by rw [he, hs])
        rw [hnone]
        simp [hs, hq]
      · have h1 : (List.filter (fun q : Int × ℝ => decide (q.1 % (cap : Int) = (i : Int) % (cap : Int))) [q]) = [] := by
          simp [hs]
        rw [h1, List.append_nil]
        exact ih

/-- C12 is false for mixed calls: if a stale identifier for the same slot follows a live one in the same call, the live
one keeps its *old* weight, whatever advantage was supplied for it. -/
theorem C12_masking (h : PHistory cap s sp) {i : Nat} {j : Int} (hi : i < sp.log.length)
    (hi2 : sp.log.length ≤ i + cap) (hj : ¬ sp.Live cap j) (hslot : j % (cap : Int) = (i : Int) % (cap : Int)) (a b : ℝ) :
    (s.update [(i : Int), j] [a, b]).2 = none ∧ (s.update [(i : Int), j] [a, b]).1.weightFor i = s.weightFor i := by
  have hc := h.holds.cap_pos
  have hle := Nat.mod_le i cap
  have hacc : sp.Accepts cap [(i : Int), j] [a, b] := by
    refine ⟨rfl, by simp, ?_⟩
    intro k hk
    have : k % (cap : Int) = (i : Int) % cap := by
      rcases List.mem_cons.1 hk with rfl | hk
      · rfl
      · rw [List.mem_singleton.1 hk]; exact hslot
    rw [this, ← Int.natCast_mod]
    omega
  obtain ⟨e1, e2⟩ := C12_update_exact h hacc hi hi2
  refine ⟨e1, e2.trans ?_⟩
  have hne : ¬ (j = (i : Int)) := by
    rintro rfl; exact hj (live_nat.2 ⟨hi, hi2⟩)
  simp [hslot, hne]

/-- C12, rejected calls: lists of different lengths, empty lists, and identifiers of slots that were never filled are
rejected without any change. -/
theorem C12_update_rejected (h : PHistory cap s sp) {idx : List Int} {Adv : List ℝ} (hacc : ¬ sp.Accepts cap idx Adv) :
    ∃ e, s.update idx Adv = (s, some e) ∧ (idx.length ≠ Adv.length → e = .assertionError) ∧
      (idx.length = Adv.length → idx ≠ [] → e = .attributeError) :=
  h.holds.updateRejected hacc

/-! ### C13: importance weights -/

/-- Probability of drawing identifier `i`. -/
noncomputable def PSpec.prob (cap : Nat) (sp : PSpec σ) (i : Nat) : ℝ :=
  (sp.base[i]?.getD 0) ^ sp.alpha / sp.total cap

/-- The inverse propensity weight `(N * p_i)^(-beta)`, with `N` the number of stored transitions. -/
noncomputable def PSpec.ipw (cap : Nat) (sp : PSpec σ) (i : Nat) : ℝ :=
  (sp.prob cap i * (min cap sp.log.length : Nat)) ^ (-sp.beta)

theorem listMax_spec (x : ℝ) (xs : List ℝ) : listMax (x :: xs) ∈ x :: xs ∧ ∀ y ∈ x :: xs, y ≤ listMax (x :: xs) := by
  simp only [listMax]
  induction xs generalizing x with
  | nil => simp
  | cons z xs ih =>
    simp only [List.foldl_cons]
    obtain ⟨h1, h2⟩ := ih (max x z)
    constructor
    · rcases List.mem_cons.1 h1 with h | h
      · rw [h]
        rcases max_choice x z with h' | h' <;> simp [h']
      · simp [h]
    · intro y hy
      have hmax := h2 (max x z) (by simp)
      rcases List.mem_cons.1 hy with rfl | hy
      · exact (le_max_left _ _).trans hmax
      · rcases List.mem_cons.1 hy with rfl | hy
        · exact (le_max_right _ _).trans hmax
        · exact h2 y (by simp [hy])

theorem concat_singles (l : List (Row σ × Nat)) : concat (l.map (fun q => single q.1 q.2)) = ⟨l.map (·.1), l.map (·.2)⟩ := by
  induction l with
  | nil => rfl
  | cons a l ih => simpa [concat, single] using ih

/-- C13.  Sampling `n > 0` transitions from a non-empty buffer succeeds.  The batch consists of stored transitions with
their identifiers `ids`, each drawn by one of the random numbers (see `C11_sampling_probability`); the weight `W` of each is multiplied by `(N p_i)^(-beta)` divided by the largest of these numbers
in the batch. -/
theorem C13_importance_weights (h : PHistory cap s sp) (hL : 0 < sp.log.length) (rnd : Nat → List ℝ)
    (hlen : ∀ n, (rnd n).length = n) (hrnd : ∀ n, ∀ u ∈ rnd n, 0 ≤ u ∧ u < 1) {n : Nat} (hn : 0 < n) :
    ∃ (ids : List Nat) (rows : List (Row σ)) (M : ℝ), ids.length = n ∧
      List.Forall₂ (fun i row => i < sp.log.length ∧ sp.log.length ≤ i + cap ∧ sp.log[i]? = some row) ids rows ∧
      List.Forall₂ (fun u i => s.buf.tree.inverseCdf [u] = .ok [i % cap]) (rnd n) ids ∧
      (∃ i ∈ ids, sp.ipw cap i = M) ∧ (∀ i ∈ ids, sp.ipw cap i ≤ M) ∧
      s.sample n rnd = .ok ⟨List.zipWith (fun row i => { row with W := row.W * (sp.ipw cap i / M) }) rows ids, ids⟩ := by
  have hh := h.holds
  have hc := hh.cap_pos
  obtain ⟨idx, e, hil, hpos⟩ := (SegmentTree.C06_sample_indices hc hh.reach (by rw [values_sum hh]; exact total_pos hh hL) rnd hlen hrnd
    (n : Int)).2 (by omega)
  have hfill : ∀ p ∈ idx, p < cap ∧ p < sp.log.length := by
    intro p hp
    obtain ⟨h1, v, h2, h3⟩ := hpos p hp
    refine ⟨h1, ?_⟩
    by_contra hge
    rw [hh.zeros p h1 (by omega)] at h2
    cases h2
    exact lt_irrefl _ h3
  have hrows : ∃ rows : List (Row σ), List.Forall₂ (fun p row => sp.log[liveId cap sp.log.length p]? = some row ∧
      s.slot p = .ok (single row (liveId cap sp.log.length p))) idx rows := by
    clear e hil hpos
    induction idx with
    | nil => exact ⟨[], .nil⟩
    | cons p idx ih =>
      obtain ⟨rows, hf⟩ := ih (fun q hq => hfill q (by simp [hq]))
      obtain ⟨h1, h2, h3⟩ := liveId_spec hc (hfill p (by simp)).1 (hfill p (by simp)).2
      obtain ⟨r, row, e1, e2, e3⟩ := hh.full _ h1 h2
      rw [h3] at e1
      exact ⟨row :: rows, .cons ⟨e2, by simp [PSys.slot, e1, e3, single]⟩ hf⟩
  obtain ⟨rows, hf⟩ := hrows
  let ids := idx.map (liveId cap sp.log.length)
  have hvals : idx.mapM (readAt s.buf.tree.values) =
      .ok (idx.map (fun p => (sp.base[liveId cap sp.log.length p]?.getD 0) ^ sp.alpha)) := by
    apply mapM_ok
    intro p hp
    obtain ⟨h1, h2, h3⟩ := liveId_spec hc (hfill p hp).1 (hfill p hp).2
    obtain ⟨x, hx1, hx2⟩ := hh.vals _ h1 h2
    rw [h3] at hx2
    rw [readAt_of_some hx2, hx1]; rfl
  have hW : s.buf.rawWeights (sp.total cap) (idx.map (fun p => (sp.base[liveId cap sp.log.length p]?.getD 0) ^ sp.alpha)) =
      ids.map (sp.ipw cap) := by
    simp only [PBuf.rawWeights, ids, List.map_map]
    apply List.map_congr_left
    intro p _
    simp only [Function.comp, PSpec.ipw, PSpec.prob, hh.beta_eq, PBuf.len, hh.cap_eq, hh.index]
  have hslots : idx.mapM s.slot = .ok ((rows.zip ids).map (fun q => single q.1 q.2)) := by
    clear e hil hpos hvals hW hfill
    induction hf with
    | nil => rfl
    | @cons p row idx rows h1 hf ih =>
      simp only [List.mapM_cons, h1.2, ids, List.map_cons, List.zip_cons_cons] at ih ⊢
      rw [ih]; rfl
  have hrl : rows.length = ids.length := by rw [← hf.length_eq]; simp [ids]
  obtain ⟨i0, ids', hids⟩ : ∃ i0 ids', ids = i0 :: ids' := by
    cases hi : ids with
    | nil =>
      have : idx.length = 0 := by have := congrArg List.length hi; simpa [ids] using this
      omega
    | cons a l => exact ⟨a, l, rfl⟩
  have hdraw : List.Forall₂ (fun u p => s.buf.tree.inverseCdf [u] = .ok [p]) (rnd n) idx := by
    have hts : 0 < s.buf.tree.values.sum := by rw [values_sum hh]; exact total_pos hh hL
    obtain ⟨idx', e', hf'⟩ := SegmentTree.C05_inverse_cdf hc hh.reach hts (u := rnd n) (hrnd n)
    unfold SegmentTree.Tree.sample at e
    rw [if_pos (by omega), Int.toNat_natCast, e'] at e
    cases e
    refine ((List.forall₂_and_left (p := fun u : ℝ => 0 ≤ u ∧ u < 1) _ _).2 ⟨hrnd n, hf'⟩).imp ?_
    rintro u p ⟨hu, -, h1, h2, -⟩
    rw [SegmentTree.C06_sample_interval hc hh.reach (values_nonneg hh) hts hu, div_le_iff₀ hts, lt_div_iff₀ hts]
    exact ⟨h1, h2⟩
  refine ⟨ids, rows, listMax (ids.map (sp.ipw cap)), ?_, ?_, ?_, ?_, ?_, ?_⟩
  · simp [ids]; omega
  · clear e hil hpos hvals hW hslots hrl hids hdraw
    induction hf with
    | nil => exact .nil
    | @cons p row idx rows h1 hf ih =>
      obtain ⟨a1, a2, _⟩ := liveId_spec hc (hfill p (by simp)).1 (hfill p (by simp)).2
      exact .cons ⟨a1, a2, h1.1⟩ (ih (fun q hq => hfill q (by simp [hq])))
  · rw [List.forall₂_map_right_iff]
    clear e hil hpos hvals hW hslots hrl hids hf
    generalize rnd n = us at hdraw
    induction hdraw with
    | nil => exact .nil
    | @cons u p us idx h1 hd ih =>
      obtain ⟨_, _, a3⟩ := liveId_spec hc (hfill p (by simp)).1 (hfill p (by simp)).2
      exact .cons (by rw [a3]; exact h1) (ih (fun q hq => hfill q (by simp [hq])))
  · have := (listMax_spec (sp.ipw cap i0) (ids'.map (sp.ipw cap))).1
    rw [hids, List.map_cons]
    rw [← List.map_cons] at this
    obtain ⟨i, hi, he⟩ := List.mem_map.1 this
    exact ⟨i, hi, he⟩
  · intro i hi
    have := (listMax_spec (sp.ipw cap i0) (ids'.map (sp.ipw cap))).2 (sp.ipw cap i)
    rw [hids, List.map_cons]
    rw [hids] at hi
    exact this (by rw [← List.map_cons]; exact List.mem_map.2 ⟨i, hi, rfl⟩)
  · unfold PSys.sample
    simp only [e, hvals, hslots, hh.tree.root_sum, values_sum hh, bind, Except.bind]
    simp only [hW, concat_singles]
    rw [if_neg (by simp [hrl])]
    simp only [pure, Except.pure]
    congr 2
    · rw [List.map_fst_zip hrl.le]
      simp only [List.map_map]
      rw [List.zipWith_map_right]
      rfl
    · rw [List.map_snd_zip hrl.ge]

/-- C13, the factors: they lie in `(0, 1]`, one of them is `1`, and a transition with lower priority never gets a smaller
factor. -/
theorem C13_factors (h : PHistory cap s sp) {ids : List Nat}
    (hids : ∀ i ∈ ids, i < sp.log.length ∧ sp.log.length ≤ i + cap) {M : ℝ}
    (hM : ∃ i ∈ ids, sp.ipw cap i = M) (hmax : ∀ i ∈ ids, sp.ipw cap i ≤ M) :
    (∀ i ∈ ids, 0 < sp.ipw cap i / M ∧ sp.ipw cap i / M ≤ 1) ∧ (∃ i ∈ ids, sp.ipw cap i / M = 1) ∧
    (∀ i ∈ ids, ∀ j ∈ ids, ∀ x y, sp.base[i]? = some x → sp.base[j]? = some y → x ≤ y →
      sp.ipw cap j / M ≤ sp.ipw cap i / M) := by
  have hh := h.holds
  have hL : 0 < sp.log.length := by obtain ⟨i, hi, _⟩ := hM; have := hids i hi; omega
  have hN : 0 < ((min cap sp.log.length : Nat) : ℝ) := by
    have := hh.cap_pos
    exact_mod_cast (show 0 < min cap sp.log.length by omega)
  have ht := total_pos hh hL
  have hpos : ∀ i ∈ ids, 0 < sp.prob cap i * (min cap sp.log.length : Nat) := by
    intro i hi
    have hlt : i < sp.base.length := by rw [hh.base_len]; exact (hids i hi).1
    have := Real.rpow_pos_of_pos (hh.base_pos _ (List.getElem_mem hlt)) sp.alpha
    unfold PSpec.prob
    rw [List.getElem?_eq_getElem hlt]
    exact mul_pos (div_pos this ht) hN
  have hw : ∀ i ∈ ids, 0 < sp.ipw cap i := fun i hi => Real.rpow_pos_of_pos (hpos i hi) _
  obtain ⟨i0, hi0, hM0⟩ := hM
  have hMpos : 0 < M := hM0 ▸ hw i0 hi0
  refine ⟨fun i hi => ⟨div_pos (hw i hi) hMpos, (div_le_one hMpos).2 (hmax i hi)⟩, ⟨i0, hi0, ?_⟩, ?_⟩
  · rw [hM0, div_self hMpos.ne']
  · intro i hi j hj x y hx hy hxy
    apply div_le_div_of_nonneg_right _ hMpos.le
    apply Real.rpow_le_rpow_of_nonpos (hpos i hi) _ (by have := hh.beta_pos; linarith)
    apply mul_le_mul_of_nonneg_right _ hN.le
    unfold PSpec.prob
    rw [hx, hy]
    apply div_le_div_of_nonneg_right _ ht.le
    exact Real.rpow_le_rpow (hh.base_pos x (List.mem_of_getElem? hx)).le hxy hh.alpha_pos.le

/-- C13, an empty buffer cannot be sampled, and non-positive batch sizes are rejected. -/
theorem C13_sample_rejected (h : PHistory cap s sp) (rnd : Nat → List ℝ) (n : Int) :
    (n ≤ 0 → s.sample n rnd = .error .typeError) ∧ (0 < n → sp.log = [] → s.sample n rnd = .error .runtimeError) := by
  have hh := h.holds
  constructor
  · intro hn
    simp [PSys.sample, SegmentTree.Tree.sample, not_lt.2 hn, bind, Except.bind]
  · intro hn hl
    have hb : sp.base = [] := List.length_eq_zero_iff.1 (by rw [hh.base_len, hl]; rfl)
    have hs : s.buf.tree.values.sum ≤ 0 := by rw [values_sum hh]; simp [PSpec.total, hb, lastN]
    have := (SegmentTree.C07_rejections hh.cap_pos hh.reach (rnd n.toNat)).1 hs
    simp [PSys.sample, SegmentTree.Tree.sample, hn, this, bind, Except.bind]

/-! ### C14: changing alpha -/

/-- C14 (partial: while all priorities are at least `1e-15`).  After `alpha` is set to a new value that is not within one
percent of the old one, every stored transition has the weight `(|Adv| + epsilon)^alpha_new`, slots never filled keep
weight zero. -/
theorem C14_alpha_change_partial (h : PHistory cap s sp) (ht : sp.tame) {a : ℝ} (ha : 0 < a) (hfar : ¬ isClose a sp.alpha)
    (hbig : ∀ x ∈ sp.doc, 1e-15 ≤ x ^ sp.alpha) :
    (s.setAlpha a).2 = none ∧ (s.setAlpha a).1.buf.alpha = a ∧
    (∀ i, i < sp.log.length → sp.log.length ≤ i + cap →
      ∃ x, sp.doc[i]? = some x ∧ (s.setAlpha a).1.weightFor i = some (x ^ a)) ∧
    (∀ p, sp.log.length ≤ p → p < cap → (s.setAlpha a).1.weightFor p = some 0) := by
  obtain ⟨h', hn⟩ := h.holds.setAlpha ha hfar
  obtain ⟨h1, h2⟩ := C11_weights_partial (PHistory.setAlpha a h ha hfar) ⟨ht, hbig⟩
  refine ⟨hn, h'.alpha_eq, ?_, h2⟩
  intro i hi hi2
  obtain ⟨x, e1, _, e3⟩ := h1 i hi hi2
  exact ⟨x, e1, e3⟩

/-- C14, exactly: a weight `w` becomes `max(w, 1e-15)^(alpha_new / alpha_old)`. -/
theorem C14_alpha_change_exact (h : PHistory cap s sp) {a : ℝ} (ha : 0 < a) (hfar : ¬ isClose a sp.alpha) {i : Nat}
    (hi : i < sp.log.length) (hi2 : sp.log.length ≤ i + cap) :
    ∃ w, s.weightFor i = some w ∧ (s.setAlpha a).1.weightFor i = some ((max w 1e-15) ^ (a / sp.alpha)) := by
  have hh := h.holds
  obtain ⟨h', _⟩ := hh.setAlpha ha hfar
  obtain ⟨x, e1, e2⟩ := hh.vals i hi hi2
  obtain ⟨x', e3, e4⟩ := h'.vals i hi hi2
  refine ⟨x ^ sp.alpha, by rw [PSys.weightFor, hh.cap_eq, e2], ?_⟩
  rw [PSys.weightFor, h'.cap_eq, e4]
  simp only [PSpec.clamped, List.getElem?_map, e1, Option.map_some, Option.some.injEq] at e3
  rw [← e3, ← rescale (hh.base_pos x (List.mem_of_getElem? e1)) hh.alpha_pos,
    Real.rpow_def_of_pos (x := max _ _) (lt_max_of_lt_right (by norm_num))]

/-- C14, the tolerance: a value within the relative tolerance, or not positive, leaves the buffer as it was (the latter
with a `TypeError`). -/
theorem C14_alpha_noop (s : PSys σ) (a : ℝ) :
    (¬ 0 < a → s.setAlpha a = (s, some .typeError)) ∧
    (0 < a → isClose a s.buf.alpha → s.setAlpha a = (s, none)) := by
  unfold PSys.setAlpha
  exact ⟨fun h => by rw [if_pos h], fun h1 h2 => by rw [if_neg (by simpa using h1), if_pos h2]⟩

/-- One transition of weight `W = 1` in a fresh buffer. -/
noncomputable def oneStored (cap : Nat) (eps : ℝ) : PSys Unit :=
  (PSys.add { heap := [Obj.new [⟨(), 1⟩]], buf := PBuf.clear ⟨cap, 1, 1, eps, [], SegmentTree.Tree.initSum 0, 0⟩ } 0 [0]).1

theorem oneStored_history {cap : Nat} (hc : 0 < cap) {eps : ℝ} (he : 0 < eps) :
    PHistory cap (oneStored cap eps) ⟨[⟨(), 1⟩], [|0| + eps], [|0| + eps], True, 1, 1, eps⟩ := by
  refine PHistory.add (sp := ⟨[], [], [], True, 1, 1, eps⟩) (r := 0) (o := Obj.new [⟨(), 1⟩]) (Adv := [0])
    (PHistory.init (heap := [Obj.new [⟨(), 1⟩]]) ?_) rfl ?_ rfl
  · unfold PSys.init
    rw [if_pos ⟨by exact_mod_cast hc, one_pos, one_pos, he⟩]
    rfl
  · simp [PBuf.clear, List.mem_replicate]

/-- C14 is false below `1e-15`: a weight of `1e-20` becomes `1e-30` instead of `1e-40` when `alpha` goes from 1 to 2. -/
theorem C14_clamp_counterexample : ∃ (s : PSys Unit) (sp : PSpec Unit), PHistory 1 s sp ∧ sp.doc = [1e-20] ∧ sp.alpha = 1 ∧
    (s.setAlpha 2).1.buf.alpha = 2 ∧ (s.setAlpha 2).1.weightFor 0 = some 1e-30 ∧ (1e-30 : ℝ) ≠ (1e-20 : ℝ) ^ (2 : ℝ) := by
  have hh := oneStored_history (cap := 1) (by norm_num) (eps := 1e-20) (by norm_num)
  have hP := hh.holds
  obtain ⟨h1, _⟩ := C11_weights hh
  obtain ⟨x, e1, _, e3⟩ := h1 0 (by simp) (by simp)
  refine ⟨_, _, hh, by norm_num, rfl, ?_⟩
  generalize oneStored 1 1e-20 = s at *
  obtain ⟨tree', e, hinv', hv⟩ := hP.tree.set_all (vals := s.buf.tree.values.map (fun v =>
      if v ≤ 0 then 0 else Real.exp (Real.log (max v 1e-15) * (2 / s.buf.alpha)))) (by simp [hP.tree.values_length])
  have hal : s.buf.alpha = 1 := hP.alpha_eq
  have hrun : s.setAlpha 2 = ({ s with buf := { s.buf with tree := tree', alpha := 2 } }, none) := by
    unfold PSys.setAlpha
    rw [if_neg (by norm_num), if_neg (by rw [hal]; unfold isClose; norm_num)]
    dsimp only
    rw [e]
  rw [hrun]
  simp only [List.getElem?_cons_zero, Option.some.injEq] at e1
  refine ⟨rfl, ?_, ?_⟩
  · have hcap : s.buf.capacity = 1 := hP.cap_eq
    simp only [PSys.weightFor, hcap] at e3 ⊢
    rw [hv, List.getElem?_map, e3, ← e1]
    simp only [abs_zero, zero_add, Real.rpow_one, Option.map_some, hal, Option.some.injEq]
    rw [if_neg (by norm_num), max_eq_right (by norm_num), mul_comm, div_one, ← Real.log_rpow (by norm_num),
      Real.exp_log (by positivity), show (2 : ℝ) = ((2 : ℕ) : ℝ) by norm_num, Real.rpow_natCast]
    norm_num
  · rw [show (2 : ℝ) = ((2 : ℕ) : ℝ) by norm_num, Real.rpow_natCast]
    norm_num

/-- A history meeting the hypotheses of C10–C13 in a buffer that has wrapped around: capacity 1, two transitions added;
identifier 0 is stale, identifier 1 is live and shares its slot.  It also instantiates `C12_masking`. -/
example : ∃ (s : PSys Unit) (sp : PSpec Unit), PHistory 1 s sp ∧ sp.log.length = 2 ∧ ¬ sp.Live 1 0 ∧ sp.Live 1 1 ∧
    s.weightFor 1 = some 1 ∧ (s.update [1, 0] [5, 0]).1.weightFor 1 = some 1 ∧
    (s.update [0, 1] [0, 5]).1.weightFor 1 = some 6 := by
  have h0 := oneStored_history (cap := 1) (by norm_num) (eps := 1) (by norm_num)
  have h1 := PHistory.add (PHistory.new [⟨(), 1⟩] h0) (r := (oneStored 1 1).heap.length) (o := Obj.new [⟨(), 1⟩])
    (Adv := [0]) (by simp) (fun _ hr => by
      obtain ⟨_, _, e⟩ := h0.holds.ref hr
      rw [List.getElem?_eq_none le_rfl] at e
      cases e) rfl
  refine ⟨_, _, h1, rfl, by decide, by decide, ?_⟩
  have hw : ∀ x, ([|0| + 1] ++ [|(0 : ℝ)| + 1])[1]? = some x → x ^ (1 : ℝ) = 1 := by
    intro x hx; simp at hx; simp [← hx]
  obtain ⟨x, e1, _, e3⟩ := (C11_weights h1).1 1 (by simp [Obj.new]) (by simp [Obj.new])
  have e4 := e3.trans (congrArg some (hw x (by simpa using e1)))
  refine ⟨e4, ?_, ?_⟩
  · have := (C12_masking h1 (i := 1) (j := 0) (by simp [Obj.new]) (by simp [Obj.new]) (by decide) (by simp) 5 0).2
    exact_mod_cast this.trans e4
  · have hcl : PSpec.Clean 1 (σ := Unit) ⟨[⟨(), 1⟩] ++ (Obj.new [⟨(), 1⟩]).rows, [|0| + 1] ++ List.map (fun a => |a| + 1) [0], [|0| + 1] ++ List.map (fun a => |a| + 1) [0], True, 1, 1, 1⟩ [0, 1] := by
      intro a b i j hab hi hj _ _
      have hb : b < 2 := by simpa using (List.getElem?_eq_some_iff.1 hj).1
      have : b = 1 := by omega
      subst this
      simp at hj
      subst hj
      decide
    have := (C12_mixed_updates_partial h1 (idx := [0, 1]) (Adv := [0, 5]) hcl ⟨rfl, by simp, by simp [Obj.new]⟩ (i := 1)
      (by simp [Obj.new]) (by simp [Obj.new])).2
    rw [this]
    simp
    norm_num

end Coax.Replay
