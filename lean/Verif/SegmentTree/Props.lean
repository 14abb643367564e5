import Verif.SegmentTree.InverseCdf
import Verif.SegmentTree.SetAll
import Mathlib.Order.WithBot
import Mathlib.MeasureTheory.Measure.Lebesgue.Basic

/-!
Properties C01–C07 of `coax.utils.SegmentTree` and `coax.utils.SumTree`.
-/

namespace Coax.SegmentTree

variable {α : Type _}

/-! ### C01: the root is the reduction of all values -/

/-- C01.  After any history of `set_values` calls (successful or rejected), `root_value` is
`functools.reduce(reducer, values, init_value)`. -/
theorem C01_root_is_reduction {cap : Nat} (hc : 0 < cap) {red : α → α → α} {init : α} (hu : IsUnital red init)
    {t : Tree α} (h : Reachable cap red init t) : t.rootValue = .ok (reduce red init t.values) :=
  readAt_of_some ((h.inv hc (hu.unit_left init)).root hu)

theorem Inv.level_size {cap : Nat} {red : α → α → α} {init : α} {t : Tree α} (h : Inv cap red init t) {l : Nat}
    (hl : l + 1 < t.height) : 2 ^ l < cap := by
  have := h.height_eq
  by_contra hge
  have := Nat.clog_le_of_le_pow (b := 2) (not_lt.1 hge)
  omega

theorem Inv.getLevel_ok {cap : Nat} {red : α → α → α} {init : α} {t : Tree α} (h : Inv cap red init t) {l : Nat}
    (hl : l < t.height) : t.getLevel l = .ok ((t.arr.drop (2 ^ l - 1)).take (min (2 ^ l) cap)) := by
  have h3 : ((l : Int) % t.height).toNat = l := by rw [Int.emod_eq_of_lt (by omega) (by omega)]; omega
  simp only [Tree.getLevel, Tree.checkLevelLookup]
  rw [if_pos (by omega), h3, h.cap_eq]
  rfl

/-- C01, inner nodes.  Reading the tree level by level with `tree[level]`, every entry is the reduction of its two
children; children beyond the stored `capacity` leaves count as the unit element. -/
theorem C01_nodes_consistent {cap : Nat} (hc : 0 < cap) {red : α → α → α} {init : α} (hu : red init init = init)
    {t : Tree α} (h : Reachable cap red init t) {level : Nat} (hlev : level + 1 < t.height) :
    ∃ parents children, t.getLevel level = .ok parents ∧ t.getLevel ((level : Int) + 1) = .ok children ∧
      parents.length = 2 ^ level ∧ children.length = min (2 ^ (level + 1)) cap ∧
      ∀ k, k < 2 ^ level →
        parents[k]? = some (red (children[2 * k]?.getD init) (children[2 * k + 1]?.getD init)) := by
  have hi := h.inv hc hu
  have hlen := hi.len
  have hsz := hi.level_size hlev
  have hp1 : 2 ^ level - 1 + 2 ^ level ≤ t.arr.length := by
    have := node_lt (h := t.height) (lev := level) (k := 2 ^ level - 1) (by omega) (by have := Nat.two_pow_pos level; omega)
    have := Nat.two_pow_pos level
    omega
  have hp2 : 2 ^ (level + 1) - 1 + 2 ^ (level + 1) ≤ t.arr.length := by
    have := node_lt (h := t.height) (lev := level + 1) (k := 2 ^ (level + 1) - 1) hlev
      (by have := Nat.two_pow_pos (level + 1); omega)
    have := Nat.two_pow_pos (level + 1)
    omega
  refine ⟨_, _, hi.getLevel_ok (by omega), hi.getLevel_ok (l := level + 1) hlev, ?_, ?_, ?_⟩
  · simp; omega
  · simp; omega
  · intro k hk
    obtain ⟨a, b, ha, hb, hab⟩ := hi.node level hlev k hk
    have hget : ∀ j v, j < 2 ^ (level + 1) → t.arr[2 ^ (level + 1) - 1 + j]? = some v →
        (List.take (min (2 ^ (level + 1)) cap) (List.drop (2 ^ (level + 1) - 1) t.arr))[j]?.getD init = v := by
      intro j v hj hv
      rw [List.getElem?_take]
      by_cases hjm : j < min (2 ^ (level + 1)) cap
      · rw [if_pos hjm, List.getElem?_drop, hv]; rfl
      · rw [if_neg hjm]
        have hlast : level + 1 = t.height - 1 := by
          by_contra hne
          have := hi.level_size (l := level + 1) (by omega)
          omega
        have := hi.pad j (by omega) (by rw [← hlast]; exact hj)
        rw [← hlast, hv] at this
        simpa using this.symm
    have hpow : 2 ^ (level + 1) = 2 * 2 ^ level := by rw [Nat.pow_succ]; ring
    rw [hget (2 * k) a (by omega) ha, hget (2 * k + 1) b (by omega) hb, List.getElem?_take,
      if_pos (by omega), List.getElem?_drop, hab]

/-- The hypotheses of C01 are met by a non-trivial tree: capacity 5 (not a power of two), a duplicate write, a negative
index and a rejected call. -/
example : ∃ t : Tree Int, Reachable 5 (· + ·) 0 t ∧ t.values = [10, 0, 9, 0, 4] ∧ t.rootValue = .ok 23 ∧ 2 < t.height :=
  ⟨run (Tree.init 5 (· + ·) 0) [⟨.arr [2, 0, 2], [7, 10, 9]⟩, ⟨.arr [7], [1]⟩, ⟨.arr [-1], [4]⟩],
    ⟨_, rfl⟩, by decide +kernel, by decide +kernel, by decide +kernel⟩

/-! ### C02: writes are read back -/

/-- C02.  After `set_values(idx, vals)` with valid indices, position `p` holds the last value listed for it (negative
indices counted from the end), or its old value if it is not listed. -/
theorem C02_writes_are_read_back {cap : Nat} (hc : 0 < cap) {red : α → α → α} {init : α} (hu : red init init = init)
    {t : Tree α} (h : Reachable cap red init t) {idx : List Int} (hi : ∀ k ∈ idx, -(cap : Int) ≤ k ∧ k < cap)
    {vals : List α} (hlen : vals.length = idx.length) :
    ∃ t', t.setValues (.arr idx) vals = .ok t' ∧ Reachable cap red init t' ∧ t'.values.length = cap ∧
      ∀ p, p < cap → t'.values[p]? = (lastAssigned cap idx vals p).or t.values[p]? := by
  have hinv := h.inv hc hu
  obtain ⟨t', e, hinv', _, hv⟩ := hinv.setValues_ok (idx := .arr idx) (by simpa [IdxArg.toList] using hi)
    (vals := vals) (vals' := vals) (by simp [IdxArg.toList, broadcast, hlen])
  refine ⟨t', e, ?_, hinv'.values_length, by simpa [IdxArg.toList] using hv⟩
  obtain ⟨calls, rfl⟩ := h
  refine ⟨calls ++ [⟨.arr idx, vals⟩], ?_⟩
  simp only [run, List.foldl_append, List.foldl_cons, List.foldl_nil] at e ⊢
  rw [e]

/-- C02, a single value broadcast over the listed positions. -/
theorem C02_broadcast_write {cap : Nat} (hc : 0 < cap) {red : α → α → α} {init : α} (hu : red init init = init)
    {t : Tree α} (h : Reachable cap red init t) {idx : List Int} (hi : ∀ k ∈ idx, -(cap : Int) ≤ k ∧ k < cap) (v : α) :
    ∃ t', t.setValues (.arr idx) [v] = .ok t' ∧
      ∀ p, p < cap → t'.values[p]? = if ∃ k ∈ idx, denotes cap k p then some v else t.values[p]? := by
  have hinv := h.inv hc hu
  obtain ⟨t', e, hinv', _, hv⟩ := hinv.setValues_ok (idx := .arr idx) (by simpa [IdxArg.toList] using hi)
    (vals := [v]) (vals' := List.replicate idx.length v) (by
      change broadcast idx.length _ = _
      unfold broadcast
      by_cases h1 : [v].length = idx.length
      · rw [if_pos h1]; simp at h1; simp [← h1]
      · rw [if_neg h1])
  refine ⟨t', e, ?_⟩
  intro p hp
  rw [hv p hp]
  simp only [IdxArg.toList, lastAssigned]
  by_cases hex : ∃ k ∈ idx, denotes cap k p
  · rw [if_pos hex]
    have hne : (idx.zip (List.replicate idx.length v)).filter (fun kv => decide (denotes cap kv.1 p)) ≠ [] := by
      obtain ⟨k, hk, hd⟩ := hex
      intro hnil
      rw [List.filter_eq_nil_iff] at hnil
      obtain ⟨i, hi', rfl⟩ := List.getElem_of_mem hk
      refine hnil (idx[i], v) ?_ (by simpa using hd)
      rw [List.mem_iff_getElem]
      exact ⟨i, by simpa using hi', by simp⟩
    rw [List.getLast?_eq_some_getLast hne]
    have h1 := List.getLast_mem hne
    generalize List.getLast _ hne = x at h1
    obtain ⟨k, w⟩ := x
    have h2 := (List.mem_replicate.1 (List.of_mem_zip (List.mem_filter.1 h1).1).2).2
    rw [h2]; rfl
  · rw [if_neg hex]
    have : (idx.zip (List.replicate idx.length v)).filter (fun kv => decide (denotes cap kv.1 p)) = [] := by
      rw [List.filter_eq_nil_iff]
      rintro ⟨k, w⟩ hkw
      have := (List.of_mem_zip hkw).1
      simp only [decide_eq_true_eq]
      exact fun hd => hex ⟨k, this, hd⟩
    rw [this]; rfl

/-- C02, `set_values(..., values)`: the whole vector is replaced. -/
theorem C02_write_all {cap : Nat} (hc : 0 < cap) {red : α → α → α} {init : α} (hu : red init init = init)
    {t : Tree α} (h : Reachable cap red init t) {vals : List α} (hlen : vals.length = cap) :
    ∃ t', t.setValues .all vals = .ok t' ∧ t'.values = vals := by
  obtain ⟨t', e, _, hv⟩ := (h.inv hc hu).set_all hlen
  exact ⟨t', e, hv⟩

/-- C02, rejected calls: an out-of-range index raises `IndexError`, values whose length fits neither the index list nor
a single value raise `ValueError`.  (The model returns no new tree in these cases; the Python code raises before it
assigns.) -/
theorem C02_rejected {cap : Nat} (hc : 0 < cap) {red : α → α → α} {init : α} (hu : red init init = init)
    {t : Tree α} (h : Reachable cap red init t) (idx : List Int) (vals : List α) :
    ((∃ k ∈ idx, k < -(cap : Int) ∨ (cap : Int) ≤ k) → t.setValues (.arr idx) vals = .error .indexError) ∧
    ((∀ k ∈ idx, -(cap : Int) ≤ k ∧ k < cap) → vals.length ≠ idx.length → vals.length ≠ 1 →
      t.setValues (.arr idx) vals = .error .valueError) := by
  have hinv := h.inv hc hu
  constructor
  · rintro ⟨k, hk, hbad⟩
    apply hinv.setValues_bad_idx
    intro hall
    have := hall k (by simpa [IdxArg.toList] using hk)
    omega
  · intro hi h1 h2
    apply hinv.setValues_bad_shape (by simpa [IdxArg.toList] using hi)
    change broadcast idx.length _ = _
    unfold broadcast
    rw [if_neg h1]
    match vals, h2 with
    | [], _ => rfl
    | _ :: _ :: _, _ => rfl

example : ∃ t : Tree Int, Reachable 5 (· + ·) 0 t ∧
    (t.setValues (.arr [1, -4, 3]) [5, 6, 7]).map (·.values) = .ok [0, 6, 0, 7, 0] ∧
    (t.setValues (.arr [1, 5]) [5, 6]).map (·.values) = .error .indexError :=
  ⟨Tree.init 5 (· + ·) 0, ⟨[], rfl⟩, by decide +kernel, by decide +kernel⟩

/-! ### C03 and C04: partial reductions -/

theorem wrapRange_valid {cap start stop : Nat} (h1 : start < stop) (h2 : stop ≤ cap) :
    wrapRange cap (start, stop) = (start, stop - 1) := by
  simp only [wrapRange]
  rw [Int.emod_eq_of_lt (by omega) (by omega), Int.emod_eq_of_lt (by omega) (by omega)]
  simp

theorem readsPastEnd_single {cap start stop : Nat} (h1 : start < stop) (h2 : stop ≤ cap) :
    ¬ ReadsPastEnd cap [((start : Int), (stop : Int))] := by
  rintro ⟨_, ⟨r, hr, e⟩, r', hr', ne⟩
  simp only [List.mem_singleton] at hr hr'
  subst hr; subst hr'
  rw [wrapRange_valid h1 h2] at e ne
  simp at e ne
  have : start = stop - 1 := by omega
  exact ne (by rw [← this])

/-- C03 for commutative reducers and one range: `partial_reduce(start, stop)` is the reduction of
`values[start:stop]`. -/
theorem C03_partial_reduce_partial {cap : Nat} {red : α → α → α} {init : α} (hu : IsUnital red init)
    (hcomm : ∀ a b, red a b = red b a) {t : Tree α} (h : Reachable cap red init t) {start stop : Nat}
    (h1 : start < stop) (h2 : stop ≤ cap) :
    t.partialReduce [((start : Int), (stop : Int))] = .ok [reduce red init (slice t.values start stop)] := by
  have hinv := h.inv (by omega) (hu.unit_left init)
  rw [hinv.partialReduce_ok hu hcomm (by simp [wrapRange_valid h1 h2]; omega) (readsPastEnd_single h1 h2)]
  simp only [List.map_cons, List.map_nil, wrapRange_valid h1 h2]
  rw [Nat.sub_add_cancel (by omega)]

/-- C03, the batched form (commutative reducers): every entry is the reduction of its slice, on all batches except the
ones of `C03_batched_counterexample`. -/
theorem C03_partial_reduce_batched_partial {cap : Nat} (hc : 0 < cap) {red : α → α → α} {init : α} (hu : IsUnital red init)
    (hcomm : ∀ a b, red a b = red b a) {t : Tree α} (h : Reachable cap red init t) {ranges : List (Nat × Nat)}
    (hr : ∀ r ∈ ranges, r.1 < r.2 ∧ r.2 ≤ cap)
    (hsafe : (¬ ∃ m, cap = 2 ^ m) ∨ (∀ r ∈ ranges, r.1 ≠ cap - 1) ∨ (∀ r ∈ ranges, r.1 / 2 = (r.2 - 1) / 2)) :
    t.partialReduce (ranges.map (fun r => ((r.1 : Int), (r.2 : Int)))) =
      .ok (ranges.map (fun r => reduce red init (slice t.values r.1 r.2))) := by
  have hinv := h.inv hc (hu.unit_left init)
  rw [hinv.partialReduce_ok hu hcomm]
  · rw [List.map_map]
    congr 1
    apply List.map_congr_left
    intro r hr'
    have := hr r hr'
    simp only [Function.comp, wrapRange_valid this.1 this.2]
    rw [Nat.sub_add_cancel (by omega)]
  · simp only [List.mem_map]
    rintro _ ⟨r, hr', rfl⟩
    have := hr r hr'
    rw [wrapRange_valid this.1 this.2]
    simp; omega
  · rintro ⟨hpow, ⟨x, hx, e⟩, y, hy, ne⟩
    simp only [List.mem_map] at hx hy
    obtain ⟨r, hr', rfl⟩ := hx
    obtain ⟨s, hs', rfl⟩ := hy
    have a1 := hr r hr'
    have a2 := hr s hs'
    rw [wrapRange_valid a1.1 a1.2] at e
    rw [wrapRange_valid a2.1 a2.2] at ne
    rcases hsafe with hn | hn | hn
    · exact hn ⟨_, hpow⟩
    · exact hn r hr' e
    · exact ne (hn s hs')

/-- C03 is false for batches: on *every* tree whose capacity is a power of two, a batch that holds the range of the last
value only and some range that is not inside one pair of siblings raises `IndexError`, although each range is
valid. -/
theorem C03_batched_crash {m : Nat} {red : α → α → α} {init : α} (hu : red init init = init)
    {t : Tree α} (h : Reachable (2 ^ m) red init t) {ranges : List (Nat × Nat)}
    (hr : ∀ r ∈ ranges, r.1 < r.2 ∧ r.2 ≤ 2 ^ m) (hlast : (2 ^ m - 1, 2 ^ m) ∈ ranges)
    (hwide : ∃ r ∈ ranges, r.1 / 2 ≠ (r.2 - 1) / 2) :
    t.partialReduce (ranges.map (fun r => ((r.1 : Int), (r.2 : Int)))) = .error .indexError := by
  have hp := Nat.two_pow_pos m
  have hinv := h.inv hp hu
  apply hinv.partialReduce_crash
  · simp only [List.mem_map]
    rintro _ ⟨r, hr', rfl⟩
    have := hr r hr'
    rw [wrapRange_valid this.1 this.2]
    simp; omega
  · refine ⟨by rw [Nat.clog_pow 2 m (by omega)], ⟨_, List.mem_map.2 ⟨_, hlast, rfl⟩, ?_⟩, ?_⟩
    · rw [wrapRange_valid (by omega) (by omega)]
    · obtain ⟨r, hr', hne⟩ := hwide
      refine ⟨_, List.mem_map.2 ⟨r, hr', rfl⟩, ?_⟩
      have := hr r hr'
      rw [wrapRange_valid this.1 this.2]
      exact hne

/-- The hypotheses of `C03_batched_crash` are met: capacity 4, ranges `[3:4]` and `[0:3]`. -/
example : (Tree.init 4 (· + ·) (0 : Int)).partialReduce [(3, 4), (0, 3)] = .error .indexError :=
  C03_batched_crash (m := 2) rfl ⟨[], rfl⟩ (ranges := [(3, 4), (0, 3)]) (by decide) (by decide) (by decide)

/-- C03 is false for batches of valid ranges. -/
theorem C03_batched_counterexample : ¬ ∀ (cap : Nat) (t : Tree Int), 0 < cap → Reachable cap (· + ·) 0 t →
    ∀ ranges : List (Nat × Nat), (∀ r ∈ ranges, r.1 < r.2 ∧ r.2 ≤ cap) →
    t.partialReduce (ranges.map (fun r => ((r.1 : Int), (r.2 : Int)))) =
      .ok (ranges.map (fun r => reduce (· + ·) 0 (slice t.values r.1 r.2))) := by
  intro hall
  have h1 := hall 4 (Tree.init 4 (· + ·) 0) (by decide) ⟨[], rfl⟩ [(3, 4), (0, 3)] (by decide)
  have h2 := C03_batched_crash (m := 2) (red := (· + ·)) (init := (0 : Int)) rfl
    (t := Tree.init 4 (· + ·) 0) ⟨[], rfl⟩ (ranges := [(3, 4), (0, 3)]) (by decide) (by decide)
    (by decide)
  rw [h2] at h1
  cases h1

/-- C03 is false for a reducer that is associative with a unit but not commutative (list concatenation): the right
accumulator appends its pieces in the wrong order. -/
theorem C03_noncommutative_counterexample : ¬ ∀ (t : Tree (List Nat)), Reachable 4 (· ++ ·) [] t →
    IsUnital (α := List Nat) (· ++ ·) [] → ∀ start stop : Nat, start < stop → stop ≤ 4 →
    t.partialReduce [((start : Int), (stop : Int))] = .ok [reduce (· ++ ·) [] (slice t.values start stop)] := by
  intro hall
  have h := hall (run (Tree.init 4 (· ++ ·) []) [⟨.all, [[0], [1], [2], [3]]⟩]) ⟨_, rfl⟩
    ⟨fun a b c => by simp, fun a => by simp, fun a => by simp⟩ 1 4 (by decide) (by decide)
  revert h
  decide +kernel

example : ∃ t : Tree Int, Reachable 6 (· + ·) 0 t ∧ t.values = [1, 2, 3, 4, 5, 6] ∧
    t.partialReduce [(1, 5)] = .ok [14] ∧ t.partialReduce [(1, 5), (5, 6), (0, 6)] = .ok [14, 6, 21] :=
  ⟨run (Tree.init 6 (· + ·) 0) [⟨.all, [1, 2, 3, 4, 5, 6]⟩], ⟨_, rfl⟩, by decide +kernel, by decide +kernel,
    by decide +kernel⟩

/-- C04 is false: `partial_reduce(0, 0)` is accepted on every non-empty tree and returns the reduction of *all* values
instead of raising `IndexError`. -/
theorem C04_counterexample_empty_range {cap : Nat} (hc : 0 < cap) {red : α → α → α} {init : α} (hu : IsUnital red init)
    (hcomm : ∀ a b, red a b = red b a) {t : Tree α} (h : Reachable cap red init t) :
    t.partialReduce [(0, 0)] = .ok [reduce red init t.values] := by
  have hinv := h.inv hc (hu.unit_left init)
  have hw : wrapRange cap (0, 0) = (0, cap - 1) := by
    simp only [wrapRange]
    have : ((0 : Int) - 1) % (cap : Int) = cap - 1 := by
      rw [← Int.add_emod_right, Int.emod_eq_of_lt (by omega) (by omega)]; omega
    rw [this]; simp
  rw [hinv.partialReduce_ok hu hcomm (by simp [hw])]
  · simp only [List.map_cons, List.map_nil, hw]
    rw [Nat.sub_add_cancel (by omega)]
    have hl := hinv.values_length
    simp [slice, List.take_of_length_le (show t.values.length ≤ cap by omega)]
  · rintro ⟨hpow, ⟨r, hr, e⟩, r', hr', ne⟩
    simp only [List.mem_singleton] at hr hr'
    subst hr; subst hr'
    rw [hw] at e ne
    simp at e ne
    omega

/-- C04, what does hold.  For arguments in the documented ranges `0 ≤ start < capacity`, `1 ≤ stop ≤ capacity`, an empty
range is rejected with `IndexError`.  (In general the outcome depends only on the residues of `start` and `stop - 1`
modulo the capacity: `C04_wraps_around`.) -/
theorem C04_empty_rejected_partial {cap : Nat} {red : α → α → α} {init : α} (hu : red init init = init)
    {t : Tree α} (h : Reachable cap red init t) {start stop : Nat} (h1 : start < cap) (h2 : 1 ≤ stop) (h3 : stop ≤ start) :
    t.partialReduce [((start : Int), (stop : Int))] = .error .indexError := by
  have hinv := h.inv (by omega) hu
  apply hinv.partialReduce_err
  refine ⟨_, List.mem_singleton.2 rfl, ?_⟩
  simp only [wrapRange]
  rw [Int.emod_eq_of_lt (by omega) (by omega), Int.emod_eq_of_lt (by omega) (by omega)]
  omega

/-- C04: the exact behaviour on a single pair of integers.  `p` and `q` are the residues of `start` and `stop - 1`
modulo the capacity; the call is rejected iff `q < p`, otherwise it reduces `values[p : q + 1]`. -/
theorem C04_wraps_around {cap : Nat} (hc : 0 < cap) {red : α → α → α} {init : α} (hu : IsUnital red init)
    (hcomm : ∀ a b, red a b = red b a) {t : Tree α} (h : Reachable cap red init t) (start stop : Int) (p q : Nat)
    (hp : (p : Int) = start % cap) (hq : (q : Int) = (stop - 1) % cap) :
    t.partialReduce [(start, stop)] =
      if q < p then .error .indexError else .ok [reduce red init (slice t.values p (q + 1))] := by
  have hinv := h.inv hc (hu.unit_left init)
  have hw : wrapRange cap (start, stop) = (p, q) := by
    simp only [wrapRange, ← hp, ← hq]; rfl
  by_cases hqp : q < p
  · rw [if_pos hqp]
    exact hinv.partialReduce_err ⟨_, List.mem_singleton.2 rfl, by rw [hw]; exact hqp⟩
  · rw [if_neg hqp, hinv.partialReduce_ok hu hcomm (by simp [hw]; omega)]
    · simp [hw]
    · rintro ⟨hpow, ⟨r, hr, e⟩, r', hr', ne⟩
      simp only [List.mem_singleton] at hr hr'
      subst hr; subst hr'
      have := wrapRange_lt hc (start, stop)
      rw [hw] at e ne this
      simp at e ne this
      omega

example : ∃ t : Tree Int, Reachable 3 (· + ·) 0 t ∧ t.partialReduce [(0, 0)] = .ok [6] ∧
    t.partialReduce [(2, 1)] = .error .indexError ∧ t.partialReduce [(4, 9)] = .ok [5] :=
  ⟨run (Tree.init 3 (· + ·) 0) [⟨.all, [1, 2, 3]⟩], ⟨_, rfl⟩, by decide +kernel, by decide +kernel, by decide +kernel⟩

/-! ### The reducers that coax ships (SumTree, MinTree, MaxTree) are covered -/

/-- `SumTree` (lines 299-301). -/
theorem sumTree_unital {K : Type _} [Field K] : IsUnital (α := K) (· + ·) 0 ∧ ∀ a b : K, a + b = b + a :=
  ⟨⟨fun a b c => add_assoc a b c, fun a => zero_add a, fun a => add_zero a⟩, fun a b => add_comm a b⟩

/-- `MinTree` (lines 427-430): `init_value = float('inf')`. -/
theorem minTree_unital {K : Type _} [LinearOrder K] :
    IsUnital (α := WithTop K) min ⊤ ∧ ∀ a b : WithTop K, min a b = min b a :=
  ⟨⟨fun a b c => min_assoc a b c, fun a => by simp, fun a => by simp⟩, fun a b => min_comm a b⟩

/-- `MaxTree` (lines 444-447): `init_value = -float('inf')`. -/
theorem maxTree_unital {K : Type _} [LinearOrder K] :
    IsUnital (α := WithBot K) max ⊥ ∧ ∀ a b : WithBot K, max a b = max b a :=
  ⟨⟨fun a b c => max_assoc a b c, fun a => by simp, fun a => by simp⟩, fun a b => max_comm a b⟩

/-! ### C05–C07: `SumTree.inverse_cdf` and `SumTree.sample` -/

section Sum

variable {K : Type _} [Field K] [LinearOrder K] [IsStrictOrderedRing K]

theorem Inv.inverseCdf_ok {cap : Nat} {t : Tree K} (h : Inv cap (· + ·) 0 t) (hpos : 0 < t.values.sum) {u : List K}
    (hu : ∀ x ∈ u, 0 ≤ x ∧ x ≤ 1) :
    t.inverseCdf u = u.mapM (fun x => descend t.arr (t.height - 1) 1 0 0 (x * t.values.sum)) := by
  have hnot : (u.any (fun x => decide (x > 1)) || u.any (fun x => decide (x < 0))) = false := by
    rw [Bool.or_eq_false_iff, List.any_eq_false, List.any_eq_false]
    exact ⟨fun x hx => by simpa using (hu x hx).2, fun x hx => by simpa using (hu x hx).1⟩
  simp only [Tree.inverseCdf, h.root_sum]
  simp [bind, Except.bind, not_le.2 hpos, hnot, pure, Except.pure]

/-- C05.  For `u ∈ [0, 1)` on a tree of values with positive total, `inverse_cdf` returns for each entry an index
`i < capacity` with `sum(values[:i]) ≤ u * sum(values) < sum(values[:i+1])`, and its value is positive. -/
theorem C05_inverse_cdf {cap : Nat} (hc : 0 < cap) {t : Tree K} (h : Reachable cap (· + ·) 0 t)
    (hpos : 0 < t.values.sum) {u : List K} (hu : ∀ x ∈ u, 0 ≤ x ∧ x < 1) :
    ∃ idx, t.inverseCdf u = .ok idx ∧ List.Forall₂ (fun x i => i < cap ∧
      cumsum t.values i ≤ x * t.values.sum ∧ x * t.values.sum < cumsum t.values (i + 1) ∧
      ∃ v, t.values[i]? = some v ∧ 0 < v) u idx := by
  have hinv := h.inv hc (add_zero 0)
  rw [hinv.inverseCdf_ok hpos (fun x hx => ⟨(hu x hx).1, (hu x hx).2.le⟩)]
  induction u with
  | nil => exact ⟨[], rfl, .nil⟩
  | cons x u ih =>
    obtain ⟨idx, e, hf⟩ := ih (fun y hy => hu y (by simp [hy]))
    have hx := hu x (by simp)
    obtain ⟨i, e', hi, hlo, hhi⟩ := hinv.descend_root (target := x * t.values.sum) (by nlinarith) (by nlinarith)
    refine ⟨i :: idx, ?_, .cons ⟨hi, hlo, hhi, ?_⟩ hf⟩
    · rw [List.mapM_cons, e', e]; rfl
    · have hl : i < t.values.length := by rw [hinv.values_length]; exact hi
      refine ⟨t.values[i], List.getElem?_eq_getElem hl, ?_⟩
      rw [cumsum_succ (List.getElem?_eq_getElem hl)] at hhi
      linarith

/-- C05, uniqueness: with non-negative values no other index satisfies the two inequalities. -/
theorem C05_index_unique {vals : List K} (hnn : ∀ x ∈ vals, 0 ≤ x) {y : K} {i j : Nat}
    (h1 : cumsum vals i ≤ y) (h2 : y < cumsum vals (i + 1)) (h3 : cumsum vals j ≤ y) (h4 : y < cumsum vals (j + 1)) :
    i = j := by
  rcases Nat.lt_trichotomy i j with h | h | h
  · have := cumsum_mono hnn (show i + 1 ≤ j by omega); linarith
  · exact h
  · have := cumsum_mono hnn (show j + 1 ≤ i by omega); linarith

/-- C06.  On a tree of non-negative values with positive total, a single draw `u ∈ [0, 1)` is mapped to `i` exactly if
`u` lies in the interval `[sum(values[:i]) / total, sum(values[:i+1]) / total)`. -/
theorem C06_sample_interval {cap : Nat} (hc : 0 < cap) {t : Tree K} (h : Reachable cap (· + ·) 0 t)
    (hnn : ∀ x ∈ t.values, 0 ≤ x) (hpos : 0 < t.values.sum) {u : K} (hu : 0 ≤ u ∧ u < 1) (i : Nat) :
    t.inverseCdf [u] = .ok [i] ↔
      cumsum t.values i / t.values.sum ≤ u ∧ u < cumsum t.values (i + 1) / t.values.sum := by
  obtain ⟨idx, e, hf⟩ := C05_inverse_cdf hc h hpos (u := [u]) (by simpa using hu)
  obtain ⟨j, hj, rfl⟩ : ∃ j, (j < cap ∧ cumsum t.values j ≤ u * t.values.sum ∧
      u * t.values.sum < cumsum t.values (j + 1)) ∧ idx = [j] := by
    cases hf with
    | cons h1 h2 => cases h2; exact ⟨_, ⟨h1.1, h1.2.1, h1.2.2.1⟩, rfl⟩
  rw [e, div_le_iff₀ hpos, lt_div_iff₀ hpos]
  constructor
  · intro he
    simp only [Except.ok.injEq, List.cons.injEq, and_true] at he
    subst he
    exact ⟨hj.2.1, hj.2.2⟩
  · rintro ⟨h1, h2⟩
    rw [C05_index_unique hnn hj.2.1 hj.2.2 h1 h2]

/-- C06: `sample(n)` asks the generator for `n` numbers and returns one index per number; every index is below the
capacity and has positive value.  `n ≤ 0` is a `TypeError`. -/
theorem C06_sample_indices {cap : Nat} (hc : 0 < cap) {t : Tree K} (h : Reachable cap (· + ·) 0 t)
    (hpos : 0 < t.values.sum) (rnd : Nat → List K) (hlen : ∀ n, (rnd n).length = n)
    (hrnd : ∀ n, ∀ x ∈ rnd n, 0 ≤ x ∧ x < 1) (n : Int) :
    (n ≤ 0 → t.sample n rnd = .error .typeError) ∧
    (0 < n → ∃ idx, t.sample n rnd = .ok idx ∧ (idx.length : Int) = n ∧
      ∀ i ∈ idx, i < cap ∧ ∃ v, t.values[i]? = some v ∧ 0 < v) := by
  constructor
  · intro hn; simp [Tree.sample, not_lt.2 hn]
  · intro hn
    obtain ⟨idx, e, hf⟩ := C05_inverse_cdf hc h hpos (u := rnd n.toNat) (hrnd _)
    refine ⟨idx, by simp [Tree.sample, hn, e], ?_, ?_⟩
    · rw [← hf.length_eq, hlen]; omega
    · have : ∀ (u : List K) (idx : List Nat), List.Forall₂ (fun x i => i < cap ∧
        cumsum t.values i ≤ x * t.values.sum ∧ x * t.values.sum < cumsum t.values (i + 1) ∧
        ∃ v, t.values[i]? = some v ∧ 0 < v) u idx → ∀ i ∈ idx, i < cap ∧ ∃ v, t.values[i]? = some v ∧ 0 < v := by
        intro u idx hf
        induction hf with
        | nil => simp
        | cons h1 _ ih =>
          intro i hi
          rcases List.mem_cons.1 hi with rfl | hi
          · exact ⟨h1.1, h1.2.2.2⟩
          · exact ih i hi
      exact this _ _ hf

/-- C07, rejections: a tree whose total is not positive gives `RuntimeError`; otherwise any entry outside `[0, 1]` gives
`ValueError`. -/
theorem C07_rejections {cap : Nat} (hc : 0 < cap) {t : Tree K} (h : Reachable cap (· + ·) 0 t) (u : List K) :
    (t.values.sum ≤ 0 → t.inverseCdf u = .error .runtimeError) ∧
    (0 < t.values.sum → (∃ x ∈ u, x < 0 ∨ 1 < x) → t.inverseCdf u = .error .valueError) := by
  have hinv := h.inv hc (add_zero 0)
  constructor
  · intro hs
    simp only [Tree.inverseCdf, hinv.root_sum]
    simp [bind, Except.bind, hs, throw, throwThe, MonadExceptOf.throw]
  · rintro hs ⟨x, hx, hbad⟩
    have hany : (u.any (fun x => decide (x > 1)) || u.any (fun x => decide (x < 0))) = true := by
      rw [Bool.or_eq_true, List.any_eq_true, List.any_eq_true]
      rcases hbad with hb | hb
      · exact .inr ⟨x, hx, by simpa using hb⟩
      · exact .inl ⟨x, hx, by simpa using hb⟩
    simp only [Tree.inverseCdf, hinv.root_sum]
    simp [bind, Except.bind, not_le.2 hs, hany, throw, throwThe, MonadExceptOf.throw, pure, Except.pure]

/-- C07 at the end point: for non-negative values `inverse_cdf(1)` is always the very last leaf of the tree, whatever
the values are. -/
theorem C07_endpoint {cap : Nat} (hc : 0 < cap) {t : Tree K} (h : Reachable cap (· + ·) 0 t)
    (hnn : ∀ x ∈ t.values, 0 ≤ x) (hpos : 0 < t.values.sum) :
    t.inverseCdf [1] = .ok [2 ^ Nat.clog 2 cap - 1] := by
  have hinv := h.inv hc (add_zero 0)
  rw [hinv.inverseCdf_ok hpos (by simp)]
  have hnn' : ∀ x ∈ t.leaves, 0 ≤ x := by
    rw [hinv.leaves_eq]
    intro x hx
    rcases List.mem_append.1 hx with hx | hx
    · exact hnn x hx
    · rw [(List.mem_replicate.1 hx).2]
  have hh := hinv.height_pos
  have := descend_one hinv hnn' (t.height - 1) 0 0 (1 * t.values.sum) (by omega) (by simp) (by
    rw [hinv.cumsum_leaves_ge (by simpa using hinv.cap_le)]; simp [cumsum])
  have he := hinv.height_eq
  have hcl : t.height - 1 = Nat.clog 2 cap := by omega
  rw [hcl] at this
  simp only [List.mapM_cons, List.mapM_nil, hcl]
  simp only [Nat.pow_zero, Nat.sub_self, Nat.zero_add, Nat.one_mul, Nat.add_zero] at this
  rw [this]; rfl

/-- C07 is false at `u = 1`: the returned index need not be an index of the tree. -/
theorem C07_counterexample : ∃ (cap : Nat) (t : Tree ℚ), Reachable cap (· + ·) 0 t ∧ (∀ x ∈ t.values, 0 ≤ x) ∧
    0 < t.values.sum ∧ ∃ i, t.inverseCdf [1] = .ok [i] ∧ t.values[i]? = none := by
  refine ⟨3, run (Tree.init 3 (· + ·) 0) [⟨.all, [1, 1, 1]⟩], ⟨_, rfl⟩, ?_, ?_, 3, ?_, ?_⟩ <;> decide +kernel

/-- C07, what does hold on the closed interval: the call succeeds with indices below `2 ^ clog2(capacity)`. -/
theorem C07_closed_interval_partial {cap : Nat} (hc : 0 < cap) {t : Tree K} (h : Reachable cap (· + ·) 0 t)
    (hnn : ∀ x ∈ t.values, 0 ≤ x) (hpos : 0 < t.values.sum) {u : K} (hu : 0 ≤ u ∧ u ≤ 1) :
    ∃ i, t.inverseCdf [u] = .ok [i] ∧ i < 2 ^ Nat.clog 2 cap ∧
      (u < 1 → i < cap ∧ ∃ v, t.values[i]? = some v ∧ 0 < v) := by
  rcases lt_or_eq_of_le hu.2 with hlt | rfl
  · obtain ⟨idx, e, hf⟩ := C05_inverse_cdf hc h hpos (u := [u]) (by simpa using ⟨hu.1, hlt⟩)
    cases hf with
    | cons h1 h2 =>
      cases h2
      have := Nat.le_pow_clog (b := 2) (by omega) cap
      exact ⟨_, e, by omega, fun _ => ⟨h1.1, h1.2.2.2⟩⟩
  · exact ⟨_, C07_endpoint hc h hnn hpos, by have := Nat.two_pow_pos (Nat.clog 2 cap); omega, fun hlt => absurd hlt (lt_irrefl _)⟩

end Sum

/-- C06, probability: the Lebesgue measure of the set of draws `u ∈ [0, 1)` that are mapped to `i` is
`values[i] / sum(values)`. -/
theorem C06_sample_probability {cap : Nat} (hc : 0 < cap) {t : Tree ℝ} (h : Reachable cap (· + ·) 0 t)
    (hnn : ∀ x ∈ t.values, 0 ≤ x) (hpos : 0 < t.values.sum) {i : Nat} {v : ℝ} (hv : t.values[i]? = some v) :
    MeasureTheory.volume {u : ℝ | u ∈ Set.Ico 0 1 ∧ t.inverseCdf [u] = .ok [i]} =
      ENNReal.ofReal (v / t.values.sum) := by
  have hset : {u : ℝ | u ∈ Set.Ico 0 1 ∧ t.inverseCdf [u] = .ok [i]} =
      Set.Ico (cumsum t.values i / t.values.sum) (cumsum t.values (i + 1) / t.values.sum) := by
    ext u
    simp only [Set.mem_ofPred_eq, Set.mem_Ico]
    constructor
    · rintro ⟨hu, he⟩
      exact (C06_sample_interval hc h hnn hpos hu i).1 he
    · rintro ⟨h1, h2⟩
      have hlo : 0 ≤ cumsum t.values i / t.values.sum := by
        apply div_nonneg _ hpos.le
        have := cumsum_mono hnn (Nat.zero_le i)
        simpa [cumsum] using this
      have hhi : cumsum t.values (i + 1) / t.values.sum ≤ 1 := by
        rw [div_le_one hpos]
        have := cumsum_mono hnn (Nat.le_max_left (i + 1) t.values.length)
        have e : cumsum t.values (max (i + 1) t.values.length) = t.values.sum := by
          unfold cumsum; rw [List.take_of_length_le (Nat.le_max_right _ _)]
        rwa [e] at this
      have hu : 0 ≤ u ∧ u < 1 := ⟨by linarith, by linarith⟩
      exact ⟨hu, (C06_sample_interval hc h hnn hpos hu i).2 ⟨h1, h2⟩⟩
  rw [hset, Real.volume_Ico, cumsum_succ hv]
  congr 1
  field_simp
  ring

/-- A tree meeting the hypotheses of C05–C07, with a zero weight between positive ones. -/
example : ∃ t : Tree ℚ, Reachable 3 (· + ·) 0 t ∧ (∀ x ∈ t.values, 0 ≤ x) ∧ 0 < t.values.sum ∧
    t.inverseCdf [0, 1/4, 1/2, 9/10] = .ok [0, 2, 2, 2] := by
  refine ⟨run (Tree.init 3 (· + ·) 0) [⟨.all, [1, 0, 3]⟩], ⟨_, rfl⟩, ?_, ?_, ?_⟩ <;> decide +kernel

end Coax.SegmentTree
