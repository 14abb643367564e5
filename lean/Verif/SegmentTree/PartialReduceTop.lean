import Verif.SegmentTree.PartialReduce

/-! `partial_reduce` as a whole: exact outcome on every list of integer ranges (commutative reducer). -/

namespace Coax.SegmentTree

variable {α : Type _} {cap : Nat} {red : α → α → α} {init : α} {t : Tree α}

/-- First and last position (inclusive) that a pair `(start, stop)` is turned into. -/
def wrapRange (cap : Nat) (r : Int × Int) : Nat × Nat :=
  ((r.1 % (cap : Int)).toNat, ((r.2 - 1) % (cap : Int)).toNat)

/-- A batch on which the code reads past the end of its array: the tree is full (capacity a power of two), one range
consists of the last value only, and another range is not contained in a sibling pair of leaves. -/
def ReadsPastEnd (cap : Nat) (ranges : List (Int × Int)) : Prop :=
  cap = 2 ^ Nat.clog 2 cap ∧ (∃ r ∈ ranges, (wrapRange cap r).1 = cap - 1) ∧
    ∃ r ∈ ranges, (wrapRange cap r).1 / 2 ≠ (wrapRange cap r).2 / 2

theorem mapM_ok {β γ : Type _} {f : β → Except Err γ} {g : β → γ} : ∀ {l : List β}, (∀ x ∈ l, f x = .ok (g x)) →
    l.mapM f = .ok (l.map g)
  | [], _ => rfl
  | x :: l, h => by
    have h2 := mapM_ok (f := f) (g := g) (l := l) (fun y hy => h y (by simp [hy]))
    simp [List.mapM_cons, h x (by simp), h2]
    rfl

theorem mapM_error {β γ : Type _} {f : β → Except Err γ} {err : Err} : ∀ {l : List β},
    (∀ x ∈ l, (∃ y, f x = .ok y) ∨ f x = .error err) → (∃ x ∈ l, f x = .error err) →
    l.mapM f = .error err
  | [], _, h => by simp at h
  | x :: l, h, hex => by
    rcases h x (by simp) with ⟨y, hy⟩ | hx
    · have : ∃ z ∈ l, f z = .error err := by
        obtain ⟨z, hz, hz'⟩ := hex
        rcases List.mem_cons.1 hz with rfl | hz
        · rw [hy] at hz'; cases hz'
        · exact ⟨z, hz, hz'⟩
      have := mapM_error (fun z hz => h z (by simp [hz])) this
      simp [List.mapM_cons, hy, this]
      rfl
    · simp [List.mapM_cons, hx]
      rfl

theorem wrapRange_lt (hc : 0 < cap) (r : Int × Int) : (wrapRange cap r).1 < cap ∧ (wrapRange cap r).2 < cap :=
  ⟨emod_toNat_lt hc _, emod_toNat_lt hc _⟩

theorem Inv.checkStartStop_ok (h : Inv cap red init t) {ranges : List (Int × Int)}
    (hr : ∀ r ∈ ranges, (wrapRange cap r).1 ≤ (wrapRange cap r).2) :
    t.checkStartStop ranges = .ok (ranges.map (fun r =>
      (2 ^ (t.height - 1) - 1 + (wrapRange cap r).1, 2 ^ (t.height - 1) - 1 + (wrapRange cap r).2))) := by
  simp only [Tree.checkStartStop, h.checkLevel]
  simp only [bind, Except.bind]
  rw [if_pos]
  · rfl
  · rw [List.all_eq_true]
    intro x hx
    simp only [List.mem_map] at hx
    obtain ⟨r, hr', rfl⟩ := hx
    have h1 := hr r hr'
    have h2 := wrapRange_lt h.cap_pos r
    simp only [wrapRange] at h1 h2
    simp only [Bool.and_eq_true, decide_eq_true_eq]
    omega

theorem Inv.checkStartStop_err (h : Inv cap red init t) {ranges : List (Int × Int)}
    (hr : ∃ r ∈ ranges, (wrapRange cap r).2 < (wrapRange cap r).1) :
    t.checkStartStop ranges = .error .indexError := by
  simp only [Tree.checkStartStop, h.checkLevel]
  simp only [bind, Except.bind]
  rw [if_neg]
  · rfl
  · rw [List.all_eq_true]
    intro hall
    obtain ⟨r, hr', hlt⟩ := hr
    have := hall _ (List.mem_map.2 ⟨r, hr', rfl⟩)
    simp only [wrapRange] at hlt
    simp only [Bool.and_eq_true, decide_eq_true_eq] at this
    omega

/-- The lane that `partial_reduce` starts with for the positions `p ≤ q`. -/
def startLane (t : Tree α) (d : α) (p q : Nat) : Lane α :=
  let off := 2 ^ (t.height - 1) - 1
  { i := off + p, j := off + q, done := decide (off + p = off + q),
    a := t.arr[off + p]?.getD d, b := if off + p = off + q then t.initValue else t.arr[off + q]?.getD d }

theorem Inv.leaf_get (h : Inv cap red init t) {p : Nat} (hp : p < cap) :
    ∃ v, t.arr[2 ^ (t.height - 1) - 1 + p]? = some v := by
  have h1 := h.len_eq
  have h2 := h.cap_le
  have : 2 ^ (t.height - 1) - 1 + p < t.arr.length := by omega
  exact ⟨_, List.getElem?_eq_getElem this⟩

theorem Inv.startLane_inv (hu : IsUnital red init) (h : Inv cap red init t) (d : α) {p q : Nat} (hpq : p ≤ q)
    (hq : q < cap) :
    LaneInv red init t.leaves (t.height - 1) 0 (reduce red init (slice t.values p (q + 1))) (startLane t d p q) := by
  have h2 := h.cap_le
  obtain ⟨v, hv⟩ := h.leaf_get (p := p) (by omega)
  obtain ⟨w, hw⟩ := h.leaf_get (p := q) (by omega)
  have hvl : t.leaves[p]? = some v := by rw [leaves_get, hv]
  have hwl : t.leaves[q]? = some w := by rw [leaves_get, hw]
  rw [← h.slice_leaves (by omega)]
  refine ⟨by simp [startLane], by simp [startLane]; omega, by simp [startLane]; omega, ?_, ?_⟩
  · intro hd
    simp only [startLane, decide_eq_true_eq] at hd
    have : p = q := by omega
    subst this
    simp only [startLane, hv, h.init_eq, if_true, Option.getD_some, hu.unit_right]
    rw [slice_single hvl, reduce_singleton hu]
  · intro hd
    simp only [startLane, decide_eq_false_iff_not] at hd
    refine ⟨by simp only [startLane]; omega, p, q + 1, ?_⟩
    simp only [startLane, hv, hw, Option.getD_some, Nat.add_sub_cancel_left, Nat.pow_zero, Nat.mul_one]
    refine ⟨by omega, by omega, ?_, ?_, trivial⟩
    · rw [slice_single hvl, reduce_singleton hu]
    · rw [if_neg hd, slice_single hwl, reduce_singleton hu]

/-- Some value; the tree is never empty. -/
theorem Inv.arr_ne (h : Inv cap red init t) : ∃ d : α, t.arr[0]? = some d := by
  have h1 := h.len_eq
  have := Nat.two_pow_pos (t.height - 1)
  exact ⟨_, List.getElem?_eq_getElem (show 0 < t.arr.length by omega)⟩

theorem Inv.lanes_start (h : Inv cap red init t) (d : α) (ranges : List (Int × Int)) :
    (ranges.map (fun r => (2 ^ (t.height - 1) - 1 + (wrapRange cap r).1,
        2 ^ (t.height - 1) - 1 + (wrapRange cap r).2))).mapM (fun (x : Nat × Nat) => do
      let a ← readAt t.arr x.1
      let b ← readAt t.arr x.2
      pure { i := x.1, j := x.2, done := decide (x.1 = x.2), a := a,
             b := if x.1 = x.2 then t.initValue else b : Lane α })
    = .ok (ranges.map (fun r => startLane t d (wrapRange cap r).1 (wrapRange cap r).2)) := by
  rw [List.mapM_map]
  apply mapM_ok
  intro r _
  have hlt := wrapRange_lt h.cap_pos r
  obtain ⟨v, hv⟩ := h.leaf_get hlt.1
  obtain ⟨w, hw⟩ := h.leaf_get hlt.2
  simp only [Function.comp, readAt_of_some hv, readAt_of_some hw, startLane, hv, hw, Option.getD_some]
  rfl

theorem Inv.partialReduce_ok (hu : IsUnital red init) (hcomm : ∀ a b, red a b = red b a) (h : Inv cap red init t)
    {ranges : List (Int × Int)} (hr : ∀ r ∈ ranges, (wrapRange cap r).1 ≤ (wrapRange cap r).2)
    (hcrash : ¬ ReadsPastEnd cap ranges) :
    t.partialReduce ranges =
      .ok (ranges.map (fun r => reduce red init (slice t.values (wrapRange cap r).1 ((wrapRange cap r).2 + 1)))) := by
  obtain ⟨d, hd⟩ := h.arr_ne
  simp only [Tree.partialReduce, h.checkStartStop_ok hr]
  simp only [bind, Except.bind]
  by_cases htriv : ∀ r ∈ ranges, (wrapRange cap r).1 = (wrapRange cap r).2
  · rw [if_pos]
    · rw [List.mapM_map]
      apply mapM_ok
      intro r hr'
      have hlt := wrapRange_lt h.cap_pos r
      obtain ⟨v, hv⟩ := h.leaf_get hlt.1
      simp only [Function.comp, readAt_of_some hv]
      rw [← htriv r hr']
      have : t.values[(wrapRange cap r).1]? = some v := by rw [h.values_get hlt.1, hv]
      rw [slice_single this, reduce_singleton hu]
    · rw [List.all_eq_true]
      intro x hx
      simp only [List.mem_map] at hx
      obtain ⟨r, hr', rfl⟩ := hx
      simp [htriv r hr']
  · rw [if_neg]
    · have hl := h.lanes_start d ranges
      simp only [bind, Except.bind] at hl
      rw [hl]
      simp only
      push Not at htriv
      obtain ⟨r₀, hr₀, hne⟩ := htriv
      have hh : 0 < t.height - 1 := by
        have h1 := wrapRange_lt h.cap_pos r₀
        have h2 := h.cap_le
        rcases Nat.eq_zero_or_pos (t.height - 1) with h0 | h0
        · rw [h0] at h2; simp at h2; omega
        · exact h0
      rw [h.red_eq]
      apply loop_ok hu hcomm h (t.height - 1) 0 _ _ hh (by omega)
      · unfold LanesInv
        rw [List.forall₂_map_left_iff, List.forall₂_map_right_iff, List.forall₂_same]
        intro r hr'
        exact h.startLane_inv hu d (hr r hr') (wrapRange_lt h.cap_pos r).2
      · right
        by_contra hcon
        push Not at hcon
        obtain ⟨⟨ln, hln, hlast⟩, ln₂, hln₂, hnd⟩ := hcon
        simp only [List.mem_map] at hln hln₂
        obtain ⟨r₁, hr₁, rfl⟩ := hln
        obtain ⟨r₂, hr₂, rfl⟩ := hln₂
        apply hcrash
        have hlt1 := wrapRange_lt h.cap_pos r₁
        have h2 := h.cap_le
        have h3 := h.len_eq
        have hpw : 2 ^ (t.height - 1) = 2 ^ Nat.clog 2 cap := by rw [h.height_eq]; simp
        simp only [startLane] at hlast
        refine ⟨by omega, ⟨r₁, hr₁, by omega⟩, r₂, hr₂, ?_⟩
        intro e
        simp [mark, startLane, e] at hnd
    · rw [List.all_eq_true]
      intro hall
      apply htriv
      intro r hr'
      have := hall _ (List.mem_map.2 ⟨r, hr', rfl⟩)
      simpa using this

theorem Inv.partialReduce_err (h : Inv cap red init t) {ranges : List (Int × Int)}
    (hr : ∃ r ∈ ranges, (wrapRange cap r).2 < (wrapRange cap r).1) :
    t.partialReduce ranges = .error .indexError := by
  simp only [Tree.partialReduce, h.checkStartStop_err hr]
  rfl

theorem accumulate_ok_or_err (red : α → α → α) (arr : List α) (o p : Nat) (ln : Lane α) :
    (∃ y, Lane.accumulate red arr o p ln = .ok y) ∨ Lane.accumulate red arr o p ln = .error .indexError := by
  unfold Lane.accumulate readAt
  cases arr[ln.i + 1]? <;> cases arr[ln.j - 1]? <;> simp [bind, Except.bind, pure, Except.pure]

/-- On the batches described by `ReadsPastEnd` the call fails. -/
theorem Inv.partialReduce_crash (h : Inv cap red init t) {ranges : List (Int × Int)}
    (hr : ∀ r ∈ ranges, (wrapRange cap r).1 ≤ (wrapRange cap r).2) (hcrash : ReadsPastEnd cap ranges) :
    t.partialReduce ranges = .error .indexError := by
  obtain ⟨d, hd⟩ := h.arr_ne
  obtain ⟨hpow, ⟨r₁, hr₁, hlast⟩, r₂, hr₂, hne⟩ := hcrash
  simp only [Tree.partialReduce, h.checkStartStop_ok hr]
  simp only [bind, Except.bind]
  rw [if_neg]
  · have hl := h.lanes_start d ranges
    simp only [bind, Except.bind] at hl
    rw [hl]
    simp only
    have h1 := wrapRange_lt h.cap_pos r₂
    have h2 := h.cap_le
    have h3 := h.len_eq
    obtain ⟨m, hm⟩ : ∃ m, t.height - 1 = m + 1 := by
      rcases Nat.eq_zero_or_pos (t.height - 1) with h0 | h0
      · rw [h0] at h2; simp at h2; omega
      · exact ⟨t.height - 1 - 1, by omega⟩
    rw [hm] at h2 h3
    have hpw : 2 ^ (m + 1) = cap := by rw [← hm, h.height_eq]; simpa using hpow.symm
    rw [hm]
    simp only [reduceLoop]
    rw [if_neg]
    · simp only [bind, Except.bind]
      rw [mapM_error (err := .indexError)]
      · intro x _; exact accumulate_ok_or_err _ _ _ _ _
      · refine ⟨_, List.mem_map.2 ⟨_, List.mem_map.2 ⟨r₁, hr₁, rfl⟩, rfl⟩, ?_⟩
        have hcp := h.cap_pos
        have hidx : 2 ^ (t.height - 1) - 1 + (wrapRange cap r₁).1 + 1 = t.arr.length := by
          rw [hm]; omega
        have hnone : t.arr[2 ^ (t.height - 1) - 1 + (wrapRange cap r₁).1 + 1]? = none := by
          rw [hidx]; simp
        simp only [Lane.accumulate, startLane, readAt, hnone]
        rfl
    · rw [List.all_eq_true]
      intro hall
      have := hall _ (List.mem_map.2 ⟨_, List.mem_map.2 ⟨r₂, hr₂, rfl⟩, rfl⟩)
      simp only [startLane, hm, Nat.add_sub_cancel_left, Bool.or_eq_true, decide_eq_true_eq] at this
      omega
  · rw [List.all_eq_true]
    intro hall
    have := hall _ (List.mem_map.2 ⟨r₂, hr₂, rfl⟩)
    simp only [decide_eq_true_eq] at this
    omega

end Coax.SegmentTree
