import Verif.SegmentTree.Invariant

/-! Every node of a consistent tree is the reduction of the leaves below it. -/

namespace Coax.SegmentTree

variable {α : Type _}

theorem foldl_unital {red : α → α → α} {init : α} (hu : IsUnital red init) (a : α) (xs : List α) :
    xs.foldl red a = red a (xs.foldl red init) := by
  induction xs generalizing a with
  | nil => simp [hu.unit_right]
  | cons x xs ih =>
    simp only [List.foldl_cons]
    rw [ih (red a x), ih (red init x), hu.unit_left, hu.assoc]

theorem reduce_append {red : α → α → α} {init : α} (hu : IsUnital red init) (xs ys : List α) :
    reduce red init (xs ++ ys) = red (reduce red init xs) (reduce red init ys) := by
  simp only [reduce, List.foldl_append]
  exact foldl_unital hu _ _

theorem reduce_replicate {red : α → α → α} {init : α} (hu : IsUnital red init) (n : Nat) :
    reduce red init (List.replicate n init) = init := by
  induction n with
  | zero => rfl
  | succ n ih =>
    simp only [reduce, List.replicate_succ, List.foldl_cons, hu.unit_left] at ih ⊢
    exact ih

theorem reduce_singleton {red : α → α → α} {init : α} (hu : IsUnital red init) (x : α) :
    reduce red init [x] = x := by
  simp [reduce, hu.unit_left]

theorem slice_append (xs : List α) {s m e : Nat} (h1 : s ≤ m) (h2 : m ≤ e) :
    slice xs s e = slice xs s m ++ slice xs m e := by
  unfold slice
  conv_lhs => rw [← List.take_append_drop (m - s) ((xs.take e).drop s)]
  congr 1
  · rw [← List.drop_take, List.take_take]
    congr 2
    omega
  · rw [List.drop_drop]
    congr 1
    omega

theorem slice_single {xs : List α} {s : Nat} {x : α} (h : xs[s]? = some x) : slice xs s (s + 1) = [x] := by
  unfold slice
  obtain ⟨hs, rfl⟩ := List.getElem?_eq_some_iff.1 h
  rw [List.drop_take]
  simp only [Nat.add_sub_cancel_left]
  rw [List.drop_eq_getElem_cons hs]
  rfl

theorem reduce_slice_split {red : α → α → α} {init : α} (hu : IsUnital red init) (xs : List α) {s m e : Nat}
    (h1 : s ≤ m) (h2 : m ≤ e) :
    reduce red init (slice xs s e) = red (reduce red init (slice xs s m)) (reduce red init (slice xs m e)) := by
  rw [slice_append xs h1 h2, reduce_append hu]

/-- All leaves, including the padding. -/
def Tree.leaves (t : Tree α) : List α := t.arr.drop (2 ^ (t.height - 1) - 1)

theorem leaves_get (t : Tree α) (k : Nat) : t.leaves[k]? = t.arr[2 ^ (t.height - 1) - 1 + k]? := by
  simp [Tree.leaves]

variable {cap : Nat} {red : α → α → α} {init : α} {t : Tree α}

theorem Inv.leaves_length (h : Inv cap red init t) : t.leaves.length = 2 ^ (t.height - 1) := by
  have := h.len_eq
  simp [Tree.leaves]; omega

theorem Inv.leaves_eq (h : Inv cap red init t) :
    t.leaves = t.values ++ List.replicate (2 ^ (t.height - 1) - cap) init := by
  apply List.ext_getElem?
  intro k
  have hl := h.values_length
  have hcl := h.cap_le
  by_cases hk : k < cap
  · rw [List.getElem?_append_left (by omega), h.values_get hk, leaves_get]
  · rw [List.getElem?_append_right (by omega), leaves_get, List.getElem?_replicate, hl]
    by_cases hk2 : k < 2 ^ (t.height - 1)
    · rw [h.pad k (by omega) hk2, if_pos (by omega)]
    · rw [if_neg (by omega), List.getElem?_eq_none]
      have := h.len_eq
      omega

/-- Value of a node. -/
theorem Inv.node_value (hu : IsUnital red init) (h : Inv cap red init t) :
    ∀ (d lev k : Nat), lev + d + 1 = t.height → k < 2 ^ lev →
      t.arr[2 ^ lev - 1 + k]? = some (reduce red init (slice t.leaves (k * 2 ^ d) ((k + 1) * 2 ^ d)))
  | 0, lev, k, hl, hk => by
    have hlev : t.height - 1 = lev := by omega
    have hlt : 2 ^ lev - 1 + k < t.arr.length := by
      rw [h.len]; exact node_lt (by omega) hk
    have h1 : t.leaves[k]? = some t.arr[2 ^ lev - 1 + k] := by
      rw [leaves_get, hlev]; simp [hlt]
    simp only [Nat.pow_zero, Nat.mul_one]
    rw [slice_single h1, reduce_singleton hu]
    simp [hlt]
  | d + 1, lev, k, hl, hk => by
    obtain ⟨a, b, ha, hb, hab⟩ := h.node lev (by omega) k hk
    have h0 : 2 * k < 2 ^ (lev + 1) := by rw [Nat.pow_succ]; omega
    have h1 : 2 * k + 1 < 2 ^ (lev + 1) := by rw [Nat.pow_succ]; omega
    have ea := h.node_value hu d (lev + 1) (2 * k) (by omega) h0
    have eb := h.node_value hu d (lev + 1) (2 * k + 1) (by omega) h1
    rw [ha] at ea
    rw [← Nat.add_assoc, hb] at eb
    simp only [Option.some.injEq] at ea eb
    rw [hab, ea, eb]
    have e1 : k * 2 ^ (d + 1) = 2 * k * 2 ^ d := by rw [Nat.pow_succ]; ring
    have e2 : (k + 1) * 2 ^ (d + 1) = (2 * k + 1 + 1) * 2 ^ d := by rw [Nat.pow_succ]; ring
    rw [e1, e2, ← reduce_slice_split hu]
    · exact Nat.mul_le_mul_right _ (by omega)
    · exact Nat.mul_le_mul_right _ (by omega)

theorem slice_all (xs : List α) {n : Nat} (h : xs.length ≤ n) : slice xs 0 n = xs := by
  simp [slice, List.take_of_length_le h]

theorem Inv.reduce_leaves (hu : IsUnital red init) (h : Inv cap red init t) :
    reduce red init t.leaves = reduce red init t.values := by
  rw [h.leaves_eq, reduce_append hu, reduce_replicate hu, hu.unit_right]

theorem Inv.slice_leaves (h : Inv cap red init t) {s e : Nat} (he : e ≤ cap) :
    slice t.leaves s e = slice t.values s e := by
  unfold slice
  rw [h.leaves_eq, List.take_append_of_le_length]
  rw [h.values_length]; exact he

theorem Inv.root (hu : IsUnital red init) (h : Inv cap red init t) :
    t.arr[0]? = some (reduce red init t.values) := by
  have hh := h.height_pos
  have := h.node_value hu (t.height - 1) 0 0 (by omega) (by simp)
  simp only [Nat.pow_zero, Nat.sub_self, Nat.add_zero, Nat.zero_mul, Nat.zero_add, Nat.one_mul] at this
  rw [this, slice_all _ (by rw [h.leaves_length]), h.reduce_leaves hu]

end Coax.SegmentTree
