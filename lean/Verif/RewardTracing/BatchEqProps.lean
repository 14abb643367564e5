import Verif.RewardTracing.BatchEq
import Mathlib.Data.List.Forall2
import Mathlib.Tactic.Linarith
import Mathlib.Tactic.FinCases
import Mathlib.Data.Fintype.Basic
import Mathlib.Tactic.NormNum

/-! Property C124: equality of transition batches. -/

namespace Coax.Batching

open Coax.Utils

variable {D V : Type _}

/-! ### Specification -/

/-- Two numbers are equal up to the tolerances of numpy. -/
def Near (x y : ℝ) : Prop := |x - y| ≤ 1e-8 + 1e-5 * |y|

/-- Two arrays have the same shape and, at each index, numbers that are near. -/
def NearArrays (a b : Tensor ℝ) : Prop := a.shape = b.shape ∧ ∀ idx, List.Forall₂ (· < ·) idx a.shape → Near (a.data idx) (b.data idx)

/-- Both are arrays of the same shape, or both are other objects. -/
inductive Alike : Leaf V → Leaf V → Prop
  | arrays (a b : Tensor ℝ) : a.shape = b.shape → Alike (.array a) (.array b)
  | others (v w : V) : Alike (.other v) (.other w)

/-- Both are arrays, and near, or both are other objects, and equal in the sense of `==`. -/
inductive NearLeaves (same : V → V → Bool) : Leaf V → Leaf V → Prop
  | arrays (a b : Tensor ℝ) : NearArrays a b → NearLeaves same (.array a) (.array b)
  | others (v w : V) : same v w = true → NearLeaves same (.other v) (.other w)

/-- All slots are related. -/
def Slots (R : Tree D V → Tree D V → Prop) (b b' : FullBatch D V) : Prop :=
  R b.S b'.S ∧ R b.A b'.A ∧ R b.logP b'.logP ∧ R b.Rn b'.Rn ∧ R b.In b'.In ∧ R b.S_next b'.S_next ∧ R b.A_next b'.A_next ∧ R b.logP_next b'.logP_next ∧ R b.W b'.W ∧ R b.idx b'.idx ∧
    R b.extra_info b'.extra_info

/-! ### Broadcasting -/

theorem broadcastRev_self (s : List Nat) : broadcastRev s s = some s := by
  induction s with
  | nil => rfl
  | cons a s ih => simp [broadcastRev, ih]

theorem broadcastIdx_self {s idx : List Nat} (h : List.Forall₂ (· < ·) idx s) : broadcastIdx s idx = idx := by
  induction h with
  | nil => rfl
  | @cons i d idx s hi _ ih =>
    unfold broadcastIdx at ih ⊢
    rw [List.zipWith_cons_cons, ih]
    split
    · congr 1; omega
    · rfl

theorem forall₂_reverse {s idx : List Nat} : List.Forall₂ (· < ·) idx.reverse s.reverse ↔ List.Forall₂ (· < ·) idx s := List.forall₂_reverse_iff

theorem allclose_same {a b : Tensor ℝ} (h : a.shape = b.shape) : allclose a b = .ok true ∧ NearArrays a b ∨ allclose a b = .ok false ∧ ¬ NearArrays a b := by
  have hb : broadcastRev a.shape.reverse b.shape.reverse = some a.shape.reverse := by rw [← h]; exact broadcastRev_self _
  have hiff : (∀ idx, List.Forall₂ (· < ·) idx a.shape.reverse → |broadcastGet a idx - broadcastGet b idx| ≤ 1e-8 + 1e-5 * |broadcastGet b idx|) ↔ NearArrays a b := by
    constructor
    · intro hh
      refine ⟨h, fun idx hi => ?_⟩
      have := hh idx.reverse (forall₂_reverse.2 hi)
      unfold broadcastGet at this
      rwa [← h, broadcastIdx_self (forall₂_reverse.2 hi), List.reverse_reverse] at this
    · intro hh idx hi
      have h2 := hh.2 idx.reverse (forall₂_reverse.1 (by rwa [List.reverse_reverse]))
      unfold broadcastGet
      rwa [← h, broadcastIdx_self hi]
  unfold allclose
  rw [hb]
  by_cases hn : NearArrays a b
  · exact .inl ⟨by simp only [hiff, hn, decide_true], hn⟩
  · exact .inr ⟨by simp only [hiff, hn, decide_false], hn⟩

theorem near_refl (a : Tensor ℝ) : NearArrays a a := ⟨rfl, fun idx _ => by
  unfold Near; rw [sub_self, abs_zero]; positivity⟩

theorem leafEq_refl {py : PyEq V} (conv : V → Except Err (Tensor ℝ)) (hpy : ∀ v, py.obj v v = true) (x : Leaf V) : leafEq py conv x x = .ok true := by
  cases x with
  | array a => rcases allclose_same (rfl : a.shape = a.shape) with h | h
               · exact h.1
               · exact absurd (near_refl a) h.2
  | other v => simp [leafEq, hpy]

theorem allEq_append {py : PyEq V} (conv : V → Except Err (Tensor ℝ)) (hpy : ∀ v, py.obj v v = true) (l r r' : List (Leaf V)) :
    allEq py conv (l ++ r) (l ++ r') = allEq py conv r r' := by
  induction l with
  | nil => rfl
  | cons x l ih => rw [List.cons_append, List.cons_append, allEq, leafEq_refl conv hpy, ih]

theorem allEq_alike (py : PyEq V) (conv : V → Except Err (Tensor ℝ)) {l l' : List (Leaf V)} (h : List.Forall₂ Alike l l') :
    allEq py conv l l' = .ok true ∧ List.Forall₂ (NearLeaves py.obj) l l' ∨ allEq py conv l l' = .ok false ∧ ¬ List.Forall₂ (NearLeaves py.obj) l l' := by
  induction h with
  | nil => exact .inl ⟨rfl, .nil⟩
  | @cons x y l l' hxy hl ih =>
    have hd : leafEq py conv x y = .ok true ∧ NearLeaves py.obj x y ∨ leafEq py conv x y = .ok false ∧ ¬ NearLeaves py.obj x y := by
      cases hxy with
      | arrays a b hab =>
        rcases allclose_same hab with ⟨h1, h2⟩ | ⟨h1, h2⟩
        · exact .inl ⟨h1, .arrays a b h2⟩
        · refine .inr ⟨h1, fun hc => ?_⟩
          cases hc with | arrays _ _ hc => exact h2 hc
      | others v w =>
        cases hvw : py.obj v w with
        | true => exact .inl ⟨by simp [leafEq, hvw], .others v w hvw⟩
        | false =>
          refine .inr ⟨by simp [leafEq, hvw], fun hc => ?_⟩
          cases hc with | others _ _ hc => simp [hvw] at hc
    rcases hd with ⟨h1, h2⟩ | ⟨h1, h2⟩
    · rcases ih with ⟨h3, h4⟩ | ⟨h3, h4⟩
      · exact .inl ⟨by simp only [allEq, h1, h3], .cons h2 h4⟩
      · refine .inr ⟨by simp only [allEq, h1, h3], fun hc => ?_⟩
        cases hc with | cons _ hc => exact h4 hc
    · refine .inr ⟨by simp only [allEq, h1], fun hc => ?_⟩
      cases hc with | cons hc _ => exact h2 hc

theorem leaves_eq (b : FullBatch D V) : b.leaves = b.S.leaves ++ (b.A.leaves ++ (b.logP.leaves ++ (b.Rn.leaves ++ (b.In.leaves ++ (b.S_next.leaves ++ (b.A_next.leaves ++ (b.logP_next.leaves ++
    (b.W.leaves ++ (b.idx.leaves ++ b.extra_info.leaves))))))))) := by
  simp [FullBatch.leaves, FullBatch.toTuple]

theorem forall₂_append {α β : Type _} {R : α → β → Prop} {l r : List α} {l' r' : List β} (h : l.length = l'.length) : List.Forall₂ R (l ++ r) (l' ++ r') ↔ List.Forall₂ R l l' ∧ List.Forall₂ R r r' := by
  induction l generalizing l' with
  | nil => cases l' with
    | nil => simp
    | cons _ _ => simp at h
  | cons x l ih => cases l' with
    | nil => simp at h
    | cons y l' =>
      simp only [List.cons_append, List.forall₂_cons, ih (by simpa using h)]
      tauto

theorem slots_iff {R : Leaf V → Leaf V → Prop} {b b' : FullBatch D V} (h : Slots (fun t t' => t.leaves.length = t'.leaves.length) b b') :
    List.Forall₂ R b.leaves b'.leaves ↔ Slots (fun t t' => List.Forall₂ R t.leaves t'.leaves) b b' := by
  obtain ⟨h1, h2, h3, h4, h5, h6, h7, h8, h9, h10, h11⟩ := h
  rw [leaves_eq, leaves_eq, forall₂_append h1, forall₂_append h2, forall₂_append h3, forall₂_append h4, forall₂_append h5, forall₂_append h6, forall₂_append h7, forall₂_append h8,
    forall₂_append h9, forall₂_append h10]
  rfl

/-- C124, for batches with the same structure whose arrays have the same shapes: `==` tells whether all numbers are near and all other objects are equal. -/
theorem C124_same_shape_partial (py : PyEq V) (conv : V → Except Err (Tensor ℝ)) {b b' : FullBatch D V} (h : Slots (fun t t' => List.Forall₂ Alike t.leaves t'.leaves) b b') :
    ∃ x, b.eq py conv (some b') = .ok x ∧ (x = true ↔ Slots (fun t t' => List.Forall₂ (NearLeaves py.obj) t.leaves t'.leaves) b b') := by
  have hl : Slots (fun t t' => t.leaves.length = t'.leaves.length) b b' := by
    obtain ⟨h1, h2, h3, h4, h5, h6, h7, h8, h9, h10, h11⟩ := h
    exact ⟨h1.length_eq, h2.length_eq, h3.length_eq, h4.length_eq, h5.length_eq, h6.length_eq, h7.length_eq, h8.length_eq, h9.length_eq, h10.length_eq, h11.length_eq⟩
  rw [← slots_iff hl]
  rcases allEq_alike py conv ((slots_iff hl).2 h) with ⟨h1, h2⟩ | ⟨h1, h2⟩
  · exact ⟨true, h1, by simpa using h2⟩
  · exact ⟨false, h1, by simpa using h2⟩

/-- C124: a batch equals itself and is not equal to objects of other types. -/
theorem C124_refl {py : PyEq V} (conv : V → Except Err (Tensor ℝ)) (hpy : ∀ v, py.obj v v = true) (b : FullBatch D V) : b.eq py conv (some b) = .ok true ∧ b.eq py conv none = .ok false := by
  refine ⟨?_, rfl⟩
  have := allEq_append conv hpy b.leaves [] []
  simpa [FullBatch.eq, allEq] using this

/-- C124 is false: a batch without extra information equals the same batch with any extra information. -/
theorem C124_extra_counterexample {py : PyEq V} (conv : V → Except Err (Tensor ℝ)) (hpy : ∀ v, py.obj v v = true) {b : FullBatch D V} (hb : b.extra_info.leaves = []) (t : Tree D V) :
    b.eq py conv (some { b with extra_info := t }) = .ok true ∧ { b with extra_info := t }.eq py conv (some b) = .ok true := by
  constructor
  · unfold FullBatch.eq
    simp only [leaves_eq, hb, allEq_append conv hpy]
    simp [allEq]
  · unfold FullBatch.eq
    simp only [leaves_eq, hb, allEq_append conv hpy]
    cases t.leaves <;> simp [allEq]

/-! ### Batches of different sizes -/

/-- The array repeated `n` times along its first axis. -/
def repeatArray (n : Nat) (t : Tensor ℝ) : Tensor ℝ := ⟨n :: t.shape.tail, fun idx => t.data (0 :: idx.tail)⟩

def Leaf.repeat (n : Nat) : Leaf V → Leaf V
  | .array t => .array (repeatArray n t)
  | .other v => .other v

def Tree.repeat (n : Nat) (t : Tree D V) : Tree D V := ⟨t.treedef, t.leaves.map (Leaf.repeat n)⟩

/-- The batch in which each transition is repeated `n` times. -/
def FullBatch.repeat (n : Nat) (b : FullBatch D V) : FullBatch D V :=
  ⟨b.S.repeat n, b.A.repeat n, b.logP.repeat n, b.Rn.repeat n, b.In.repeat n, b.S_next.repeat n, b.A_next.repeat n, b.logP_next.repeat n, b.W.repeat n, b.idx.repeat n, b.extra_info.repeat n⟩

/-- All leaves are arrays with one row. -/
def SingleRow (b : FullBatch D V) : Prop := ∀ t ∈ b.toTuple, ∀ x ∈ t.leaves, ∃ a : Tensor ℝ, x = .array a ∧ ∃ s, a.shape = 1 :: s

theorem broadcastRev_last (s : List Nat) (n : Nat) : broadcastRev (s ++ [1]) (s ++ [n]) = some (s ++ [n]) := by
  induction s with
  | nil => unfold broadcastRev; by_cases h : 1 = n <;> simp [h, broadcastRev]
  | cons a s ih => simp [broadcastRev, ih]

theorem allclose_repeat (n : Nat) {a : Tensor ℝ} {s : List Nat} (ha : a.shape = 1 :: s) : allclose a (repeatArray n a) = .ok true := by
  unfold allclose
  have hr : (repeatArray n a).shape = n :: s := by simp [repeatArray, ha]
  rw [hr, ha, List.reverse_cons, List.reverse_cons, broadcastRev_last]
  simp only [Except.ok.injEq, decide_eq_true_eq]
  intro idx hi
  have hlen : idx.length = s.length + 1 := by simpa using hi.length_eq
  obtain ⟨i0, k, rfl⟩ : ∃ i0 k, idx = i0 ++ [k] := ⟨idx.dropLast, idx.getLast (by rintro rfl; simp at hlen), (List.dropLast_append_getLast _).symm⟩
  have hl : s.reverse.length = i0.length := by simp at hlen ⊢; omega
  have e : broadcastGet a (i0 ++ [k]) = broadcastGet (repeatArray n a) (i0 ++ [k]) := by
    unfold broadcastGet broadcastIdx
    rw [hr, ha, List.reverse_cons, List.reverse_cons, List.zipWith_append hl, List.zipWith_append hl]
    simp [repeatArray]
  rw [e, sub_self, abs_zero]
  positivity

theorem allEq_repeat (py : PyEq V) (conv : V → Except Err (Tensor ℝ)) (n : Nat) (l : List (Leaf V)) (h : ∀ x ∈ l, ∃ a : Tensor ℝ, x = .array a ∧ ∃ s, a.shape = 1 :: s) :
    allEq py conv l (l.map (Leaf.repeat n)) = .ok true := by
  induction l with
  | nil => rfl
  | cons x l ih =>
    obtain ⟨a, rfl, s, hs⟩ := h x (by simp)
    simp only [List.map_cons, Leaf.repeat, allEq, leafEq, allclose_repeat n hs]
    exact ih fun y hy => h y (by simp [hy])

/-- C124 is false: a single transition equals the batch in which it is repeated, whatever the number of repetitions. -/
theorem C124_repeat_counterexample (py : PyEq V) (conv : V → Except Err (Tensor ℝ)) {b : FullBatch D V} (hb : SingleRow b) (n : Nat) : b.eq py conv (some (b.repeat n)) = .ok true := by
  have hl : (b.repeat n).leaves = b.leaves.map (Leaf.repeat n) := by
    simp [leaves_eq, FullBatch.repeat, Tree.repeat]
  unfold FullBatch.eq
  simp only [hl]
  refine allEq_repeat py conv n _ fun x hx => ?_
  simp only [FullBatch.leaves, List.mem_flatMap] at hx
  obtain ⟨t, ht, hx⟩ := hx
  exact hb t ht x hx

theorem broadcastRev_none (s : List Nat) {m k : Nat} (h : m ≠ k) (hm : m ≠ 1) (hk : k ≠ 1) : broadcastRev (s ++ [m]) (s ++ [k]) = none := by
  induction s with
  | nil => unfold broadcastRev; simp [h, hm, hk]
  | cons a s ih => simp [broadcastRev, ih]

/-- C124 is false: the comparison of batches with different sizes raises ValueError, if none of them has size one. -/
theorem C124_sizes_counterexample (py : PyEq V) (conv : V → Except Err (Tensor ℝ)) {b b' : FullBatch D V} {a a' : Tensor ℝ} {l l' : List (Leaf V)} (hb : b.S.leaves = .array a :: l) (hb' : b'.S.leaves = .array a' :: l')
    {m k : Nat} {s : List Nat} (ha : a.shape = m :: s) (ha' : a'.shape = k :: s) (h : m ≠ k) (hm : m ≠ 1) (hk : k ≠ 1) : b.eq py conv (some b') = .error .valueError := by
  unfold FullBatch.eq
  simp only [leaves_eq, hb, hb', List.cons_append, allEq, leafEq]
  unfold allclose
  rw [ha, ha', List.reverse_cons, List.reverse_cons, broadcastRev_none _ h hm hk]

/-! ### Cases -/

/-- A batch with one transition in which all numbers are `x`. -/
def constBatch (x : ℝ) : FullBatch Unit Unit :=
  let t : Tree Unit Unit := ⟨(), [.array ⟨[1], fun _ => x⟩]⟩
  ⟨t, t, t, t, t, t, t, t, t, t, t⟩

def unitEq : PyEq Unit := ⟨fun _ _ => .ok false, fun _ _ => true⟩

theorem const_near {x y : ℝ} : (constBatch x).eq unitEq (fun _ => .error .typeError) (some (constBatch y)) = .ok true ↔ Near x y := by
  have hal : List.Forall₂ (Alike (V := Unit)) [.array ⟨[1], fun _ => x⟩] [.array ⟨[1], fun _ => y⟩] := .cons (.arrays _ _ rfl) .nil
  obtain ⟨v, hv, hiff⟩ := C124_same_shape_partial unitEq (fun _ => .error .typeError) (b := constBatch x) (b' := constBatch y) ⟨hal, hal, hal, hal, hal, hal, hal, hal, hal, hal, hal⟩
  rw [hv]
  have : Slots (fun t t' => List.Forall₂ (NearLeaves unitEq.obj) t.leaves t'.leaves) (constBatch x) (constBatch y) ↔ Near x y := by
    constructor
    · intro h
      cases h.1 with
      | cons h _ => cases h with
        | arrays _ _ h => exact h.2 [0] (.cons (by norm_num) .nil)
    · intro h
      have hn : List.Forall₂ (NearLeaves unitEq.obj) [.array ⟨[1], fun _ => x⟩] [.array ⟨[1], fun _ => y⟩] := .cons (.arrays _ _ ⟨rfl, fun _ _ => h⟩) .nil
      exact ⟨hn, hn, hn, hn, hn, hn, hn, hn, hn, hn, hn⟩
  rw [← this, ← hiff]
  simp

/-- C124 is false: equality depends on the order, and it is not transitive. -/
theorem C124_relation_counterexample : ∃ b b' b'' : FullBatch Unit Unit, b.eq unitEq (fun _ => .error .typeError) (some b') = .ok true ∧ b'.eq unitEq (fun _ => .error .typeError) (some b) ≠ .ok true ∧
    b'.eq unitEq (fun _ => .error .typeError) (some b'') = .ok true ∧ b.eq unitEq (fun _ => .error .typeError) (some b'') ≠ .ok true := by
  refine ⟨constBatch (1 - (1e-8 + 1e-5)), constBatch 1, constBatch (1 + 1e-5), ?_⟩
  simp only [Ne, const_near]
  unfold Near
  norm_num [abs_of_pos, abs_of_neg]

/-- C124: the elements, the items and the lookups list the slots in the same order; a batch that is taken apart and put together is the same batch. -/
theorem C124_tuple (b : FullBatch (Option D) V) (hW : b.W.treedef.isSome) (hi : b.idx.treedef.isSome) :
    FullBatch.new b.toTuple = .ok b ∧ b.items.map Prod.snd = b.toTuple ∧
      b.items.map Prod.fst = ["S", "A", "logP", "Rn", "In", "S_next", "A_next", "logP_next", "W", "idx", "extra_info"] ∧
      (∀ i : Fin 11, ∃ t, b.getItem i = .ok t ∧ b.getItem ((i : Int) - 11) = .ok t ∧ b.toTuple[i.1]? = some t) ∧ ∀ i : Int, i < -11 ∨ 11 ≤ i → b.getItem i = .error .indexError := by
  refine ⟨?_, rfl, rfl, fun i => ?_, fun i hi => ?_⟩
  · simp [FullBatch.new, FullBatch.toTuple, defaultW, defaultIdx, hW, hi]
  · fin_cases i <;> exact ⟨_, rfl, rfl, rfl⟩
  · unfold FullBatch.getItem
    dsimp only
    rcases hi with hi | hi
    · rw [if_pos (show i < 0 by omega), if_neg (by omega)]
    · rw [if_neg (show ¬ i < 0 by omega), if_pos (by omega), List.getElem?_eq_none (by simp only [FullBatch.toTuple, List.length_cons, List.length_nil]; omega)]

/-- C124: without weights and indices, all weights are one and the indices count the rows. -/
theorem C124_defaults {S A logP Rn In S_next A_next logP_next W idx extra_info : Tree (Option D) V} {r : Tensor ℝ} {n : Nat} {s : List Nat} (hr : Rn.leaves = [.array r]) (hs : r.shape = n :: s)
    (hW : W.treedef = none) (hi : idx.treedef = none) :
    ∃ b w k, FullBatch.new [S, A, logP, Rn, In, S_next, A_next, logP_next, W, idx, extra_info] = .ok b ∧ b.W.leaves = [.array w] ∧ w.shape = r.shape ∧ (∀ i, w.data i = 1) ∧
      b.idx.leaves = [.array k] ∧ k.shape = [n] ∧ (∀ i : Nat, k.data [i] = i) ∧
      b.toTuple = [S, A, logP, Rn, In, S_next, A_next, logP_next, b.W, b.idx, extra_info] := by
  refine ⟨⟨S, A, logP, Rn, In, S_next, A_next, logP_next, ⟨Rn.treedef, [.array ⟨r.shape, fun _ => 1⟩]⟩, ⟨Rn.treedef, [.array ⟨[n], fun i => (i.headD 0 : ℕ)⟩]⟩, extra_info⟩, _, _, ?_, rfl, rfl, fun _ => rfl, rfl, rfl,
    fun _ => rfl, rfl⟩
  simp [FullBatch.new, defaultW, defaultIdx, hW, hi, hr, hs]

end Coax.Batching
