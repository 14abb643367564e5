import Verif.Utils.Chunks
import Verif.RewardTracing.BatchProps
import Mathlib.Data.Nat.Digits.Lemmas
import Mathlib.Data.Nat.Bitwise

/-! Property C29: `chunks_pow2` partitions a batch into chunks whose sizes are the powers of two in its batch size. -/

namespace Coax.Chunks

open Coax.Batching

variable {D β : Type _}

/-! ### Specification -/

/-- The positions of the one bits of `n`, in increasing order. -/
def oneBits (n : Nat) : List Nat := (List.range (Nat.log 2 n + 1)).filter n.testBit

/-- `chunks` are consecutive pieces of `b` with the given sizes: each piece is a proper batch of its size with the
structure of `b`, and leaf by leaf the rows of the pieces, one after the other, are the rows of `b`. -/
structure Partition (b : Batch D β) (sizes : List Nat) (chunks : List (Batch D β)) : Prop where
  proper : List.Forall₂ Proper sizes chunks
  structure_eq : ∀ c ∈ chunks, c.structure = b.structure
  rows : ∀ k j rows, b.leaf k j = some rows →
    ∃ pieces : List (List β), chunks.map (fun c => c.leaf k j) = pieces.map some ∧ pieces.flatten = rows

/-! ### Helpers -/

theorem mem_oneBits {n k : Nat} : k ∈ oneBits n ↔ n.testBit k = true := by
  simp only [oneBits, List.mem_filter, List.mem_range, and_iff_right_iff_imp]
  intro h
  by_contra hk
  have h1 : n < 2 ^ k := by
    have := Nat.lt_pow_succ_log_self (b := 2) (by omega) n
    exact lt_of_lt_of_le this (Nat.pow_le_pow_right (by omega) (by omega))
  rw [Nat.testBit_lt_two_pow h1] at h
  simp at h

theorem binary_eq (n : Nat) : binary n = (List.range (Nat.log 2 n + 1)).reverse.map n.testBit := by
  unfold binary
  split
  · subst n; rfl
  · rename_i h
    rw [List.map_reverse, List.map_reverse]
    congr 1
    apply List.ext_getElem?
    intro k
    rw [List.getElem?_map, List.getElem?_map]
    have hl : (Nat.digits 2 n).length = Nat.log 2 n + 1 := Nat.length_digits 2 n (by omega) h
    by_cases hk : k < Nat.log 2 n + 1
    · have hk' : k < (Nat.digits 2 n).length := by omega
      rw [List.getElem?_eq_getElem hk', List.getElem?_range hk]
      simp only [Option.map_some]
      have := Nat.getD_digits n k (b := 2) (by omega)
      rw [List.getD_eq_getElem?_getD, List.getElem?_eq_getElem hk', Option.getD_some] at this
      rw [this, Nat.testBit_eq_decide_div_mod_eq]
      congr 1
    · rw [List.getElem?_eq_none (by omega), List.getElem?_eq_none (by simp; omega)]
      rfl

/-- The chunk sizes read off from a digit list. -/
def sizesOf : List Bool → List Nat
  | [] => []
  | false :: bs => sizesOf bs
  | true :: bs => 2 ^ bs.length :: sizesOf bs

theorem sizesOf_cons (d : Bool) (bs : List Bool) : sizesOf (d :: bs) = (if d then [2 ^ bs.length] else []) ++ sizesOf bs := by
  cases d <;> simp [sizesOf]

theorem sizesOf_range (f : Nat → Bool) (m : Nat) :
    sizesOf ((List.range m).reverse.map f) = ((List.range m).filter f).reverse.map (2 ^ ·) := by
  induction m with
  | zero => rfl
  | succ m ih =>
    rw [List.range_succ, List.reverse_append, List.filter_append, List.reverse_append]
    simp only [List.reverse_cons, List.reverse_nil, List.nil_append, List.cons_append, List.map_cons]
    rw [sizesOf_cons, ih]
    cases h : f m <;> simp [h]

theorem sum_bits (n m : Nat) : (((List.range m).filter n.testBit).map (2 ^ ·)).sum = n % 2 ^ m := by
  induction m with
  | zero => simp [Nat.mod_one]
  | succ m ih =>
    rw [List.range_succ, List.filter_append, List.map_append, List.sum_append, ih, Nat.pow_succ, Nat.mod_mul]
    congr 1
    have e := Nat.testBit_eq_decide_div_mod_eq (x := n) (i := m)
    have h2 := Nat.mod_lt (n / 2 ^ m) (show 2 > 0 by omega)
    cases h : n.testBit m
    · rw [h] at e
      have e' : n / 2 ^ m % 2 = 0 := by have := of_decide_eq_false e.symm; omega
      simp [h, e']
    · rw [h] at e
      have e' : n / 2 ^ m % 2 = 1 := of_decide_eq_true e.symm
      simp [h, e']

theorem leaf_leafslice (a s : Nat) (b : Batch D β) (k j : Nat) :
    (leafslice a s b).leaf k j = (b.leaf k j).map (fun rows => (rows.take s).drop a) := by
  simp only [Batch.leaf, leafslice, List.getElem?_map]
  cases b.slots[k]? <;> simp

theorem structure_leafslice (a s : Nat) (b : Batch D β) : (leafslice a s b).structure = b.structure := by
  simp [Batch.structure, leafslice, Function.comp_def]

theorem proper_leafslice {n : Nat} {b : Batch D β} (h : Proper n b) (a s : Nat) (hs : a + s ≤ n) :
    Proper s (leafslice a (a + s) b) := by
  constructor
  · simp [leafslice, h.slots]
  · obtain ⟨⟨d, l⟩, rows, h1, h2⟩ := h.rn
    simp only at h2
    subst h2
    exact ⟨_, _, by simp only [leafslice, List.getElem?_map, h1, Option.map_some]; rfl, rfl⟩
  · intro t ht leaf hleaf
    simp only [leafslice, List.mem_map] at ht
    obtain ⟨t', ht', rfl⟩ := ht
    simp only [List.mem_map] at hleaf
    obtain ⟨rows, hr, rfl⟩ := hleaf
    have := h.rows t' ht' rows hr
    simp; omega

theorem loop_spec {n : Nat} {b : Batch D β} (h : Proper n b) (len : Nat) :
    ∀ (bs : List Bool) (i start : Nat), i + bs.length = len + 1 → start + (sizesOf bs).sum ≤ n →
      List.Forall₂ Proper (sizesOf bs) (loop b len bs i start) ∧
      (∀ c ∈ loop b len bs i start, c.structure = b.structure) ∧
      (∀ k j rows, b.leaf k j = some rows → ∃ pieces : List (List β),
        (loop b len bs i start).map (fun c => c.leaf k j) = pieces.map some ∧
          pieces.flatten = (rows.take (start + (sizesOf bs).sum)).drop start) := by
  intro bs
  induction bs with
  | nil =>
    intro i start _ _
    refine ⟨.nil, by simp [loop], fun k j rows _ => ⟨[], by simp [loop], by simp [sizesOf]⟩⟩
  | cons d bs ih =>
    intro i start hi hn
    cases d with
    | false => exact ih (i + 1) start (by simp at hi; omega) hn
    | true =>
      have e : len - i = bs.length := by simp at hi; omega
      simp only [sizesOf, List.sum_cons] at hn
      obtain ⟨h1, h2, h3⟩ := ih (i + 1) (start + 2 ^ bs.length) (by simp at hi; omega) (by omega)
      simp only [loop, sizesOf, e]
      refine ⟨.cons (proper_leafslice h _ _ (by omega)) h1, ?_, ?_⟩
      · intro c hc
        rcases List.mem_cons.1 hc with rfl | hc
        · exact structure_leafslice _ _ _
        · exact h2 c hc
      · intro k j rows hr
        obtain ⟨ps, hp1, hp2⟩ := h3 k j rows hr
        refine ⟨_ :: ps, by simp only [List.map_cons, hp1, leaf_leafslice, hr, Option.map_some]; rfl, ?_⟩
        rw [List.flatten_cons, hp2, List.sum_cons, ← Nat.add_assoc]
        apply List.ext_getElem?
        intro q
        simp only [List.getElem?_append, List.getElem?_drop, List.getElem?_take, List.length_drop, List.length_take]
        have := h.leaf hr
        generalize 2 ^ bs.length = P at *
        generalize (sizesOf bs).sum = Q at *
        split <;> split <;> split <;> first | rfl | (congr 1; omega)

theorem leaf_none_of_structure {b c : Batch D β} (h : c.structure = b.structure) {k j : Nat} (hb : b.leaf k j = none) :
    c.leaf k j = none := by
  have hk : (c.structure)[k]? = (b.structure)[k]? := by rw [h]
  simp only [Batch.structure, List.getElem?_map] at hk
  simp only [Batch.leaf] at *
  cases h1 : c.slots[k]? with
  | none => rfl
  | some s =>
    rw [h1] at hk
    cases h2 : b.slots[k]? with
    | none => rw [h2] at hk; simp at hk
    | some t =>
      rw [h2] at hk hb
      simp at hk hb ⊢
      omega

/-! ### Theorems -/

/-- C29.  For every batch of `n` transitions, `chunks_pow2` succeeds, and its chunks are consecutive pieces of the batch
whose sizes are, in decreasing order, the powers of two in the binary representation of `n`. -/
theorem C29_partition {n : Nat} {b : Batch D β} (h : Proper n b) :
    ∃ chunks, chunksPow2 b = .ok chunks ∧ Partition b ((oneBits n).reverse.map (2 ^ ·)) chunks := by
  have hs : sizesOf (binary n) = (oneBits n).reverse.map (2 ^ ·) := by rw [binary_eq, sizesOf_range]; rfl
  have hsum : (sizesOf (binary n)).sum = n := by
    rw [hs, List.map_reverse, List.sum_reverse, oneBits, sum_bits, Nat.mod_eq_of_lt]
    exact Nat.lt_pow_succ_log_self (by omega) n
  obtain ⟨h1, h2, h3⟩ := loop_spec h (binary n).length (binary n) 1 0 (by omega) (by omega)
  refine ⟨_, by simp only [chunksPow2, h.batchSize]; rfl, hs ▸ h1, h2, ?_⟩
  intro k j rows hr
  obtain ⟨ps, hp1, hp2⟩ := h3 k j rows hr
  refine ⟨ps, hp1, ?_⟩
  rw [hp2, hsum, Nat.zero_add, List.drop_zero, List.take_of_length_le]
  rw [h.leaf hr]

/-- C29.  The sizes are powers of two, strictly decreasing, add up to `n`, and there is one per one bit of `n`. -/
theorem C29_sizes (n : Nat) :
    ((oneBits n).reverse.map (2 ^ ·)).Pairwise (· > ·) ∧ ((oneBits n).reverse.map (2 ^ ·)).sum = n ∧
      (∀ k, n.testBit k = true ↔ 2 ^ k ∈ (oneBits n).reverse.map (2 ^ ·)) ∧
      ((oneBits n).reverse.map (2 ^ ·)).length = ((Nat.digits 2 n).filter (· = 1)).length := by
  have hi : Function.Injective (fun k : Nat => 2 ^ k) := Nat.pow_right_injective (by omega)
  refine ⟨?_, ?_, ?_, ?_⟩
  · rw [List.pairwise_map, List.pairwise_reverse]
    refine List.Pairwise.imp (fun {a b} hab => Nat.pow_lt_pow_right (by omega) hab) ?_
    exact List.Pairwise.filter _ List.pairwise_lt_range
  · rw [List.map_reverse, List.sum_reverse, oneBits, sum_bits, Nat.mod_eq_of_lt]
    exact Nat.lt_pow_succ_log_self (by omega) n
  · intro k
    rw [← mem_oneBits, List.mem_map]
    constructor
    · intro h; exact ⟨k, List.mem_reverse.2 h, rfl⟩
    · rintro ⟨k', h, e⟩
      rw [← hi e]; exact List.mem_reverse.1 h
  · by_cases h0 : n = 0
    · subst h0; decide
    have e := binary_eq n
    rw [binary, if_neg h0] at e
    have e2 := congrArg (fun l => (l.filter id).length) e
    simp only [List.map_reverse, List.filter_reverse, List.length_reverse, List.filter_map, List.length_map] at e2
    rw [List.length_map, List.length_reverse, oneBits]
    simp only [Function.comp_def, id] at e2
    rw [← e2]
    congr 1

/-- C29.  The chunks of a non-empty batch concatenate to the batch. -/
theorem C29_concat [DecidableEq D] {n : Nat} {b : Batch D β} (h : Proper n b) (hn : 0 < n) :
    ∃ chunks, chunksPow2 b = .ok chunks ∧ concat chunks = .ok b := by
  obtain ⟨chunks, h1, h2⟩ := C29_partition h
  refine ⟨chunks, h1, ?_⟩
  have hne : chunks ≠ [] := by
    rintro rfl
    have hl := h2.proper.length_eq
    have hsum := (C29_sizes n).2.1
    rw [List.length_nil, List.length_eq_zero_iff] at hl
    rw [hl] at hsum
    simp at hsum; omega
  obtain ⟨c, hc, -, hcs, hcl⟩ := C22_concat hne h2.proper
    (fun x hx y hy => by rw [h2.structure_eq x hx, h2.structure_eq y hy])
  rw [hc]
  congr 1
  obtain ⟨x, xs, rfl⟩ := List.exists_cons_of_ne_nil hne
  have hst : c.structure = b.structure := by rw [hcs x (by simp), h2.structure_eq x (by simp)]
  apply Batch.ext_leaf hst
  intro k j
  cases hb : b.leaf k j with
  | none => exact leaf_none_of_structure hst hb
  | some rows =>
    cases hl : c.leaf k j with
    | none => rw [leaf_none_of_structure hst.symm hl] at hb; cases hb
    | some rows' =>
      obtain ⟨rowss, hf, rfl⟩ := hcl k j rows' hl
      obtain ⟨ps, hp, rfl⟩ := h2.rows k j rows hb
      have : rowss.map some = ps.map some := by
        rw [← hp]
        clear hp hl hcl hc hcs h1 h2 hne hst hb
        generalize x :: xs = l at hf
        induction hf with
        | nil => rfl
        | cons a _ ih => simp only [List.map_cons, a, ih]
      rw [List.map_injective_iff.2 (Option.some_injective _) this]

/-- C29.  An empty batch has no chunks. -/
theorem C29_empty {b : Batch D β} (h : Proper 0 b) : chunksPow2 b = .ok [] := by
  obtain ⟨chunks, h1, h2⟩ := C29_partition h
  have := h2.proper.length_eq
  rw [h1, List.eq_nil_of_length_eq_zero this.symm]

example : Proper 3 exBatch := exBatch_proper

/-- A batch of three transitions is split into one of two and one of one. -/
example : chunksPow2 exBatch = .ok [leafslice 0 2 exBatch, leafslice 2 3 exBatch] ∧ (oneBits 3).reverse.map (2 ^ ·) = [2, 1] := by
  decide

end Coax.Chunks
