import Verif.Utils.Preprocess
import Mathlib.Data.List.Forall2
import Mathlib.Tactic.Linarith

/-! Properties C81 and C82: preprocessing of batches and of single members, and sampling from spaces. -/

namespace Coax.Utils

open Coax.Dists (Space)

/-! ### Specification -/

mutual
/-- All leaves are arrays whose first axis has size `B`. -/
def Leaves (B : Nat) : Inp → Prop
  | .ints l => l.length = B
  | .ints2 l => l.length = B
  | .floats2 l => l.length = B
  | .tuple l => LeavesList B l
  | .dict l => LeavesDict B l
  | .int _ => False
  | .floats _ => False
def LeavesList (B : Nat) : List Inp → Prop
  | [] => True
  | x :: xs => Leaves B x ∧ LeavesList B xs
def LeavesDict (B : Nat) : List (String × Inp) → Prop
  | [] => True
  | (_, x) :: xs => Leaves B x ∧ LeavesDict B xs
end

mutual
/-- The shapes of a batch of members of the space. -/
def Shapes : Space → Inp → Prop
  | .discrete _ _, .ints _ => True
  | .box bounds, .floats2 l => bounds ≠ [] ∧ ∀ r ∈ l, r.length = bounds.length
  | .multiDiscrete nvec, .ints2 l => ∀ r ∈ l, r.length = nvec.length
  | .multiBinary n, .ints2 l => 0 < n ∧ ∀ r ∈ l, r.length = n
  | .tuple ss, .tuple xs => ShapesList ss xs
  | .dict ss, .dict xs => ShapesDict ss xs
  | _, _ => False
def ShapesList : List Space → List Inp → Prop
  | [], [] => True
  | s :: ss, x :: xs => Shapes s x ∧ ShapesList ss xs
  | _, _ => False
def ShapesDict : List (String × Space) → List (String × Inp) → Prop
  | [], _ => True
  | (k, s) :: ss, xs => (∃ x, xs.lookup k = some x ∧ Shapes s x) ∧ ShapesDict ss xs
end

mutual
/-- Row `i` of each leaf, as a batch with one row. -/
def rowTree (i : Nat) : Dists.Tree (List (List ℝ)) → Option (Dists.Tree (List (List ℝ)))
  | .leaf rows => (rows[i]?).map fun r => .leaf [r]
  | .list ts => (rowTreeList i ts).map .list
  | .dict ts => (rowTreeDict i ts).map .dict
def rowTreeList (i : Nat) : List (Dists.Tree (List (List ℝ))) → Option (List (Dists.Tree (List (List ℝ))))
  | [] => some []
  | t :: ts => match rowTree i t, rowTreeList i ts with
    | some r, some rs => some (r :: rs)
    | _, _ => none
def rowTreeDict (i : Nat) : List (String × Dists.Tree (List (List ℝ))) → Option (List (String × Dists.Tree (List (List ℝ))))
  | [] => some []
  | (k, t) :: ts => match rowTree i t, rowTreeDict i ts with
    | some r, some rs => some ((k, r) :: rs)
    | _, _ => none
end

/-! ### Leaves -/

theorem reshapeTo_flatten {α : Type _} {d : Nat} (hd : 0 < d) (rows : List (List α)) (h : ∀ r ∈ rows, r.length = d) : reshapeTo d rows.flatten = .ok rows := by
  have hlen : rows.flatten.length = rows.length * d := by
    rw [List.length_flatten, List.map_congr_left (g := fun _ => d) h]; simp
  unfold reshapeTo
  rw [if_neg (by rw [hlen]; simp; omega), hlen, Nat.mul_div_cancel _ hd]
  congr 1
  clear hlen
  induction rows with
  | nil => simp
  | cons r rows ih =>
    have hr := h r (by simp)
    rw [List.length_cons, List.range_succ_eq_map, List.map_cons, List.map_map]
    congr 1
    · simp [hr]
    · conv_rhs => rw [← ih fun x hx => h x (by simp [hx])]
      refine List.map_congr_left fun b _ => ?_
      simp only [Function.comp, Nat.succ_eq_add_one, List.flatten_cons]
      rw [show (b + 1) * d = r.length + b * d by rw [hr]; ring, List.drop_append, List.drop_eq_nil_of_le (by omega)]
      simp

theorem reshapeTo_single {α : Type _} {d : Nat} (hd : 0 < d) (r : List α) (h : r.length = d) : reshapeTo d r = .ok [r] := by
  have := reshapeTo_flatten hd [r] (by simpa using h)
  simpa using this

theorem column_ok {m i : Nat} (hi : i < m) (X : List (List Int)) (h : ∀ r ∈ X, r.length = m) : column i X = .ok (X.map fun r => r.getD i 0) := by
  induction X with
  | nil => rfl
  | cons r rs ih =>
    have hr := h r (by simp)
    rw [column, ih fun x hx => h x (by simp [hx]), List.getElem?_eq_getElem (by omega)]
    simp [show i < r.length by omega]

theorem preMulti_ok {m : Nat} (X : List (List Int)) (h : ∀ r ∈ X, r.length = m) (ns : List Nat) (i : Nat) (hi : i + ns.length = m) :
    preMulti X i ns = .ok (ns.mapIdx fun j n => .leaf (X.map fun r => oneHotRow n (r.getD (i + j) 0))) := by
  induction ns generalizing i with
  | nil => rfl
  | cons n ns ih =>
    have hl : i + 1 + ns.length = m := by simp at hi; omega
    rw [preMulti, column_ok (m := m) (by simp at hi; omega) X h, ih (i + 1) hl]
    simp [List.mapIdx_cons, Function.comp_def, Nat.add_assoc, Nat.add_comm 1]

theorem rowTreeList_leaves (i : Nat) {β : Type _} (l : List β) (f : Nat → β → List (List ℝ)) (g : Nat → β → List ℝ) (h : ∀ j b, (f j b)[i]? = some (g j b)) :
    rowTreeList i (l.mapIdx fun j b => .leaf (f j b)) = some (l.mapIdx fun j b => .leaf [g j b]) := by
  induction l generalizing f g with
  | nil => rfl
  | cons b l ih =>
    rw [List.mapIdx_cons, List.mapIdx_cons, rowTreeList, ih (fun j b => f (j + 1) b) (fun j b => g (j + 1) b) (fun j b => h (j + 1) b), rowTree, h]
    rfl

theorem lookup_single {i : Nat} {xs ys : List (String × Inp)} (h : batchToSingleDict i xs = some ys) {k : String} {x : Inp} (hx : xs.lookup k = some x) :
    ∃ y, batchToSingle i x = some y ∧ ys.lookup k = some y := by
  induction xs generalizing ys with
  | nil => simp at hx
  | cons p xs ih =>
    obtain ⟨k', x'⟩ := p
    rw [batchToSingleDict] at h
    cases h1 : batchToSingle i x' with
    | none => rw [h1] at h; simp at h
    | some y' =>
      cases h2 : batchToSingleDict i xs with
      | none => rw [h1, h2] at h; simp at h
      | some ys' =>
        rw [h1, h2] at h
        obtain rfl : (k', y') :: ys' = ys := by simpa using h
        rw [List.lookup_cons] at hx ⊢
        cases hk : k == k' with
        | true =>
          rw [hk] at hx
          obtain rfl : x' = x := by simpa using hx
          exact ⟨y', h1, rfl⟩
        | false =>
          rw [hk] at hx
          exact ih h2 hx

mutual
theorem single_exists {B i : Nat} (hi : i < B) : ∀ X, Leaves B X → ∃ x, batchToSingle i X = some x
  | .ints l, h => by have h' : l.length = B := h; exact ⟨_, by rw [batchToSingle, List.getElem?_eq_getElem (by omega)]; rfl⟩
  | .ints2 l, h => by have h' : l.length = B := h; exact ⟨_, by rw [batchToSingle, List.getElem?_eq_getElem (by omega)]; rfl⟩
  | .floats2 l, h => by have h' : l.length = B := h; exact ⟨_, by rw [batchToSingle, List.getElem?_eq_getElem (by omega)]; rfl⟩
  | .tuple l, h => by
    obtain ⟨ys, hy⟩ := single_existsList hi l h
    exact ⟨_, by rw [batchToSingle, hy]; rfl⟩
  | .dict l, h => by
    obtain ⟨ys, hy⟩ := single_existsDict hi l h
    exact ⟨_, by rw [batchToSingle, hy]; rfl⟩
  | .int _, h => h.elim
  | .floats _, h => h.elim
theorem single_existsList {B i : Nat} (hi : i < B) : ∀ l, LeavesList B l → ∃ ys, batchToSingleList i l = some ys
  | [], _ => ⟨_, rfl⟩
  | x :: xs, h => by
    obtain ⟨y, hy⟩ := single_exists hi x h.1
    obtain ⟨ys, hys⟩ := single_existsList hi xs h.2
    exact ⟨_, by rw [batchToSingleList, hy, hys]⟩
theorem single_existsDict {B i : Nat} (hi : i < B) : ∀ l, LeavesDict B l → ∃ ys, batchToSingleDict i l = some ys
  | [], _ => ⟨_, rfl⟩
  | (_, x) :: xs, h => by
    obtain ⟨y, hy⟩ := single_exists hi x h.1
    obtain ⟨ys, hys⟩ := single_existsDict hi xs h.2
    exact ⟨_, by rw [batchToSingleDict, hy, hys]⟩
end

theorem leaves_lookup {B : Nat} {xs : List (String × Inp)} (h : LeavesDict B xs) {k : String} {x : Inp} (hx : xs.lookup k = some x) : Leaves B x := by
  induction xs with
  | nil => simp at hx
  | cons p xs ih =>
    obtain ⟨k', x'⟩ := p
    rw [List.lookup_cons] at hx
    cases hk : k == k' with
    | true =>
      rw [hk] at hx
      obtain rfl : x' = x := by simpa using hx
      exact h.1
    | false =>
      rw [hk] at hx
      exact ih h.2 hx

/-! ### Batches -/

/-- Row `i` of the preprocessed batch is the preprocessed member `i`. -/
def RowsAgree (B : Nat) (pre : Inp → Except Err (Dists.Tree (List (List ℝ)))) (X : Inp) : Prop :=
  ∃ t, pre X = .ok t ∧ ∀ i < B, ∃ x t', batchToSingle i X = some x ∧ rowTree i t = some t' ∧ pre x = .ok t'

mutual
theorem rows_agree {B : Nat} : ∀ s X, Leaves B X → Shapes s X → RowsAgree B (defaultPre s) X
  | .discrete n _, .ints l, hl, _ => by
    have hl' : l.length = B := hl
    refine ⟨_, rfl, fun i hi => ⟨.int l[i], .leaf [oneHotRow n l[i]], ?_, ?_, rfl⟩⟩
    · rw [batchToSingle, List.getElem?_eq_getElem (by omega)]; rfl
    · rw [rowTree, List.getElem?_map, List.getElem?_eq_getElem (by omega)]; rfl
  | .box bounds, .floats2 l, hl, hs => by
    have hl' : l.length = B := hl
    have hd : 0 < bounds.length := List.length_pos_of_ne_nil hs.1
    refine ⟨_, by rw [defaultPre, preBox, reshapeTo_flatten hd l hs.2], fun i hi => ⟨.floats l[i], .leaf [List.zipWith clipEntry bounds l[i]], ?_, ?_, ?_⟩⟩
    · rw [batchToSingle, List.getElem?_eq_getElem (by omega)]; rfl
    · rw [rowTree, List.getElem?_map, List.getElem?_eq_getElem (by omega)]; rfl
    · rw [defaultPre, preBox, reshapeTo_single hd _ (hs.2 _ (List.getElem_mem _))]; rfl
  | .multiDiscrete nvec, .ints2 l, hl, hs => by
    have hl' : l.length = B := hl
    have hs' : ∀ r ∈ l, r.length = nvec.length := hs
    refine ⟨_, by rw [defaultPre, preMulti_ok (m := nvec.length) l hs' nvec 0 (by omega)], fun i hi =>
      ⟨.ints l[i], .list (nvec.mapIdx fun j n => .leaf [oneHotRow n (l[i].getD j 0)]), ?_, ?_, ?_⟩⟩
    · rw [batchToSingle, List.getElem?_eq_getElem (by omega)]; rfl
    · rw [rowTree, rowTreeList_leaves i nvec _ (fun j n => oneHotRow n (l[i].getD j 0))]
      · rfl
      · intro j n
        rw [List.getElem?_map, List.getElem?_eq_getElem (by omega)]
        simp
    · rw [defaultPre, preMulti_ok (m := nvec.length) [l[i]] (by simpa using hs' _ (List.getElem_mem _)) nvec 0 (by omega)]
      simp
  | .multiBinary n, .ints2 l, hl, hs => by
    have hl' : l.length = B := hl
    have hs' : 0 < n ∧ ∀ r ∈ l, r.length = n := hs
    have hf : l.flatten.map (fun x : Int => (x : ℝ)) = (l.map fun r => r.map fun x : Int => (x : ℝ)).flatten := by rw [List.map_flatten]
    refine ⟨_, by rw [defaultPre, hf, reshapeTo_flatten hs'.1 _ (by simpa using hs'.2)], fun i hi => ⟨.ints l[i], .leaf [l[i].map fun x : Int => (x : ℝ)], ?_, ?_, ?_⟩⟩
    · rw [batchToSingle, List.getElem?_eq_getElem (by omega)]; rfl
    · rw [rowTree, List.getElem?_map, List.getElem?_eq_getElem (by omega)]; rfl
    · rw [defaultPre, reshapeTo_single hs'.1 _ (by simpa using hs'.2 _ (List.getElem_mem _))]
  | .tuple ss, .tuple xs, hl, hs => by
    obtain ⟨ts, ht, hrow⟩ := rows_agreeList ss xs hl hs
    refine ⟨_, by rw [defaultPre, ht], fun i hi => ?_⟩
    obtain ⟨ys, ts', h1, h2, h3⟩ := hrow i hi
    exact ⟨.tuple ys, .list ts', by rw [batchToSingle, h1]; rfl, by rw [rowTree, h2]; rfl, by rw [defaultPre, h3]⟩
  | .dict ss, .dict xs, hl, hs => by
    obtain ⟨ts, ht, hrow⟩ := rows_agreeDict ss xs hl hs
    refine ⟨_, by rw [defaultPre, ht], fun i hi => ?_⟩
    obtain ⟨ys, hys⟩ := single_existsDict hi xs hl
    obtain ⟨ts', h2, h3⟩ := hrow i hi ys hys
    exact ⟨.dict ys, .dict ts', by rw [batchToSingle, hys]; rfl, by rw [rowTree, h2]; rfl, by rw [defaultPre, h3]⟩
theorem rows_agreeList {B : Nat} : ∀ ss xs, LeavesList B xs → ShapesList ss xs → ∃ ts, defaultPreList ss xs = .ok ts ∧
    ∀ i < B, ∃ ys ts', batchToSingleList i xs = some ys ∧ rowTreeList i ts = some ts' ∧ defaultPreList ss ys = .ok ts'
  | [], [], _, _ => ⟨[], rfl, fun _ _ => ⟨[], [], rfl, rfl, rfl⟩⟩
  | s :: ss, x :: xs, hl, hs => by
    obtain ⟨t, ht, h1⟩ := rows_agree s x hl.1 hs.1
    obtain ⟨ts, hts, h2⟩ := rows_agreeList ss xs hl.2 hs.2
    refine ⟨_, by rw [defaultPreList, ht, hts], fun i hi => ?_⟩
    obtain ⟨y, t', a1, a2, a3⟩ := h1 i hi
    obtain ⟨ys, ts', b1, b2, b3⟩ := h2 i hi
    exact ⟨y :: ys, t' :: ts', by rw [batchToSingleList, a1, b1], by rw [rowTreeList, a2, b2], by rw [defaultPreList, a3, b3]⟩
theorem rows_agreeDict {B : Nat} : ∀ ss xs, LeavesDict B xs → ShapesDict ss xs → ∃ ts, defaultPreDict ss xs = .ok ts ∧
    ∀ i < B, ∀ ys, batchToSingleDict i xs = some ys → ∃ ts', rowTreeDict i ts = some ts' ∧ defaultPreDict ss ys = .ok ts'
  | [], _, _, _ => ⟨[], rfl, fun _ _ _ _ => ⟨[], rfl, rfl⟩⟩
  | (k, s) :: ss, xs, hl, hs => by
    obtain ⟨x, hx, hsx⟩ := hs.1
    obtain ⟨t, ht, h1⟩ := rows_agree s x (leaves_lookup hl hx) hsx
    obtain ⟨ts, hts, h2⟩ := rows_agreeDict ss xs hl hs.2
    refine ⟨(k, t) :: ts, by rw [defaultPreDict, hx]; simp only [ht, hts], fun i hi ys hys => ?_⟩
    obtain ⟨y, t', a1, a2, a3⟩ := h1 i hi
    obtain ⟨ts', b2, b3⟩ := h2 i hi ys hys
    obtain ⟨y', c1, c2⟩ := lookup_single hys hx
    rw [a1] at c1
    obtain rfl : y = y' := by simpa using c1
    exact ⟨(k, t') :: ts', by rw [rowTreeDict, a2, b2], by rw [defaultPreDict, c2]; simp only [a3, b3]⟩
end

/-- C81: for every nested space and every batch of arrays with the shapes of its members, row `i` of the preprocessed batch is what preprocessing of the single element `i` gives. -/
theorem C81_batch {B : Nat} (s : Space) (X : Inp) (hl : Leaves B X) (hs : Shapes s X) :
    ∃ t, defaultPre s X = .ok t ∧ ∀ i < B, ∃ x t', batchToSingle i X = some x ∧ rowTree i t = some t' ∧ defaultPre s x = .ok t' :=
  rows_agree s X hl hs

/-! ### Round trip of batches of one -/

mutual
theorem single_batch : ∀ x y, singleToBatch x = some y → batchToSingle 0 y = some x
  | .int x, y, h => by obtain rfl : Inp.ints [x] = y := by simpa [singleToBatch] using h
                       rfl
  | .ints l, y, h => by obtain rfl : Inp.ints2 [l] = y := by simpa [singleToBatch] using h
                        rfl
  | .floats l, y, h => by obtain rfl : Inp.floats2 [l] = y := by simpa [singleToBatch] using h
                          rfl
  | .tuple l, y, h => by
    rw [singleToBatch] at h
    cases h1 : singleToBatchList l with
    | none => rw [h1] at h; simp at h
    | some ys =>
      rw [h1] at h
      obtain rfl : Inp.tuple ys = y := by simpa using h
      rw [batchToSingle, single_batchList l ys h1]; rfl
  | .dict l, y, h => by
    rw [singleToBatch] at h
    cases h1 : singleToBatchDict l with
    | none => rw [h1] at h; simp at h
    | some ys =>
      rw [h1] at h
      obtain rfl : Inp.dict ys = y := by simpa using h
      rw [batchToSingle, single_batchDict l ys h1]; rfl
  | .ints2 l, y, h => by simp [singleToBatch] at h
  | .floats2 l, y, h => by simp [singleToBatch] at h
theorem single_batchList : ∀ l ys, singleToBatchList l = some ys → batchToSingleList 0 ys = some l
  | [], ys, h => by obtain rfl : [] = ys := by simpa [singleToBatchList] using h
                    rfl
  | x :: xs, ys, h => by
    rw [singleToBatchList] at h
    cases h1 : singleToBatch x with
    | none => rw [h1] at h; simp at h
    | some y =>
      cases h2 : singleToBatchList xs with
      | none => rw [h1, h2] at h; simp at h
      | some ys' =>
        rw [h1, h2] at h
        obtain rfl : y :: ys' = ys := by simpa using h
        rw [batchToSingleList, single_batch x y h1, single_batchList xs ys' h2]
theorem single_batchDict : ∀ l ys, singleToBatchDict l = some ys → batchToSingleDict 0 ys = some l
  | [], ys, h => by obtain rfl : [] = ys := by simpa [singleToBatchDict] using h
                    rfl
  | (k, x) :: xs, ys, h => by
    rw [singleToBatchDict] at h
    cases h1 : singleToBatch x with
    | none => rw [h1] at h; simp at h
    | some y =>
      cases h2 : singleToBatchDict xs with
      | none => rw [h1, h2] at h; simp at h
      | some ys' =>
        rw [h1, h2] at h
        obtain rfl : (k, y) :: ys' = ys := by simpa using h
        rw [batchToSingleDict, single_batch x y h1, single_batchDict xs ys' h2]
end

/-! ### Members -/

/-- Inside bounds that may be infinite. -/
def Inside (b : Option ℝ × Option ℝ) (x : ℝ) : Prop := (∀ l, b.1 = some l → l ≤ x) ∧ ∀ h, b.2 = some h → x ≤ h

mutual
/-- Membership, as `gymnasium` defines it. -/
def Mem : Space → Inp → Prop
  | .discrete n start, .int x => start ≤ x ∧ x < start + n
  | .box bounds, .floats l => List.Forall₂ Inside bounds l
  | .multiDiscrete nvec, .ints l => List.Forall₂ (fun (n : Nat) (x : Int) => 0 ≤ x ∧ x < n) nvec l
  | .multiBinary n, .ints l => l.length = n ∧ ∀ x ∈ l, x = 0 ∨ x = 1
  | .tuple ss, .tuple xs => MemList ss xs
  | .dict ss, .dict xs => MemDict ss xs
  | _, _ => False
def MemList : List Space → List Inp → Prop
  | [], [] => True
  | s :: ss, x :: xs => Mem s x ∧ MemList ss xs
  | _, _ => False
def MemDict : List (String × Space) → List (String × Inp) → Prop
  | [], _ => True
  | (k, s) :: ss, xs => (∃ x, xs.lookup k = some x ∧ Mem s x) ∧ MemDict ss xs
end

mutual
/-- The parts of the space that matter are the same in both members. -/
def Same : Space → Inp → Inp → Prop
  | .tuple ss, .tuple xs, .tuple ys => SameList ss xs ys
  | .dict ss, .dict xs, .dict ys => SameDict ss xs ys
  | _, x, y => x = y
def SameList : List Space → List Inp → List Inp → Prop
  | [], _, _ => True
  | s :: ss, x :: xs, y :: ys => Same s x y ∧ SameList ss xs ys
  | _, _, _ => False
def SameDict : List (String × Space) → List (String × Inp) → List (String × Inp) → Prop
  | [], _, _ => True
  | (k, s) :: ss, xs, ys => (∃ x y, xs.lookup k = some x ∧ ys.lookup k = some y ∧ Same s x y) ∧ SameDict ss xs ys
end

mutual
/-- Discrete spaces start at zero, and no Box or MultiBinary space is empty. -/
def Plain : Space → Prop
  | .discrete _ start => start = 0
  | .box bounds => bounds ≠ []
  | .multiBinary n => 0 < n
  | .multiDiscrete _ => True
  | .tuple ss => PlainList ss
  | .dict ss => PlainDict ss
  | .other => False
def PlainList : List Space → Prop
  | [] => True
  | s :: ss => Plain s ∧ PlainList ss
def PlainDict : List (String × Space) → Prop
  | [] => True
  | (_, s) :: ss => Plain s ∧ PlainDict ss
end

theorem clipEntry_inside {b : Option ℝ × Option ℝ} {x : ℝ} (h : Inside b x) : clipEntry b x = x := by
  obtain ⟨l, u⟩ := b
  unfold clipEntry
  cases l with
  | none => cases u with
    | none => rfl
    | some u => exact min_eq_left (h.2 u rfl)
  | some l =>
    have hl : max x l = x := max_eq_left (h.1 l rfl)
    cases u with
    | none => exact hl
    | some u => simp only [hl]; exact min_eq_left (h.2 u rfl)

theorem clipRow_inside {bs : List (Option ℝ × Option ℝ)} {l : List ℝ} (h : List.Forall₂ Inside bs l) : List.zipWith clipEntry bs l = l := by
  induction h with
  | nil => rfl
  | cons h _ ih => rw [List.zipWith_cons_cons, clipEntry_inside h, ih]

theorem oneHotRow_injective {n : Nat} {x y : Int} (h0 : 0 ≤ x) (hx : x < n) (h : oneHotRow n x = oneHotRow n y) : x = y := by
  have h1 := congrArg (fun l => l[x.toNat]?) h
  have hlt : x.toNat < n := by omega
  simp only [oneHotRow, List.getElem?_map, List.getElem?_range hlt, Option.map_some, Int.toNat_of_nonneg h0, if_true, Option.some.injEq] at h1
  by_contra hxy
  rw [if_neg hxy] at h1
  exact one_ne_zero h1

theorem multi_injective {nvec : List Nat} {l m : List Int} (hl : List.Forall₂ (fun (n : Nat) (x : Int) => 0 ≤ x ∧ x < n) nvec l) (hm : List.Forall₂ (fun (n : Nat) (x : Int) => 0 ≤ x ∧ x < n) nvec m)
    (h : (nvec.mapIdx fun j n => (.leaf [oneHotRow n (l.getD j 0)] : Dists.Tree (List (List ℝ)))) = nvec.mapIdx fun j n => .leaf [oneHotRow n (m.getD j 0)]) : l = m := by
  induction hl generalizing m with
  | nil => cases hm; rfl
  | @cons n x ns xs hx _ ih =>
    cases hm with
    | @cons _ y _ ys hy hys =>
      simp only [List.mapIdx_cons, List.getD_cons_zero, List.getD_cons_succ] at h
      obtain ⟨h1, h2⟩ := List.cons.inj h
      have h3 : oneHotRow n x = oneHotRow n y := by simpa using h1
      rw [oneHotRow_injective hx.1 hx.2 h3, ih hys h2]

mutual
theorem pre_injective : ∀ s x y, Plain s → Mem s x → Mem s y → defaultPre s x = defaultPre s y → Same s x y
  | .discrete n start, .int x, .int y, hp, hx, hy, h => by
    have hp' : start = 0 := hp
    have hx' : start ≤ x ∧ x < start + n := hx
    have h1 : oneHotRow n x = oneHotRow n y := by simpa [defaultPre] using h
    show Inp.int x = Inp.int y
    rw [oneHotRow_injective (by omega) (by omega) h1]
  | .box bounds, .floats l, .floats m, hp, hx, hy, h => by
    have hl : List.Forall₂ Inside bounds l := hx
    have hm : List.Forall₂ Inside bounds m := hy
    have hd : 0 < bounds.length := List.length_pos_of_ne_nil hp
    rw [defaultPre, defaultPre, preBox, preBox, reshapeTo_single hd _ hl.length_eq.symm, reshapeTo_single hd _ hm.length_eq.symm] at h
    simp only [List.map_cons, List.map_nil, clipRow_inside hl, clipRow_inside hm] at h
    have h1 : l = m := by simpa using h
    show Inp.floats l = Inp.floats m
    rw [h1]
  | .multiDiscrete nvec, .ints l, .ints m, _, hx, hy, h => by
    have hl : List.Forall₂ (fun (n : Nat) (x : Int) => 0 ≤ x ∧ x < n) nvec l := hx
    have hm : List.Forall₂ (fun (n : Nat) (x : Int) => 0 ≤ x ∧ x < n) nvec m := hy
    rw [defaultPre, defaultPre, preMulti_ok (m := nvec.length) [l] (by simpa using hl.length_eq.symm) nvec 0 (by omega),
      preMulti_ok (m := nvec.length) [m] (by simpa using hm.length_eq.symm) nvec 0 (by omega)] at h
    simp only [List.map_cons, List.map_nil, Nat.zero_add] at h
    show Inp.ints l = Inp.ints m
    rw [multi_injective hl hm (Dists.Tree.list.inj (Except.ok.inj h))]
  | .multiBinary n, .ints l, .ints m, hp, hx, hy, h => by
    have hp' : 0 < n := hp
    have hl : l.length = n := hx.1
    have hm : m.length = n := hy.1
    rw [defaultPre, defaultPre, reshapeTo_single hp' _ (by simpa using hl), reshapeTo_single hp' _ (by simpa using hm)] at h
    have h1 : l.map (fun x : Int => (x : ℝ)) = m.map fun x : Int => (x : ℝ) := by simpa using h
    show Inp.ints l = Inp.ints m
    rw [List.map_injective_iff.2 Int.cast_injective h1]
  | .tuple ss, .tuple xs, .tuple ys, hp, hx, hy, h => by
    rw [defaultPre, defaultPre] at h
    obtain ⟨ts, ht⟩ := pre_okList ss xs hp hx
    obtain ⟨us, hu⟩ := pre_okList ss ys hp hy
    rw [ht, hu] at h
    refine pre_injectiveList ss xs ys hp hx hy ?_
    rw [ht, hu, Dists.Tree.list.inj (Except.ok.inj h)]
  | .dict ss, .dict xs, .dict ys, hp, hx, hy, h => by
    rw [defaultPre, defaultPre] at h
    obtain ⟨ts, ht⟩ := pre_okDict ss xs hp hx
    obtain ⟨us, hu⟩ := pre_okDict ss ys hp hy
    rw [ht, hu] at h
    refine pre_injectiveDict ss xs ys hp hx hy ?_
    rw [ht, hu, Dists.Tree.dict.inj (Except.ok.inj h)]
theorem pre_injectiveList : ∀ ss xs ys, PlainList ss → MemList ss xs → MemList ss ys → defaultPreList ss xs = defaultPreList ss ys → SameList ss xs ys
  | [], _, _, _, _, _, _ => trivial
  | s :: ss, x :: xs, y :: ys, hp, hx, hy, h => by
    obtain ⟨t, ht⟩ := pre_ok s x hp.1 hx.1
    obtain ⟨u, hu⟩ := pre_ok s y hp.1 hy.1
    obtain ⟨ts, hts⟩ := pre_okList ss xs hp.2 hx.2
    obtain ⟨us, hus⟩ := pre_okList ss ys hp.2 hy.2
    rw [defaultPreList, defaultPreList, ht, hu] at h
    simp only [hts, hus] at h
    obtain ⟨h1, h2⟩ := List.cons.inj (Except.ok.inj h)
    exact ⟨pre_injective s x y hp.1 hx.1 hy.1 (by rw [ht, hu, h1]), pre_injectiveList ss xs ys hp.2 hx.2 hy.2 (by rw [hts, hus, h2])⟩
theorem pre_injectiveDict : ∀ ss xs ys, PlainDict ss → MemDict ss xs → MemDict ss ys → defaultPreDict ss xs = defaultPreDict ss ys → SameDict ss xs ys
  | [], _, _, _, _, _, _ => trivial
  | (k, s) :: ss, xs, ys, hp, hx, hy, h => by
    obtain ⟨x, hlx, hmx⟩ := hx.1
    obtain ⟨y, hly, hmy⟩ := hy.1
    obtain ⟨t, ht⟩ := pre_ok s x hp.1 hmx
    obtain ⟨u, hu⟩ := pre_ok s y hp.1 hmy
    obtain ⟨ts, hts⟩ := pre_okDict ss xs hp.2 hx.2
    obtain ⟨us, hus⟩ := pre_okDict ss ys hp.2 hy.2
    rw [defaultPreDict, defaultPreDict, hlx, hly] at h
    simp only [ht, hu, hts, hus] at h
    obtain ⟨h1, h2⟩ := List.cons.inj (Except.ok.inj h)
    exact ⟨⟨x, y, hlx, hly, pre_injective s x y hp.1 hmx hmy (by rw [ht, hu, (Prod.mk.inj h1).2])⟩, pre_injectiveDict ss xs ys hp.2 hx.2 hy.2 (by rw [hts, hus, h2])⟩
theorem pre_ok : ∀ s x, Plain s → Mem s x → ∃ t, defaultPre s x = .ok t
  | .discrete n start, .int x, _, _ => ⟨_, rfl⟩
  | .box bounds, .floats l, hp, hx => by
    have hl : List.Forall₂ Inside bounds l := hx
    exact ⟨_, by rw [defaultPre, preBox, reshapeTo_single (List.length_pos_of_ne_nil hp) _ hl.length_eq.symm]⟩
  | .multiDiscrete nvec, .ints l, _, hx => by
    have hl : List.Forall₂ (fun (n : Nat) (x : Int) => 0 ≤ x ∧ x < n) nvec l := hx
    exact ⟨_, by rw [defaultPre, preMulti_ok (m := nvec.length) [l] (by simpa using hl.length_eq.symm) nvec 0 (by omega)]⟩
  | .multiBinary n, .ints l, hp, hx => by
    have hp' : 0 < n := hp
    exact ⟨_, by rw [defaultPre, reshapeTo_single hp' _ (by simpa using hx.1)]⟩
  | .tuple ss, .tuple xs, hp, hx => by
    obtain ⟨ts, ht⟩ := pre_okList ss xs hp hx
    exact ⟨_, by rw [defaultPre, ht]⟩
  | .dict ss, .dict xs, hp, hx => by
    obtain ⟨ts, ht⟩ := pre_okDict ss xs hp hx
    exact ⟨_, by rw [defaultPre, ht]⟩
theorem pre_okList : ∀ ss xs, PlainList ss → MemList ss xs → ∃ ts, defaultPreList ss xs = .ok ts
  | [], _, _, _ => ⟨_, rfl⟩
  | s :: ss, x :: xs, hp, hx => by
    obtain ⟨t, ht⟩ := pre_ok s x hp.1 hx.1
    obtain ⟨ts, hts⟩ := pre_okList ss xs hp.2 hx.2
    exact ⟨t :: ts, by rw [defaultPreList, ht]; simp only [hts]⟩
theorem pre_okDict : ∀ ss xs, PlainDict ss → MemDict ss xs → ∃ ts, defaultPreDict ss xs = .ok ts
  | [], _, _, _ => ⟨_, rfl⟩
  | (k, s) :: ss, xs, hp, hx => by
    obtain ⟨x, hlx, hmx⟩ := hx.1
    obtain ⟨t, ht⟩ := pre_ok s x hp.1 hmx
    obtain ⟨ts, hts⟩ := pre_okDict ss xs hp.2 hx.2
    exact ⟨(k, t) :: ts, by rw [defaultPreDict, hlx]; simp only [ht, hts]⟩
end

/-- C81: `single_to_batch` followed by `batch_to_single` is the identity. -/
theorem C81_round (x y : Inp) (h : singleToBatch x = some y) : batchToSingle 0 y = some x := single_batch x y h

/-- C81: members of a space are preprocessed without an error, and different members give different features, for nested spaces whose Discrete parts start at zero. -/
theorem C81_injective_partial (s : Space) (x y : Inp) (hp : Plain s) (hx : Mem s x) (hy : Mem s y) :
    (∃ t, defaultPre s x = .ok t) ∧ (defaultPre s x = defaultPre s y → Same s x y) :=
  ⟨pre_ok s x hp hx, pre_injective s x y hp hx hy⟩

/-- C81, what fails: the start of a Discrete space is ignored.  Members out of the range `0, …, n-1` are all mapped to the zero vector, so that members of a space with `start ≥ 2` or `start ≤ -2` are mixed up. -/
theorem C81_start_ignored (n : Nat) (start : Int) (hn : 2 ≤ n) (h : 2 ≤ start ∨ start ≤ -2) :
    ∃ x y, x ≠ y ∧ Mem (.discrete n start) (.int x) ∧ Mem (.discrete n start) (.int y) ∧ defaultPre (.discrete n start) (.int x) = defaultPre (.discrete n start) (.int y) := by
  have key : ∀ x : Int, (x < 0 ∨ (n : Int) ≤ x) → oneHotRow n x = (List.range n).map fun _ => 0 := by
    intro x hx
    refine List.map_congr_left fun k hk => if_neg ?_
    have := List.mem_range.1 hk
    omega
  rcases h with h | h
  · refine ⟨start + n - 1, start + n - 2, by omega, ⟨by omega, by omega⟩, ⟨by omega, by omega⟩, ?_⟩
    rw [defaultPre, defaultPre, key _ (Or.inr (by omega)), key _ (Or.inr (by omega))]
  · refine ⟨start, start + 1, by omega, ⟨by omega, by omega⟩, ⟨by omega, by omega⟩, ?_⟩
    rw [defaultPre, defaultPre, key _ (Or.inl (by omega)), key _ (Or.inl (by omega))]

/-! ### Sampling -/

mutual
/-- The space has members, Discrete parts start at zero, and every Box contains zero. -/
def Samplable : Space → Prop
  | .discrete n start => 0 < n ∧ start = 0
  | .box bounds => ∀ b ∈ bounds, Inside b 0
  | .multiBinary _ => True
  | .multiDiscrete nvec => 0 ∉ nvec
  | .tuple ss => SamplableList ss
  | .dict ss => SamplableDict ss
  | .other => False
def SamplableList : List Space → Prop
  | [] => True
  | s :: ss => Samplable s ∧ SamplableList ss
/-- The keys of a dict are distinct. -/
def SamplableDict : List (String × Space) → Prop
  | [] => True
  | (k, s) :: ss => k ∉ ss.map Prod.fst ∧ Samplable s ∧ SamplableDict ss
end

/-- `sign x * log (1 + |x|)` lies between zero and `x`. -/
theorem logScale_between (x : ℝ) : min 0 x ≤ SignType.sign x * Real.log (1 + |x|) ∧ SignType.sign x * Real.log (1 + |x|) ≤ max 0 x := by
  have h1 : 0 ≤ Real.log (1 + |x|) := Real.log_nonneg (by linarith [abs_nonneg x])
  have h2 : Real.log (1 + |x|) ≤ |x| := by have := Real.log_le_sub_one_of_pos (show 0 < 1 + |x| by linarith [abs_nonneg x]); linarith
  rcases lt_trichotomy x 0 with h | rfl | h
  · rw [abs_of_neg h] at *
    rw [sign_neg h, min_eq_right h.le, max_eq_left h.le]
    simp only [SignType.coe_neg_one, neg_mul, one_mul]
    constructor <;> linarith
  · simp
  · rw [abs_of_pos h] at *
    rw [sign_pos h, min_eq_left h.le, max_eq_right h.le]
    simp only [SignType.coe_one, one_mul]
    exact ⟨h1, h2⟩

theorem safeEntry_inside {b : Option ℝ × Option ℝ} (h0 : Inside b 0) {r : ℝ} (hr : 0 ≤ r) (hr' : r ≤ 1) : Inside b (safeEntry b r) := by
  obtain ⟨lo, hi⟩ := b
  have hl : safeLow lo ≤ 0 := by
    cases lo with
    | none => rw [safeLow]; norm_num
    | some l => exact (min_le_left _ _).trans (max_le (h0.1 l rfl) (by norm_num))
  have hh : 0 ≤ safeHigh hi := by
    cases hi with
    | none => rw [safeHigh]; norm_num
    | some u => exact le_min ((h0.2 u rfl).trans (le_max_left _ _)) (by norm_num)
  have hll : ∀ l, lo = some l → l ≤ safeLow lo := by
    rintro l rfl
    exact le_min (le_max_left _ _) ((h0.1 l rfl).trans (by norm_num))
  have hhh : ∀ u, hi = some u → safeHigh hi ≤ u := by
    rintro u rfl
    exact (min_le_left _ _).trans (max_le le_rfl ((by norm_num : (-1e9 : ℝ) ≤ 0).trans (h0.2 u rfl)))
  have hx1 : safeLow lo ≤ safeLow lo + r * (safeHigh hi - safeLow lo) := by nlinarith
  have hx2 : safeLow lo + r * (safeHigh hi - safeLow lo) ≤ safeHigh hi := by nlinarith
  obtain ⟨k1, k2⟩ := logScale_between (safeLow lo + r * (safeHigh hi - safeLow lo))
  exact ⟨fun l e => (le_min ((hll l e).trans hl) ((hll l e).trans hx1)).trans k1, fun u e => k2.trans (max_le (hh.trans (hhh u e)) (hx2.trans (hhh u e)))⟩

theorem forall₂_mapIdx {α β : Type _} {R : α → β → Prop} (l : List α) (f : Nat → α → β) (h : ∀ i, ∀ a ∈ l, R a (f i a)) : List.Forall₂ R l (l.mapIdx f) := by
  induction l generalizing f with
  | nil => exact .nil
  | cons a l ih => rw [List.mapIdx_cons]; exact .cons (h 0 a (by simp)) (ih (fun i => f (i + 1)) fun i b hb => h (i + 1) b (by simp [hb]))

theorem memDict_cons (k : String) (x : Inp) : ∀ (ss : List (String × Space)) (xs : List (String × Inp)), k ∉ ss.map Prod.fst → MemDict ss xs → MemDict ss ((k, x) :: xs)
  | [], _, _, _ => trivial
  | (k', s) :: ss, xs, hk, h => by
    obtain ⟨y, hy, hm⟩ := h.1
    refine ⟨⟨y, ?_, hm⟩, memDict_cons k x ss xs (fun hc => hk (by simp at hc ⊢; exact Or.inr hc)) h.2⟩
    have hne : (k' == k) = false := beq_eq_false_iff_ne.2 fun e => hk (by simp [e])
    rw [List.lookup_cons, hne]; exact hy

mutual
theorem sample_mem (rnd : Rnd) (hr : ∀ p, 0 ≤ rnd.unit p ∧ rnd.unit p ≤ 1) : ∀ path s, Samplable s → ∃ x, safeSample rnd path s = .ok x ∧ Mem s x
  | path, .discrete n start, h => by
    have h' : 0 < n ∧ start = 0 := h
    refine ⟨.int (rnd.nat path % n : Nat), by rw [safeSample, if_neg (by omega)], ?_⟩
    have := Nat.mod_lt (rnd.nat path) h'.1
    exact ⟨by omega, by omega⟩
  | path, .multiDiscrete nvec, h => by
    have h' : 0 ∉ nvec := h
    refine ⟨.ints (nvec.mapIdx fun i n => ((rnd.nat (i :: path) % n : Nat) : Int)), by rw [safeSample, if_neg h'], forall₂_mapIdx _ _ fun i n hn => ⟨by omega, ?_⟩⟩
    have : 0 < n := Nat.pos_of_ne_zero fun e => h' (e ▸ hn)
    have := Nat.mod_lt (rnd.nat (i :: path)) this
    omega
  | path, .multiBinary n, _ => by
    refine ⟨.ints ((List.range n).map fun i => ((rnd.nat (i :: path) % 2 : Nat) : Int)), by rw [safeSample], by simp, fun x hx => ?_⟩
    obtain ⟨i, _, rfl⟩ := List.mem_map.1 hx
    omega
  | path, .box bounds, h => ⟨.floats (bounds.mapIdx fun i b => safeEntry b (rnd.unit (i :: path))), by rw [safeSample], forall₂_mapIdx _ _ fun i b hb => safeEntry_inside (h b hb) (hr _).1 (hr _).2⟩
  | path, .tuple ss, h => by
    obtain ⟨xs, h1, h2⟩ := sample_memList rnd hr path 0 ss h
    exact ⟨.tuple xs, by rw [safeSample, h1], h2⟩
  | path, .dict ss, h => by
    obtain ⟨xs, h1, h2⟩ := sample_memDict rnd hr path 0 ss h
    exact ⟨.dict xs, by rw [safeSample, h1], h2⟩
theorem sample_memList (rnd : Rnd) (hr : ∀ p, 0 ≤ rnd.unit p ∧ rnd.unit p ≤ 1) : ∀ path i ss, SamplableList ss → ∃ xs, safeSampleList rnd path i ss = .ok xs ∧ MemList ss xs
  | _, _, [], _ => ⟨[], rfl, trivial⟩
  | path, i, s :: ss, h => by
    obtain ⟨x, h1, h2⟩ := sample_mem rnd hr (i :: path) s h.1
    obtain ⟨xs, h3, h4⟩ := sample_memList rnd hr path (i + 1) ss h.2
    exact ⟨x :: xs, by rw [safeSampleList, h1]; simp only [h3], h2, h4⟩
theorem sample_memDict (rnd : Rnd) (hr : ∀ p, 0 ≤ rnd.unit p ∧ rnd.unit p ≤ 1) : ∀ path i ss, SamplableDict ss → ∃ xs, safeSampleDict rnd path i ss = .ok xs ∧ MemDict ss xs
  | _, _, [], _ => ⟨[], rfl, trivial⟩
  | path, i, (k, s) :: ss, h => by
    obtain ⟨x, h1, h2⟩ := sample_mem rnd hr (i :: path) s h.2.1
    obtain ⟨xs, h3, h4⟩ := sample_memDict rnd hr path (i + 1) ss h.2.2
    exact ⟨(k, x) :: xs, by rw [safeSampleDict, h1]; simp only [h3], ⟨x, by simp, h2⟩, memDict_cons k x ss xs h.1 h4⟩
end

/-- C82: `safe_sample` returns a member of the space, for every nested space whose Discrete parts start at zero and whose Boxes contain zero, whatever the random numbers. -/
theorem C82_member_partial (rnd : Rnd) (hr : ∀ p, 0 ≤ rnd.unit p ∧ rnd.unit p ≤ 1) (path : List Nat) (s : Space) (h : Samplable s) :
    ∃ x, safeSample rnd path s = .ok x ∧ Mem s x := sample_mem rnd hr path s h

/-- C82, what fails: no sample of a Box between `e` and `10⁹` (here `[5, 10]`) is a member of the Box. -/
theorem C82_box_counterexample (rnd : Rnd) (hr : ∀ p, 0 ≤ rnd.unit p ∧ rnd.unit p ≤ 1) (path : List Nat) :
    ∃ x, safeSample rnd path (.box [(some 5, some 10)]) = .ok x ∧ ¬ Mem (.box [(some 5, some 10)]) x := by
  refine ⟨_, by rw [safeSample], fun hm => ?_⟩
  have h : List.Forall₂ Inside [(some 5, some 10)] (List.mapIdx (fun i b => safeEntry b (rnd.unit (i :: path))) [(some (5 : ℝ), some (10 : ℝ))]) := hm
  simp only [List.mapIdx_cons, List.mapIdx_nil] at h
  cases h with
  | cons h _ =>
    have h5 := h.1 5 rfl
    obtain ⟨r0, r1⟩ := hr (0 :: path)
    have hx : safeEntry (some 5, some 10) (rnd.unit (0 :: path)) = Real.log (1 + (5 + rnd.unit (0 :: path) * 5)) := by
      simp only [safeEntry, safeLow, safeHigh]
      have e1 : min (max (5 : ℝ) (-1e9)) 1e9 = 5 := by norm_num
      have e2 : min (max (10 : ℝ) (-1e9)) 1e9 = 10 := by norm_num
      rw [e1, e2, show (10 : ℝ) - 5 = 5 by norm_num]
      have hp : 0 < 5 + rnd.unit (0 :: path) * 5 := by nlinarith
      rw [sign_pos hp, abs_of_pos hp]; simp
    rw [hx] at h5
    have h6 : Real.exp 5 ≤ 1 + (5 + rnd.unit (0 :: path) * 5) := (Real.le_log_iff_exp_le (by nlinarith)).1 h5
    have h7 : (2 : ℝ) ^ 5 ≤ Real.exp 5 := by
      have h2 : (2 : ℝ) ≤ Real.exp 1 := by have := Real.add_one_le_exp (1 : ℝ); linarith
      calc (2 : ℝ) ^ 5 ≤ Real.exp 1 ^ 5 := by gcongr
        _ = Real.exp 5 := by rw [← Real.exp_nat_mul]; norm_num
    nlinarith

/-- C82, what fails: the start of a Discrete space is ignored.  If the range `start, …, start + n - 1` does not meet `0, …, n - 1` then no sample is a member. -/
theorem C82_start_counterexample (rnd : Rnd) (path : List Nat) (n : Nat) (start : Int) (hn : 0 < n) (h : (n : Int) ≤ start ∨ start ≤ -n) :
    ∃ x, safeSample rnd path (.discrete n start) = .ok x ∧ ¬ Mem (.discrete n start) x := by
  refine ⟨_, by rw [safeSample, if_neg (by omega)], fun hm => ?_⟩
  have hm' : start ≤ ((rnd.nat path % n : Nat) : Int) ∧ ((rnd.nat path % n : Nat) : Int) < start + n := hm
  have := Nat.mod_lt (rnd.nat path) hn
  omega

/-- A nested space with a batch of two members, two different members, and a space that meets the hypotheses on sampling. -/
example : ∃ (s : Space) (X x y : Inp), Leaves 2 X ∧ Shapes s X ∧ Plain s ∧ Mem s x ∧ Mem s y ∧ ¬ Same s x y ∧ Samplable s := by
  refine ⟨.dict [("a", .discrete 3 0), ("b", .tuple [.box [(some (-1), some 1), (none, none)], .multiDiscrete [2, 4]])],
    .dict [("b", .tuple [.floats2 [[0, 1], [1, 5]], .ints2 [[0, 3], [1, 2]]]), ("a", .ints [0, 2])],
    .dict [("b", .tuple [.floats [0, 1], .ints [0, 3]]), ("a", .int 0)], .dict [("a", .int 2), ("b", .tuple [.floats [0, 1], .ints [0, 3]])],
    ?_, ?_, ?_, ?_, ?_, ?_, ?_⟩
  · exact ⟨⟨rfl, rfl, trivial⟩, rfl, trivial⟩
  · exact ⟨⟨_, rfl, trivial⟩, ⟨_, rfl, ⟨by simp, by simp⟩, by intro r hr; revert r; simp, trivial⟩, trivial⟩
  · exact ⟨rfl, ⟨by simp [Plain], trivial, trivial⟩, trivial⟩
  · exact ⟨⟨_, rfl, by decide, by decide⟩, ⟨_, rfl, .cons (by simp [Inside]) (.cons (by simp [Inside]) .nil), .cons (by decide) (.cons (by decide) .nil), trivial⟩, trivial⟩
  · exact ⟨⟨_, rfl, by decide, by decide⟩, ⟨_, rfl, .cons (by simp [Inside]) (.cons (by simp [Inside]) .nil), .cons (by decide) (.cons (by decide) .nil), trivial⟩, trivial⟩
  · rintro ⟨⟨x, y, hx, hy, h⟩, -⟩
    obtain rfl : Inp.int 0 = x := Option.some.inj hx
    obtain rfl : Inp.int 2 = y := Option.some.inj hy
    have h' : Inp.int 0 = Inp.int 2 := h
    simp at h'
  · exact ⟨by decide, ⟨by decide, rfl⟩, by decide, ⟨by intro b hb; revert b; simp [Inside], by show (0 : Nat) ∉ [2, 4]; decide, trivial⟩, trivial⟩

end Coax.Utils
