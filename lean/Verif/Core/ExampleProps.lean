import Verif.Core.Example
import Verif.Core.OutputsProps
import Verif.Utils.PreprocessProps

/-!
C148: what networks are initialised and checked with is what they get in training: `example_data` returns batches of features of members of the spaces, with the shapes of the batches of transitions.
-/

namespace Coax.Core

open Coax.Dists (Space)
open Coax.Utils (Inp Rnd safeSample safeSampleList safeSampleDict defaultPre defaultPreList defaultPreDict rowTree rowTreeList rowTreeDict Mem MemList MemDict)

/-! ### Specification -/

mutual
/-- The numbers of features of the members of a space: one for each of the values of a discrete one, one for each of the entries of the others. -/
def sizes : Space → Dists.Tree Nat
  | .discrete n _ => .leaf n
  | .box bounds => .leaf bounds.length
  | .multiDiscrete nvec => .list (nvec.map .leaf)
  | .multiBinary n => .leaf n
  | .tuple ss => .list (sizesList ss)
  | .dict ss => .dict (sizesDict ss)
  | .other => .list []
def sizesList : List Space → List (Dists.Tree Nat)
  | [] => []
  | s :: ss => sizes s :: sizesList ss
def sizesDict : List (String × Space) → List (String × Dists.Tree Nat)
  | [] => []
  | (k, s) :: ss => (k, sizes s) :: sizesDict ss
end

mutual
/-- A tree of arrays with `B` rows and these numbers of columns. -/
def HasShape (B : Nat) : Dists.Tree Nat → Feat → Prop
  | .leaf w, .leaf rows => rows.length = B ∧ ∀ r ∈ rows, r.length = w
  | .list ws, .list ts => HasShapeList B ws ts
  | .dict ws, .dict ts => HasShapeDict B ws ts
  | _, _ => False
def HasShapeList (B : Nat) : List (Dists.Tree Nat) → List Feat → Prop
  | [], [] => True
  | w :: ws, t :: ts => HasShape B w t ∧ HasShapeList B ws ts
  | _, _ => False
def HasShapeDict (B : Nat) : List (String × Dists.Tree Nat) → List (String × Feat) → Prop
  | [], [] => True
  | (k, w) :: ws, (k', t) :: ts => k = k' ∧ HasShape B w t ∧ HasShapeDict B ws ts
  | _, _ => False
end

mutual
/-- Spaces with members: Discrete ones start at zero, no part is empty, the bounds of Boxes are not reversed, the keys of dicts are distinct. -/
def Proper : Space → Prop
  | .discrete n start => 0 < n ∧ start = 0
  | .box bounds => bounds ≠ [] ∧ ∀ b ∈ bounds, ∃ x, Utils.Inside b x
  | .multiBinary n => 0 < n
  | .multiDiscrete nvec => 0 ∉ nvec
  | .tuple ss => ProperList ss
  | .dict ss => ProperDict ss
  | .other => False
def ProperList : List Space → Prop
  | [] => True
  | s :: ss => Proper s ∧ ProperList ss
def ProperDict : List (String × Space) → Prop
  | [] => True
  | (k, s) :: ss => k ∉ ss.map Prod.fst ∧ Proper s ∧ ProperDict ss
end

/-! ### Concatenation -/

mutual
theorem cat2_shape {B C : Nat} : ∀ w a b, HasShape B w a → HasShape C w b → ∃ c, cat2 a b = .ok c ∧ HasShape (B + C) w c ∧
    (∀ i < B, rowTree i c = rowTree i a) ∧ ∀ i, rowTree (B + i) c = rowTree i b
  | .leaf w, .leaf a, .leaf b, ha, hb => by
    have ha' : a.length = B ∧ ∀ r ∈ a, r.length = w := ha
    have hb' : b.length = C ∧ ∀ r ∈ b, r.length = w := hb
    refine ⟨.leaf (a ++ b), ?_, ⟨?_, ?_⟩, fun i hi => ?_, fun i => ?_⟩
    · rw [cat2, if_pos]
      simp only [List.all_eq_true, beq_iff_eq]
      exact fun x hx y hy => (ha'.2 x hx).trans (hb'.2 y hy).symm
    · simp [ha'.1, hb'.1]
    · intro r hr
      rcases List.mem_append.1 hr with h | h
      · exact ha'.2 r h
      · exact hb'.2 r h
    · rw [rowTree, rowTree, List.getElem?_append_left (by omega)]
    · rw [rowTree, rowTree, List.getElem?_append_right (by omega), ha'.1, Nat.add_sub_cancel_left]
  | .list ws, .list as, .list bs, ha, hb => by
    obtain ⟨cs, h1, h2, h3, h4⟩ := cat2_shapeList ws as bs ha hb
    exact ⟨.list cs, by rw [cat2, h1], h2, fun i hi => by rw [rowTree, rowTree, h3 i hi], fun i => by rw [rowTree, rowTree, h4 i]⟩
  | .dict ws, .dict as, .dict bs, ha, hb => by
    obtain ⟨cs, h1, h2, h3, h4⟩ := cat2_shapeDict ws as bs ha hb
    exact ⟨.dict cs, by rw [cat2, h1], h2, fun i hi => by rw [rowTree, rowTree, h3 i hi], fun i => by rw [rowTree, rowTree, h4 i]⟩
theorem cat2_shapeList {B C : Nat} : ∀ ws as bs, HasShapeList B ws as → HasShapeList C ws bs → ∃ cs, cat2List as bs = .ok cs ∧ HasShapeList (B + C) ws cs ∧
    (∀ i < B, rowTreeList i cs = rowTreeList i as) ∧ ∀ i, rowTreeList (B + i) cs = rowTreeList i bs
  | [], [], [], _, _ => ⟨[], rfl, trivial, fun _ _ => rfl, fun _ => rfl⟩
  | w :: ws, a :: as, b :: bs, ha, hb => by
    obtain ⟨c, h1, h2, h3, h4⟩ := cat2_shape w a b ha.1 hb.1
    obtain ⟨cs, k1, k2, k3, k4⟩ := cat2_shapeList ws as bs ha.2 hb.2
    exact ⟨c :: cs, by rw [cat2List, h1]; simp only [k1], ⟨h2, k2⟩, fun i hi => by rw [rowTreeList, rowTreeList, h3 i hi, k3 i hi], fun i => by rw [rowTreeList, rowTreeList, h4 i, k4 i]⟩
theorem cat2_shapeDict {B C : Nat} : ∀ ws as bs, HasShapeDict B ws as → HasShapeDict C ws bs → ∃ cs, cat2Dict as bs = .ok cs ∧ HasShapeDict (B + C) ws cs ∧
    (∀ i < B, rowTreeDict i cs = rowTreeDict i as) ∧ ∀ i, rowTreeDict (B + i) cs = rowTreeDict i bs
  | [], [], [], _, _ => ⟨[], rfl, trivial, fun _ _ => rfl, fun _ => rfl⟩
  | (k, w) :: ws, (ka, a) :: as, (kb, b) :: bs, ha, hb => by
    obtain ⟨rfl, ha1, ha2⟩ := ha
    obtain ⟨rfl, hb1, hb2⟩ := hb
    obtain ⟨c, h1, h2, h3, h4⟩ := cat2_shape w a b ha1 hb1
    obtain ⟨cs, k1, k2, k3, k4⟩ := cat2_shapeDict ws as bs ha2 hb2
    exact ⟨(k, c) :: cs, by rw [cat2Dict, if_pos rfl, h1]; simp only [k1], ⟨rfl, h2, k2⟩, fun i hi => by rw [rowTreeDict, rowTreeDict, h3 i hi, k3 i hi],
      fun i => by rw [rowTreeDict, rowTreeDict, h4 i, k4 i]⟩
end

mutual
/-- A tree with one row is its own first row. -/
theorem rowTree_one : ∀ w t, HasShape 1 w t → rowTree 0 t = some t
  | .leaf w, .leaf rows, h => by
    have h' : rows.length = 1 ∧ ∀ r ∈ rows, r.length = w := h
    obtain ⟨r, rfl⟩ := List.length_eq_one_iff.1 h'.1
    rfl
  | .list ws, .list ts, h => by rw [rowTree, rowTree_oneList ws ts h]; rfl
  | .dict ws, .dict ts, h => by rw [rowTree, rowTree_oneDict ws ts h]; rfl
theorem rowTree_oneList : ∀ ws ts, HasShapeList 1 ws ts → rowTreeList 0 ts = some ts
  | [], [], _ => rfl
  | w :: ws, t :: ts, h => by rw [rowTreeList, rowTree_one w t h.1, rowTree_oneList ws ts h.2]
theorem rowTree_oneDict : ∀ ws ts, HasShapeDict 1 ws ts → rowTreeDict 0 ts = some ts
  | [], [], _ => rfl
  | (k, w) :: ws, (k', t) :: ts, h => by rw [rowTreeDict, rowTree_one w t h.2.1, rowTree_oneDict ws ts h.2.2]
end

theorem catFrom_shape {w : Dists.Tree Nat} (ts : List Feat) (hts : ∀ t ∈ ts, HasShape 1 w t) : ∀ {m : Nat} (t : Feat), HasShape m w t → ∃ c, catFrom t ts = .ok c ∧ HasShape (m + ts.length) w c ∧
    (∀ i < m, rowTree i c = rowTree i t) ∧ ∀ i (h : i < ts.length), rowTree (m + i) c = some ts[i] := by
  induction ts with
  | nil => exact fun t ht => ⟨t, rfl, ht, fun _ _ => rfl, fun i h => by simp at h⟩
  | cons u us ih =>
    intro m t ht
    have hu := hts u (by simp)
    obtain ⟨c, h1, h2, h3, h4⟩ := cat2_shape w t u ht hu
    obtain ⟨d, k1, k2, k3, k4⟩ := ih (fun x hx => hts x (by simp [hx])) c h2
    refine ⟨d, by rw [catFrom, h1]; exact k1, by rw [List.length_cons, show m + (us.length + 1) = m + 1 + us.length by omega]; exact k2,
      fun i hi => (k3 i (by omega)).trans (h3 i hi), fun i hi => ?_⟩
    cases i with
    | zero => exact (k3 (m + 0) (by omega)).trans ((h4 0).trans (rowTree_one w u hu))
    | succ i =>
      rw [show m + (i + 1) = m + 1 + i by omega]
      exact k4 i (by simpa using hi)

theorem catAll_shape {w : Dists.Tree Nat} (ts : List Feat) (hne : ts ≠ []) (hts : ∀ t ∈ ts, HasShape 1 w t) : ∃ c, catAll ts = .ok c ∧ HasShape ts.length w c ∧
    ∀ i (h : i < ts.length), rowTree i c = some ts[i] := by
  cases ts with
  | nil => exact absurd rfl hne
  | cons t ts =>
    obtain ⟨c, h1, h2, h3, h4⟩ := catFrom_shape ts (fun u hu => hts u (by simp [hu])) t (hts t (by simp))
    refine ⟨c, h1, by rw [List.length_cons, Nat.add_comm]; exact h2, fun i hi => ?_⟩
    cases i with
    | zero => exact (h3 0 (by omega)).trans (rowTree_one w t (hts t (by simp)))
    | succ i =>
      have := h4 i (by simpa using hi)
      rw [Nat.add_comm 1 i] at this
      exact this

/-! ### Samples and their features -/

theorem drawPre {w : Dists.Tree Nat} (rnds : Nat → Rnd) (s : Space) (pre : Pre) (h : ∀ j, ∃ x, safeSample (rnds j) [] s = .ok x ∧ ∃ t, pre j x = .ok t ∧ HasShape 1 w t) :
    ∀ B i, ∃ xs ts, drawInputs rnds s i B = .ok xs ∧ preAll pre i xs = .ok ts ∧ ts.length = B ∧ (∀ t ∈ ts, HasShape 1 w t) ∧
      ∀ j (hj : j < ts.length), ∃ x, safeSample (rnds (i + j)) [] s = .ok x ∧ pre (i + j) x = .ok ts[j]
  | 0, i => ⟨[], [], rfl, rfl, rfl, by simp, fun j hj => by simp at hj⟩
  | B + 1, i => by
    obtain ⟨x, h1, t, h2, h3⟩ := h i
    obtain ⟨xs, ts, k1, k2, k3, k4, k5⟩ := drawPre rnds s pre h B (i + 1)
    refine ⟨x :: xs, t :: ts, by rw [drawInputs, h1]; simp only [k1], by rw [preAll, h2]; simp only [k2], by simp [k3], ?_, fun j hj => ?_⟩
    · intro u hu
      rcases List.mem_cons.1 hu with rfl | hu
      · exact h3
      · exact k4 u hu
    · cases j with
      | zero => exact ⟨x, h1, h2⟩
      | succ j =>
        obtain ⟨y, a1, a2⟩ := k5 j (by simpa using hj)
        exact ⟨y, by rw [show i + (j + 1) = i + 1 + j by omega]; exact a1, by rw [show i + (j + 1) = i + 1 + j by omega]; exact a2⟩

theorem oneHotRow_length (n : Nat) (x : Int) : (Utils.oneHotRow n x).length = n := by simp [Utils.oneHotRow]

theorem leaves_shape {B : Nat} {β : Type _} (l : List Nat) (f : Nat → Nat → β → List ℝ) (rows : List β) (hB : rows.length = B) (hf : ∀ j n b, (f j n b).length = n) :
    HasShapeList B (l.map .leaf) (l.mapIdx fun j n => .leaf (rows.map (f j n))) := by
  induction l generalizing f with
  | nil => trivial
  | cons n l ih =>
    rw [List.mapIdx_cons]
    exact ⟨⟨by simpa using hB, by simpa using fun b _ => hf 0 n b⟩, ih (fun j => f (j + 1)) fun j => hf (j + 1)⟩

mutual
/-- The features of a batch have one row for each of its elements. -/
theorem batch_shape {B : Nat} : ∀ s X, Utils.Leaves B X → Utils.Shapes s X → ∃ t, defaultPre s X = .ok t ∧ HasShape B (sizes s) t
  | .discrete n _, .ints l, hl, _ => by
    have hl' : l.length = B := hl
    exact ⟨.leaf (l.map (Utils.oneHotRow n)), rfl, by simpa using hl', by simpa using fun x _ => oneHotRow_length n x⟩
  | .box bounds, .floats2 l, hl, hs => by
    have hl' : l.length = B := hl
    have hd : 0 < bounds.length := List.length_pos_of_ne_nil hs.1
    refine ⟨.leaf (l.map fun row => List.zipWith Utils.clipEntry bounds row), by rw [defaultPre, Utils.preBox, Utils.reshapeTo_flatten hd l hs.2], by simpa using hl', fun r hr => ?_⟩
    obtain ⟨x, hx, rfl⟩ := List.mem_map.1 hr
    simp [hs.2 x hx]
  | .multiDiscrete nvec, .ints2 l, hl, hs => by
    have hl' : l.length = B := hl
    have hs' : ∀ r ∈ l, r.length = nvec.length := hs
    exact ⟨.list _, by rw [defaultPre, Utils.preMulti_ok (m := nvec.length) l hs' nvec 0 (by omega)],
      leaves_shape nvec (fun j n (r : List Int) => Utils.oneHotRow n (r.getD (0 + j) 0)) l hl' fun j n b => oneHotRow_length _ _⟩
  | .multiBinary n, .ints2 l, hl, hs => by
    have hl' : l.length = B := hl
    have hs' : 0 < n ∧ ∀ r ∈ l, r.length = n := hs
    have hf : l.flatten.map (fun x : Int => (x : ℝ)) = (l.map fun r => r.map fun x : Int => (x : ℝ)).flatten := by rw [List.map_flatten]
    refine ⟨.leaf (l.map fun r => r.map fun x : Int => (x : ℝ)), by rw [defaultPre, hf, Utils.reshapeTo_flatten hs'.1 _ (by simpa using hs'.2)], by simpa using hl', fun r hr => ?_⟩
    obtain ⟨x, hx, rfl⟩ := List.mem_map.1 hr
    simp [hs'.2 x hx]
  | .tuple ss, .tuple xs, hl, hs => by
    obtain ⟨ts, h1, h2⟩ := batch_shapeList ss xs hl hs
    exact ⟨.list ts, by rw [defaultPre, h1], h2⟩
  | .dict ss, .dict xs, hl, hs => by
    obtain ⟨ts, h1, h2⟩ := batch_shapeDict ss xs hl hs
    exact ⟨.dict ts, by rw [defaultPre, h1], h2⟩
theorem batch_shapeList {B : Nat} : ∀ ss xs, Utils.LeavesList B xs → Utils.ShapesList ss xs → ∃ ts, defaultPreList ss xs = .ok ts ∧ HasShapeList B (sizesList ss) ts
  | [], [], _, _ => ⟨[], rfl, trivial⟩
  | s :: ss, x :: xs, hl, hs => by
    obtain ⟨t, h1, h2⟩ := batch_shape s x hl.1 hs.1
    obtain ⟨ts, h3, h4⟩ := batch_shapeList ss xs hl.2 hs.2
    exact ⟨t :: ts, by rw [defaultPreList, h1]; simp only [h3], h2, h4⟩
theorem batch_shapeDict {B : Nat} : ∀ ss xs, Utils.LeavesDict B xs → Utils.ShapesDict ss xs → ∃ ts, defaultPreDict ss xs = .ok ts ∧ HasShapeDict B (sizesDict ss) ts
  | [], _, _, _ => ⟨[], rfl, trivial⟩
  | (k, s) :: ss, xs, hl, hs => by
    obtain ⟨x, hx, hsx⟩ := hs.1
    obtain ⟨t, h1, h2⟩ := batch_shape s x (Utils.leaves_lookup hl hx) hsx
    obtain ⟨ts, h3, h4⟩ := batch_shapeDict ss xs hl hs.2
    exact ⟨(k, t) :: ts, by rw [defaultPreDict, hx]; simp only [h1, h3], rfl, h2, h4⟩
end

mutual
/-- The features of a member have one row. -/
theorem member_shape : ∀ s x, Proper s → Mem s x → ∃ t, defaultPre s x = .ok t ∧ HasShape 1 (sizes s) t
  | .discrete n _, .int x, _, _ => ⟨.leaf [Utils.oneHotRow n x], rfl, rfl, by simpa using oneHotRow_length n x⟩
  | .box bounds, .floats l, hp, hx => by
    have hl : List.Forall₂ Utils.Inside bounds l := hx
    refine ⟨.leaf [List.zipWith Utils.clipEntry bounds l], by rw [defaultPre, Utils.preBox, Utils.reshapeTo_single (List.length_pos_of_ne_nil hp.1) _ hl.length_eq.symm]; rfl, rfl, ?_⟩
    simp [hl.length_eq]
  | .multiDiscrete nvec, .ints l, _, hx => by
    have hl : List.Forall₂ (fun (n : Nat) (x : Int) => 0 ≤ x ∧ x < n) nvec l := hx
    exact ⟨.list _, by rw [defaultPre, Utils.preMulti_ok (m := nvec.length) [l] (by simpa using hl.length_eq.symm) nvec 0 (by omega)],
      leaves_shape nvec (fun j n (r : List Int) => Utils.oneHotRow n (r.getD (0 + j) 0)) [l] rfl fun j n b => oneHotRow_length _ _⟩
  | .multiBinary n, .ints l, hp, hx => by
    have hp' : 0 < n := hp
    exact ⟨.leaf [l.map fun x : Int => (x : ℝ)], by rw [defaultPre, Utils.reshapeTo_single hp' _ (by simpa using hx.1)], rfl, by simpa using hx.1⟩
  | .tuple ss, .tuple xs, hp, hx => by
    obtain ⟨ts, h1, h2⟩ := member_shapeList ss xs hp hx
    exact ⟨.list ts, by rw [defaultPre, h1], h2⟩
  | .dict ss, .dict xs, hp, hx => by
    obtain ⟨ts, h1, h2⟩ := member_shapeDict ss xs hp hx
    exact ⟨.dict ts, by rw [defaultPre, h1], h2⟩
theorem member_shapeList : ∀ ss xs, ProperList ss → MemList ss xs → ∃ ts, defaultPreList ss xs = .ok ts ∧ HasShapeList 1 (sizesList ss) ts
  | [], _, _, _ => ⟨[], rfl, trivial⟩
  | s :: ss, x :: xs, hp, hx => by
    obtain ⟨t, h1, h2⟩ := member_shape s x hp.1 hx.1
    obtain ⟨ts, h3, h4⟩ := member_shapeList ss xs hp.2 hx.2
    exact ⟨t :: ts, by rw [defaultPreList, h1]; simp only [h3], h2, h4⟩
theorem member_shapeDict : ∀ ss xs, ProperDict ss → MemDict ss xs → ∃ ts, defaultPreDict ss xs = .ok ts ∧ HasShapeDict 1 (sizesDict ss) ts
  | [], _, _, _ => ⟨[], rfl, trivial⟩
  | (k, s) :: ss, xs, hp, hx => by
    obtain ⟨x, hlx, hmx⟩ := hx.1
    obtain ⟨t, h1, h2⟩ := member_shape s x hp.2.1 hmx
    obtain ⟨ts, h3, h4⟩ := member_shapeDict ss xs hp.2.2 hx.2
    exact ⟨(k, t) :: ts, by rw [defaultPreDict, hlx]; simp only [h1, h3], rfl, h2, h4⟩
end

/-! ### What is drawn has the features of a member -/

theorem clipEntry_in {b : Option ℝ × Option ℝ} (h : ∃ y, Utils.Inside b y) (x : ℝ) : Utils.Inside b (Utils.clipEntry b x) := by
  obtain ⟨l, u⟩ := b
  obtain ⟨y, hl, hu⟩ := h
  unfold Utils.clipEntry
  cases l with
  | none => cases u with
    | none => exact ⟨nofun, nofun⟩
    | some u => exact ⟨nofun, fun h e => by cases e; exact min_le_right _ _⟩
  | some l => cases u with
    | none => exact ⟨fun h e => by cases e; exact le_max_right _ _, nofun⟩
    | some u =>
      have := (hl l rfl).trans (hu u rfl)
      exact ⟨fun h e => by cases e; exact le_min (le_max_right _ _) this, fun h e => by cases e; exact min_le_right _ _⟩

theorem clip_members (bounds : List (Option ℝ × Option ℝ)) (hb : ∀ b ∈ bounds, ∃ y, Utils.Inside b y) : ∀ l : List ℝ, l.length = bounds.length →
    List.Forall₂ Utils.Inside bounds (List.zipWith Utils.clipEntry bounds l) ∧ List.zipWith Utils.clipEntry bounds (List.zipWith Utils.clipEntry bounds l) = List.zipWith Utils.clipEntry bounds l := by
  induction bounds with
  | nil => exact fun l _ => ⟨by simp, rfl⟩
  | cons b bs ih =>
    intro l hl
    cases l with
    | nil => simp at hl
    | cons x l =>
      obtain ⟨h1, h2⟩ := ih (fun c hc => hb c (by simp [hc])) l (by simpa using hl)
      have hx := clipEntry_in (hb b (by simp)) x
      exact ⟨.cons hx h1, by rw [List.zipWith_cons_cons, List.zipWith_cons_cons, h2, Utils.clipEntry_inside hx]⟩

theorem memDict_lookup {k : String} (y : Inp) : ∀ (ss : List (String × Space)) (ys : List (String × Inp)), k ∉ ss.map Prod.fst → defaultPreDict ss ((k, y) :: ys) = defaultPreDict ss ys
  | [], _, _ => rfl
  | (k', s) :: ss, ys, hk => by
    have hne : (k' == k) = false := beq_eq_false_iff_ne.2 fun e => hk (by simp [e])
    rw [defaultPreDict, defaultPreDict, List.lookup_cons, hne, memDict_lookup y ss ys fun hc => hk (by simp at hc ⊢; exact Or.inr hc)]

mutual
theorem sample_member (rnd : Rnd) : ∀ path s, Proper s → ∃ x y, safeSample rnd path s = .ok x ∧ Mem s y ∧ defaultPre s x = defaultPre s y
  | path, .discrete n start, h => by
    have h' : 0 < n ∧ start = 0 := h
    have := Nat.mod_lt (rnd.nat path) h'.1
    exact ⟨.int (rnd.nat path % n : Nat), .int (rnd.nat path % n : Nat), by rw [safeSample, if_neg (by omega)], ⟨by omega, by omega⟩, rfl⟩
  | path, .multiDiscrete nvec, h => by
    have h' : 0 ∉ nvec := h
    refine ⟨.ints (nvec.mapIdx fun i n => ((rnd.nat (i :: path) % n : Nat) : Int)), .ints (nvec.mapIdx fun i n => ((rnd.nat (i :: path) % n : Nat) : Int)), by rw [safeSample, if_neg h'], Utils.forall₂_mapIdx _ _ fun i n hn => ⟨by omega, ?_⟩, rfl⟩
    have : 0 < n := Nat.pos_of_ne_zero fun e => h' (e ▸ hn)
    have := Nat.mod_lt (rnd.nat (i :: path)) this
    omega
  | path, .multiBinary n, _ => by
    refine ⟨.ints ((List.range n).map fun i => ((rnd.nat (i :: path) % 2 : Nat) : Int)), .ints ((List.range n).map fun i => ((rnd.nat (i :: path) % 2 : Nat) : Int)), by rw [safeSample], ⟨by simp, fun x hx => ?_⟩, rfl⟩
    obtain ⟨i, _, rfl⟩ := List.mem_map.1 hx
    omega
  | path, .box bounds, h => by
    have hl : (bounds.mapIdx fun i b => Utils.safeEntry b (rnd.unit (i :: path))).length = bounds.length := by simp
    obtain ⟨h1, h2⟩ := clip_members bounds h.2 _ hl
    have hd := List.length_pos_of_ne_nil h.1
    refine ⟨_, .floats (List.zipWith Utils.clipEntry bounds (bounds.mapIdx fun i b => Utils.safeEntry b (rnd.unit (i :: path)))), by rw [safeSample], h1, ?_⟩
    rw [defaultPre, defaultPre, Utils.preBox, Utils.preBox, Utils.reshapeTo_single hd _ hl, Utils.reshapeTo_single hd _ h1.length_eq.symm]
    simp only [List.map_cons, List.map_nil, h2]
  | path, .tuple ss, h => by
    obtain ⟨xs, ys, h1, h2, h3⟩ := sample_memberList rnd path 0 ss h
    exact ⟨.tuple xs, .tuple ys, by rw [safeSample, h1], h2, by rw [defaultPre, defaultPre, h3]⟩
  | path, .dict ss, h => by
    obtain ⟨xs, ys, h1, h2, h3⟩ := sample_memberDict rnd path 0 ss h
    exact ⟨.dict xs, .dict ys, by rw [safeSample, h1], h2, by rw [defaultPre, defaultPre, h3]⟩
theorem sample_memberList (rnd : Rnd) : ∀ path i ss, ProperList ss → ∃ xs ys, safeSampleList rnd path i ss = .ok xs ∧ MemList ss ys ∧ defaultPreList ss xs = defaultPreList ss ys
  | _, _, [], _ => ⟨[], [], rfl, trivial, rfl⟩
  | path, i, s :: ss, h => by
    obtain ⟨x, y, h1, h2, h3⟩ := sample_member rnd (i :: path) s h.1
    obtain ⟨xs, ys, k1, k2, k3⟩ := sample_memberList rnd path (i + 1) ss h.2
    exact ⟨x :: xs, y :: ys, by rw [safeSampleList, h1]; simp only [k1], ⟨h2, k2⟩, by rw [defaultPreList, defaultPreList, h3, k3]⟩
theorem sample_memberDict (rnd : Rnd) : ∀ path i ss, ProperDict ss → ∃ xs ys, safeSampleDict rnd path i ss = .ok xs ∧ MemDict ss ys ∧ defaultPreDict ss xs = defaultPreDict ss ys
  | _, _, [], _ => ⟨[], [], rfl, trivial, rfl⟩
  | path, i, (k, s) :: ss, h => by
    obtain ⟨x, y, h1, h2, h3⟩ := sample_member rnd (i :: path) s h.2.1
    obtain ⟨xs, ys, k1, k2, k3⟩ := sample_memberDict rnd path (i + 1) ss h.2.2
    refine ⟨(k, x) :: xs, (k, y) :: ys, by rw [safeSampleDict, h1]; simp only [k1], ⟨⟨y, by simp, h2⟩, Utils.memDict_cons k y ss ys h.1 k2⟩, ?_⟩
    rw [defaultPreDict, defaultPreDict, memDict_lookup x ss xs h.1, memDict_lookup y ss ys h.1, k3]
    simp [h3]
end

/-! ### The property -/

/-- C148: for any preprocessor that returns one row for one element, with the same number of columns for all elements, the example inputs have as many rows as asked for, and row `j` is what the
preprocessor returns for the `j`-th sample of the space. -/
theorem C148_inputs {w : Dists.Tree Nat} (rnds : Nat → Rnd) (s : Space) (pre : Pre) (h : ∀ j, ∃ x, safeSample (rnds j) [] s = .ok x ∧ ∃ t, pre j x = .ok t ∧ HasShape 1 w t)
    (i B : Nat) (hB : 0 < B) : ∃ S, exampleInputs rnds s pre i B = .ok S ∧ HasShape B w S ∧
      ∀ j < B, ∃ x t, safeSample (rnds (i + j)) [] s = .ok x ∧ pre (i + j) x = .ok t ∧ rowTree j S = some t := by
  obtain ⟨xs, ts, h1, h2, h3, h4, h5⟩ := drawPre rnds s pre h B i
  obtain ⟨S, k1, k2, k3⟩ := catAll_shape ts (List.ne_nil_of_length_pos (by omega)) h4
  refine ⟨S, by rw [exampleInputs, h1]; simp only [h2]; exact k1, h3 ▸ k2, fun j hj => ?_⟩
  obtain ⟨x, a1, a2⟩ := h5 j (by omega)
  exact ⟨x, _, a1, a2, k3 j (by omega)⟩

theorem inputs_default (rnds : Nat → Rnd) (s : Space) (hs : Proper s) (i B : Nat) (hB : 0 < B) : ∃ S, exampleInputs rnds s (fun _ => defaultPre s) i B = .ok S ∧ HasShape B (sizes s) S ∧
    ∀ j < B, ∃ y t, Mem s y ∧ defaultPre s y = .ok t ∧ rowTree j S = some t := by
  have h : ∀ j, ∃ x, safeSample (rnds j) [] s = .ok x ∧ ∃ t, (fun _ => defaultPre s : Pre) j x = .ok t ∧ HasShape 1 (sizes s) t := fun j => by
    obtain ⟨x, y, h1, h2, h3⟩ := sample_member (rnds j) [] s hs
    obtain ⟨t, h4, h5⟩ := member_shape s y hs h2
    exact ⟨x, h1, t, h3.trans h4, h5⟩
  obtain ⟨S, k1, k2, k3⟩ := C148_inputs rnds s _ h i B hB
  refine ⟨S, k1, k2, fun j hj => ?_⟩
  obtain ⟨x, t, a1, a2, a3⟩ := k3 j hj
  obtain ⟨x', y, h1, h2, h3⟩ := sample_member (rnds (i + j)) [] s hs
  obtain rfl : x = x' := by simpa using a1.symm.trans h1
  exact ⟨y, t, h2, h3.symm.trans a2, a3⟩

/-- C148: q-functions with the default preprocessors.  The example inputs are the features of `B` observations and `B` actions, all of them members of their spaces; the outputs have `B` rows, and the data
of type 2, with one column for each action, exist exactly for discrete actions. -/
theorem C148_q (rnds : Nat → Rnd) (obs act : Space) (ho : Proper obs) (ha : Proper act) (B : Nat) (hB : 0 < B) : ∃ d, exampleQ rnds obs act none none B = .ok d ∧
    HasShape B (sizes obs) d.S ∧ HasShape B (sizes act) d.A ∧
    (∀ j < B, ∃ x t, Mem obs x ∧ defaultPre obs x = .ok t ∧ rowTree j d.S = some t) ∧
    (∀ j < B, ∃ x t, Mem act x ∧ defaultPre act x = .ok t ∧ rowTree j d.A = some t) ∧
    d.type1 = .leaf [B] ∧ (∀ n start, act = .discrete n start → d.type2 = some (.leaf [B, n])) ∧ ((∀ n start, act ≠ .discrete n start) → d.type2 = none) := by
  obtain ⟨S, h1, h2, h3⟩ := inputs_default rnds obs ho 0 B hB
  obtain ⟨A, k1, k2, k3⟩ := inputs_default rnds act ha B B hB
  refine ⟨⟨S, A, FKind.q1.example B, (discreteSize act).map fun n => (FKind.q2 n).example B⟩, by rw [exampleQ, orDefaultPre, orDefaultPre, Option.getD_none, Option.getD_none, h1]; simp only [k1], h2, k2, h3, k3, rfl, ?_, fun h => ?_⟩
  · rintro n start rfl; rfl
  · cases act with
    | discrete n start => exact absurd rfl (h n start)
    | _ => rfl

/-- C148: the other function approximators (v-functions, policies, stochastic functions of states, and of states and actions) get the same inputs, and outputs with `B` rows in the shapes of the parameters of
their distribution. -/
theorem C148_others (rnds : Nat → Rnd) (obs act : Space) (ho : Proper obs) (ha : Proper act) (d : DistK) (B : Nat) (hB : 0 < B) : ∃ q, exampleQ rnds obs act none none B = .ok q ∧
    exampleV rnds obs none B = .ok ⟨q.S, .leaf [B]⟩ ∧
    exampleStochS rnds obs none d B = .ok ⟨q.S, d.priors.map fun sh => B :: sh.tail⟩ ∧
    exampleStochSA rnds obs act none none d B = .ok ⟨q.S, q.A, d.priors.map fun sh => B :: sh.tail, match act with
      | .discrete n _ => some (d.priors.map fun sh => B :: n :: sh.tail)
      | _ => none⟩ := by
  obtain ⟨S, h1, -, -⟩ := inputs_default rnds obs ho 0 B hB
  obtain ⟨A, k1, -, -⟩ := inputs_default rnds act ha B B hB
  refine ⟨⟨S, A, FKind.q1.example B, (discreteSize act).map fun n => (FKind.q2 n).example B⟩, by rw [exampleQ, orDefaultPre, orDefaultPre, Option.getD_none, Option.getD_none, h1]; simp only [k1], ?_, ?_, ?_⟩
  · rw [exampleV, orDefaultPre, Option.getD_none, h1]; rfl
  · rw [exampleStochS, orDefaultPre, Option.getD_none, h1]; rfl
  · rw [exampleStochSA, orDefaultPre, orDefaultPre, Option.getD_none, Option.getD_none, h1]
    simp only [k1]
    cases act <;> rfl

/-- C148: a batch of `B` observations, as `TransitionBatch` holds them, is preprocessed to arrays with `B` rows and the same numbers of columns as in the example with any number of rows. -/
theorem C148_training {B : Nat} (s : Space) (X : Inp) (hl : Utils.Leaves B X) (hs : Utils.Shapes s X) : ∃ t, defaultPre s X = .ok t ∧ HasShape B (sizes s) t := batch_shape s X hl hs

/-- C148: one observation is preprocessed to arrays with one row, like the example that constructors use. -/
theorem C148_calls (s : Space) (x : Inp) (hs : Proper s) (hx : Mem s x) : ∃ t, defaultPre s x = .ok t ∧ HasShape 1 (sizes s) t := member_shape s x hs hx

/-- The given preprocessor of a space returns one row, with columns `w`, for each sample of the space. -/
def OneRow (rnds : Nat → Rnd) (s : Space) (pre : Pre) (w : Dists.Tree Nat) : Prop := ∀ j, ∃ x, safeSample (rnds j) [] s = .ok x ∧ ∃ t, pre j x = .ok t ∧ HasShape 1 w t

/-- C148, preprocessors that are given: the states of the example data of all functions are what the preprocessor of observations returns for samples of the observation space, and the actions are what the preprocessor of actions returns for samples of
the action space, with one row for each sample. -/
theorem C148_given {ws wa : Dists.Tree Nat} (rnds : Nat → Rnd) (obs act : Space) (preS preA : Pre) (hS : OneRow rnds obs preS ws) (hA : OneRow rnds act preA wa) (d : DistK) (B : Nat) (hB : 0 < B) :
    ∃ q z, exampleQ rnds obs act (some preS) (some preA) B = .ok q ∧ exampleStochSA rnds obs act (some preS) (some preA) d B = .ok z ∧ z.S = q.S ∧ z.A = q.A ∧ HasShape B ws q.S ∧ HasShape B wa q.A ∧
      (∀ j < B, ∃ x t, safeSample (rnds j) [] obs = .ok x ∧ preS j x = .ok t ∧ rowTree j q.S = some t) ∧ (∀ j < B, ∃ x t, safeSample (rnds (B + j)) [] act = .ok x ∧ preA (B + j) x = .ok t ∧ rowTree j q.A = some t) ∧
      (∃ v, exampleV rnds obs (some preS) B = .ok v ∧ v.S = q.S) ∧ ∃ p, exampleStochS rnds obs (some preS) d B = .ok p ∧ p.S = q.S := by
  obtain ⟨S, h1, h2, h3⟩ := C148_inputs rnds obs preS hS 0 B hB
  obtain ⟨A, k1, k2, k3⟩ := C148_inputs rnds act preA hA B B hB
  simp only [Nat.zero_add] at h3
  refine ⟨⟨S, A, FKind.q1.example B, (discreteSize act).map fun n => (FKind.q2 n).example B⟩, ⟨S, A, (FKind.stochSA1 d).example B, (discreteSize act).map fun n => (FKind.stochSA2 d n).example B⟩, ?_, ?_, rfl, rfl, h2, k2, h3, k3,
    ⟨⟨S, FKind.v.example B⟩, ?_, rfl⟩, ⟨S, (FKind.stochS d).example B⟩, ?_, rfl⟩
  · rw [exampleQ, orDefaultPre, orDefaultPre, Option.getD_some, Option.getD_some, h1]; simp only [k1]
  · rw [exampleStochSA, orDefaultPre, orDefaultPre, Option.getD_some, Option.getD_some, h1]; simp only [k1]
  · rw [exampleV, orDefaultPre, Option.getD_some, h1]
  · rw [exampleStochS, orDefaultPre, Option.getD_some, h1]

/-- C148: there is no example with no rows, whatever the space, the preprocessor and the random numbers. -/
theorem C148_no_rows (rnds : Nat → Rnd) (obs act : Space) (preS preA : Option Pre) (d : DistK) : exampleV rnds obs preS 0 = .error .typeError ∧ exampleQ rnds obs act preS preA 0 = .error .typeError ∧
    exampleStochS rnds obs preS d 0 = .error .typeError ∧ exampleStochSA rnds obs act preS preA d 0 = .error .typeError := ⟨rfl, rfl, rfl, rfl⟩

/-- C148, what fails: the start of Discrete spaces is ignored.  With a start of `n` or more, no row of the example is the features of a member (which are all zero). -/
theorem C148_start_counterexample (rnds : Nat → Rnd) (n : Nat) (start : Int) (hn : 0 < n) (hs : (n : Int) ≤ start) : ∃ S, exampleV rnds (.discrete n start) none 1 = .ok ⟨S, .leaf [1]⟩ ∧
    ∀ x, Mem (.discrete n start) x → defaultPre (.discrete n start) x ≠ .ok S := by
  refine ⟨.leaf [Utils.oneHotRow n ((rnds 0).nat [] % n : Nat)], ?_, fun x hx => ?_⟩
  · rw [exampleV, exampleInputs, drawInputs, safeSample, if_neg (by omega)]
    rfl
  · cases x with
    | int x =>
      have hx' : start ≤ x ∧ x < start + n := hx
      intro h
      have h' : Utils.oneHotRow n x = Utils.oneHotRow n ((rnds 0).nat [] % n : Nat) := by
        rw [defaultPre] at h
        simpa using h
      have hm := Nat.mod_lt ((rnds 0).nat []) hn
      have h2 := congrArg (fun l => l[(rnds 0).nat [] % n]?) h'
      simp only [Utils.oneHotRow, List.getElem?_map, List.getElem?_range hm, Option.map_some, if_true] at h2
      rw [if_neg (by omega)] at h2
      simp at h2
    | _ => exact absurd hx id

/-- C148, what constructors do not see: they make an example with one row, which a preprocessor with varying numbers of columns passes, while two rows raise. -/
theorem C148_ragged_counterexample : ∃ (s : Space) (pre : Pre), Proper s ∧ (∀ rnds, ∃ d, exampleV rnds s (some pre) 1 = .ok d) ∧ ∃ rnds, exampleV rnds s (some pre) 2 = .error .typeError := by
  refine ⟨.discrete 2 0, fun _ x => match x with
    | .int k => .ok (.leaf [List.replicate k.toNat 0])
    | _ => .error .typeError, ⟨by omega, rfl⟩, fun rnds => ⟨_, by
      rw [exampleV, exampleInputs, drawInputs, safeSample, if_neg (by omega)]
      rfl⟩, fun i => ⟨fun _ => i, fun _ => 0⟩, ?_⟩
  rw [exampleV, exampleInputs, drawInputs, safeSample, if_neg (by omega), drawInputs, safeSample, if_neg (by omega)]
  simp [drawInputs, orDefaultPre, preAll, catAll, catFrom, cat2]

/-- A space that meets the hypotheses: a dict with a Box from 5 to 10 (whose samples are not members), and a tuple of a Discrete and a MultiBinary space. -/
example : Proper (.dict [("a", .box [(some 5, some 10)]), ("b", .tuple [.discrete 3 0, .multiBinary 2])]) :=
  ⟨by simp, ⟨by simp, fun b hb => ⟨5, by
    simp at hb; subst hb
    exact ⟨fun l h => by cases h; norm_num, fun u h => by cases h; norm_num⟩⟩⟩, by simp, ⟨⟨by omega, rfl⟩, show 0 < 2 by omega, trivial⟩, trivial⟩

/-- Preprocessors that are given: one row with two columns, for any random numbers. -/
example (rnds : Nat → Rnd) : OneRow rnds (.discrete 2 0) (fun _ x => match x with
    | .int k => .ok (.leaf [[k, 1]])
    | _ => .error .typeError) (.leaf 2) := fun j => by
  obtain ⟨y, h⟩ : ∃ k, safeSample (rnds j) [] (.discrete 2 0) = .ok (.int k) := ⟨_, by rw [safeSample, if_neg (by omega)]⟩
  exact ⟨_, h, _, rfl, rfl, by simp⟩

end Coax.Core
