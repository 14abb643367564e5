import Verif.Utils.Checks
import Verif.Core.KeysProps
import Mathlib.Tactic.NormNum
import Mathlib.Tactic.Ring

/-! Property C112: `check_preprocessors` tells whether preprocessors are the same, `check_array` accepts exactly what it is asked for. -/

namespace Coax.Utils

open Coax.Core (Key)

/-! ### Specification -/

/-- Equal, or numbers that differ by at most `1e-7` times the second. -/
def CloseTo (a b : Entry) : Prop := a = b ∨ ∃ x y, a = .num x ∧ b = .num y ∧ |x - y| ≤ |y| / 10000000

/-- Leaves of the same type with close entries; scalars are compared with every entry. -/
def LeafMatch (a b : LeafArr) : Prop :=
  a.type = b.type ∧
    ((a.shape = b.shape ∧ ∀ (i : Nat) x y, a.entries[i]? = some x → b.entries[i]? = some y → CloseTo x y) ∨
     (a.shape ≠ b.shape ∧ (a.shape = [] ∨ b.shape = []) ∧ ∀ x ∈ a.entries, ∀ y ∈ b.entries, CloseTo x y))

/-- Trees of the same structure with matching leaves. -/
def Matches {τ : Type _} (y y0 : TreeOut τ) : Prop :=
  y.structure_ = y0.structure_ ∧ ∀ (i : Nat) a b, y.leaves[i]? = some a → y0.leaves[i]? = some b → LeafMatch a b

/-- The `c`-th key of the sequence made from the seed. -/
def keyNo (seed c : Nat) : Key := (Key.after seed c).snd

/-! ### Lemmas -/

theorem close_iff (a b : Entry) : a.close b = true ↔ CloseTo a b := by
  unfold CloseTo
  cases a with
  | num x =>
    cases b with
    | num y =>
      simp only [Entry.close, decide_eq_true_eq]
      constructor
      · intro h; exact .inr ⟨x, y, rfl, rfl, by rw [div_eq_mul_one_div, mul_comm]; exact h⟩
      · rintro (h | ⟨x', y', hx, hy, h⟩)
        · cases h; rw [sub_self, abs_zero]; positivity
        · cases hx; cases hy; rw [div_eq_mul_one_div, mul_comm] at h; exact h
    | _ => simp [Entry.close]
  | _ => cases b <;> simp [Entry.close]

theorem zip_all_iff {α β : Type _} (p : α × β → Bool) (l : List α) (l' : List β) :
    (l.zip l').all p = true ↔ ∀ (i : Nat) a b, l[i]? = some a → l'[i]? = some b → p (a, b) = true := by
  induction l generalizing l' with
  | nil => simp
  | cons x l ih =>
    cases l' with
    | nil => simp
    | cons y l' =>
      rw [List.zip_cons_cons, List.all_cons, Bool.and_eq_true, ih]
      constructor
      · rintro ⟨h0, h⟩ i a b ha hb
        cases i with
        | zero => simp at ha hb; subst ha hb; exact h0
        | succ i => exact h i a b (by simpa using ha) (by simpa using hb)
      · intro h
        exact ⟨h 0 x y rfl rfl, fun i a b ha hb => h (i + 1) a b (by simpa using ha) (by simpa using hb)⟩

theorem testLeaves_iff (a b : LeafArr) : testLeaves a b = true ↔ LeafMatch a b := by
  unfold testLeaves LeafMatch allclose
  rw [Bool.and_eq_true, decide_eq_true_eq]
  refine and_congr_right fun _ => ?_
  by_cases hs : a.shape = b.shape
  · rw [if_pos hs, zip_all_iff]
    simp [hs, close_iff]
  · rw [if_neg hs]
    by_cases ha : a.shape = []
    · rw [if_pos ha]
      simp only [close_iff, List.all_eq_true]
      exact ⟨fun h => .inr ⟨hs, .inl ha, h⟩, fun h => h.elim (fun h => absurd h.1 hs) (·.2.2)⟩
    · rw [if_neg ha]
      by_cases hb : b.shape = []
      · rw [if_pos hb]
        simp only [close_iff, List.all_eq_true]
        exact ⟨fun h => .inr ⟨hs, .inr hb, h⟩, fun h => h.elim (fun h => absurd h.1 hs) (·.2.2)⟩
      · rw [if_neg hb]
        simp [hs, ha, hb]

variable {X τ : Type _} [DecidableEq τ]

theorem sameOut_iff (y y0 : TreeOut τ) : sameOut y y0 = true ↔ Matches y y0 := by
  unfold sameOut Matches
  rw [Bool.and_eq_true, decide_eq_true_eq, zip_all_iff]
  simp [testLeaves_iff]

omit [DecidableEq τ] in
theorem matches_refl (y : TreeOut τ) : Matches y y := by
  refine ⟨rfl, fun i a b ha hb => ?_⟩
  rw [ha] at hb; cases hb
  refine ⟨rfl, .inl ⟨rfl, fun j x y hx hy => ?_⟩⟩
  rw [hx] at hy; cases hy
  exact .inl rfl

theorem compareAll_iff (x : X) (y0 : TreeOut τ) (seed : Nat) (ps : List (Prep X τ)) : ∀ c,
    ((compareAll x y0 (Key.after seed c) ps).1 = true ↔ ∀ (j : Nat) p, ps[j]? = some p → Matches (p (keyNo seed (c + j)) x) y0) ∧
    ((compareAll x y0 (Key.after seed c) ps).1 = true → (compareAll x y0 (Key.after seed c) ps).2 = Key.after seed (c + ps.length)) := by
  induction ps with
  | nil => intro c; simp [compareAll]
  | cons p ps ih =>
    intro c
    have hstep : (Key.after seed c).split = (Key.after seed (c + 1), keyNo seed c) := rfl
    simp only [compareAll, hstep]
    by_cases h : sameOut (p (keyNo seed c) x) y0 = true
    · rw [if_pos h]
      obtain ⟨h1, h2⟩ := ih (c + 1)
      refine ⟨h1.trans ⟨fun hh j q hq => ?_, fun hh j q hq => ?_⟩, fun hh => ?_⟩
      · cases j with
        | zero => simp at hq; subst hq; exact (sameOut_iff _ _).1 h
        | succ j => rw [show c + (j + 1) = c + 1 + j by omega]; exact hh j q (by simpa using hq)
      · rw [show c + 1 + j = c + (j + 1) by omega]; exact hh (j + 1) q (by simpa using hq)
      · rw [h2 hh, List.length_cons]; congr 1; omega
    · rw [if_neg h]
      refine ⟨⟨fun hh => (by cases hh), fun hh => ?_⟩, fun hh => (by cases hh)⟩
      exact absurd ((sameOut_iff _ _).2 (hh 0 p rfl)) h

theorem compareSamples_iff (p0 : Prep X τ) (ps : List (Prep X τ)) (seed : Nat) (xs : List X) : ∀ c,
    compareSamples p0 ps (Key.after seed c) xs = true ↔ ∀ (i : Nat) x, xs[i]? = some x → ∀ (j : Nat) p, ps[j]? = some p →
      Matches (p (keyNo seed (c + i * (ps.length + 1) + 1 + j)) x) (p0 (keyNo seed (c + i * (ps.length + 1))) x) := by
  induction xs with
  | nil => intro c; simp [compareSamples]
  | cons x xs ih =>
    intro c
    have hstep : (Key.after seed c).split = (Key.after seed (c + 1), keyNo seed c) := rfl
    obtain ⟨h1, h2⟩ := compareAll_iff x (p0 (keyNo seed c) x) seed ps (c + 1)
    simp only [compareSamples, hstep]
    by_cases h : (compareAll x (p0 (keyNo seed c) x) (Key.after seed (c + 1)) ps).1 = true
    · rw [if_pos h, h2 h, ih]
      constructor
      · intro hh i y hy
        cases i with
        | zero => simp at hy; subst hy; simpa using h1.1 h
        | succ i =>
          intro j p hp
          have := hh i y (by simpa using hy) j p hp
          rwa [show c + 1 + ps.length + i * (ps.length + 1) = c + (i + 1) * (ps.length + 1) by rw [Nat.succ_mul]; omega] at this
      · intro hh i y hy j p hp
        have := hh (i + 1) y (by simpa using hy) j p hp
        rwa [show c + (i + 1) * (ps.length + 1) = c + 1 + ps.length + i * (ps.length + 1) by rw [Nat.succ_mul]; omega] at this
    · rw [if_neg h]
      refine ⟨fun hh => (by cases hh), fun hh => absurd (h1.2 ?_) h⟩
      simpa using hh 0 x rfl

/-! ### C112 -/

/-- **C112**: the answer is yes exactly if, at every element that was drawn, every other preprocessor matches the first, each evaluation with a key of its own. -/
theorem C112_result (samples : List X) (seed : Nat) (p0 p1 : Prep X τ) (ps : List (Prep X τ)) :
    ∃ b, checkPreprocessors samples seed (p0 :: p1 :: ps) = .ok b ∧ (b = true ↔ ∀ (i : Nat) x, samples[i]? = some x → ∀ (j : Nat) p, (p1 :: ps)[j]? = some p →
      Matches (p (keyNo seed (i * (ps.length + 2) + 1 + j)) x) (p0 (keyNo seed (i * (ps.length + 2))) x)) := by
  refine ⟨_, rfl, ?_⟩
  have := compareSamples_iff p0 (p1 :: ps) seed samples 0
  simp only [Nat.zero_add, List.length_cons] at this
  exact this

/-- **C112**: fewer than two preprocessors raise ValueError. -/
theorem C112_few (samples : List X) (seed : Nat) (ps : List (Prep X τ)) : checkPreprocessors samples seed ps = .error .valueError ↔ ps.length < 2 := by
  match ps with
  | [] => simp [checkPreprocessors]
  | [p] => simp [checkPreprocessors]
  | p :: q :: r => simp [checkPreprocessors]

/-- **C112** for preprocessors that do not use their keys: equal preprocessors are recognised; the answer no is right, i.e. some element of the space is mapped to something else; the answer yes is right up
to tolerance if every element of the space was drawn.  Missing: random preprocessors and elements that were not drawn, see the counterexamples. -/
theorem C112_deterministic_partial (samples : List X) (seed : Nat) (f0 f1 : X → TreeOut τ) (fs : List (X → TreeOut τ)) :
    let r := checkPreprocessors samples seed ((f0 :: f1 :: fs).map fun f _ x => f x)
    ((∀ f ∈ f1 :: fs, f = f0) → r = .ok true) ∧ (r = .ok false → ∃ x ∈ samples, ∃ f ∈ f1 :: fs, f x ≠ f0 x) ∧
      (r = .ok true → (∀ x, x ∈ samples) → ∀ f ∈ f1 :: fs, ∀ x, Matches (f x) (f0 x)) := by
  intro r
  obtain ⟨b, hb, hiff⟩ := C112_result samples seed (fun _ x => f0 x) (fun _ x => f1 x) (fs.map fun f _ x => f x)
  have hget : ∀ (j : Nat) p, ((fun (_ : Key) x => f1 x) :: fs.map fun f (_ : Key) x => f x)[j]? = some p → ∃ f ∈ f1 :: fs, p = fun _ x => f x := by
    intro j p hp
    cases j with
    | zero => simp at hp; exact ⟨f1, by simp, hp.symm⟩
    | succ j =>
      simp only [List.getElem?_cons_succ, List.getElem?_map, Option.map_eq_some_iff] at hp
      obtain ⟨f, hf, rfl⟩ := hp
      exact ⟨f, List.mem_cons_of_mem _ (List.mem_of_getElem? hf), rfl⟩
  have hr : r = .ok b := hb
  refine ⟨fun hall => ?_, fun hf => ?_, fun ht hcover f hf x => ?_⟩
  · rw [hr, hiff.2 fun i x _ j p hp => ?_]
    obtain ⟨f, hf, rfl⟩ := hget j p hp
    rw [hall f hf]; exact matches_refl _
  · rw [hr] at hf
    by_contra hno
    have : b = true := hiff.2 fun i x hx j p hp => by
      obtain ⟨f, hf, rfl⟩ := hget j p hp
      have : f x = f0 x := by
        by_contra hne
        exact hno ⟨x, List.mem_of_getElem? hx, f, hf, hne⟩
      show Matches (f x) (f0 x)
      rw [this]; exact matches_refl _
    rw [this] at hf
    cases hf
  · rw [hr] at ht
    cases ht
    obtain ⟨i, hi⟩ := List.mem_iff_getElem?.1 (hcover x)
    rcases List.mem_cons.1 hf with rfl | hf
    · exact hiff.1 rfl i x hi 0 _ rfl
    · obtain ⟨j, hj⟩ := List.mem_iff_getElem?.1 hf
      exact hiff.1 rfl i x hi (j + 1) (fun _ x => f x) (by simp [hj])

/-- C112 fails for random preprocessors: whatever is drawn, a preprocessor that returns its key is told apart from itself. -/
theorem C112_random_counterexample (x : X) (samples : List X) (seed : Nat) :
    checkPreprocessors (τ := Key) (x :: samples) seed [fun k _ => ⟨k, []⟩, fun k _ => ⟨k, []⟩] = .ok false := by
  obtain ⟨b, hb, hiff⟩ := C112_result (τ := Key) (x :: samples) seed (fun k _ => ⟨k, []⟩) (fun k _ => ⟨k, []⟩) []
  rw [hb]
  cases b with
  | false => rfl
  | true =>
    have := (hiff.1 rfl 0 x rfl 0 _ rfl).1
    simp [keyNo, Key.after] at this

/-- C112 fails for elements that were not drawn, in particular if nothing is drawn. -/
theorem C112_sample_counterexample [DecidableEq X] (samples : List X) (x : X) (hx : x ∉ samples) (seed : Nat) :
    checkPreprocessors (τ := Bool) samples seed [fun _ _ => ⟨false, []⟩, fun _ y => ⟨decide (y = x), []⟩] = .ok true := by
  obtain ⟨b, hb, hiff⟩ := C112_result (τ := Bool) samples seed (fun _ _ => ⟨false, []⟩) (fun _ y => ⟨decide (y = x), []⟩) []
  rw [hb, hiff.2]
  intro i y hy j p hp
  have hne : y ≠ x := fun h => hx (h ▸ List.mem_of_getElem? hy)
  cases j with
  | zero =>
    simp at hp; subst hp
    exact ⟨by simpa using hne, fun i a b ha => by simp at ha⟩
  | succ j => simp at hp

/-- C112 fails for the order of the arguments: the tolerance is relative to the first preprocessor, so that the answer can depend on which one comes first. -/
theorem C112_order_counterexample : ∃ a b : Prep Unit Unit, ∀ seed, checkPreprocessors [()] seed [a, b] = .ok true ∧ checkPreprocessors [()] seed [b, a] = .ok false := by
  refine ⟨fun _ _ => ⟨(), [⟨"array", [], [.num (1 + 1 / 10000000 + 1 / 100000000000000)]⟩]⟩, fun _ _ => ⟨(), [⟨"array", [], [.num 1]⟩]⟩, fun seed => ⟨?_, ?_⟩⟩
  · simp only [checkPreprocessors, compareSamples, compareAll, sameOut, testLeaves, allclose, Entry.close]
    norm_num [abs_of_nonneg, abs_of_neg]
  · simp only [checkPreprocessors, compareSamples, compareAll, sameOut, testLeaves, allclose, Entry.close]
    norm_num [abs_of_nonneg, abs_of_neg]

/-- C112 fails for shapes: a preprocessor that returns a scalar is taken to be the same as one that returns an array with that entry everywhere. -/
theorem C112_shape_counterexample (x : Rat) (shape : List Nat) (n : Nat) (samples : List X) (seed : Nat) :
    checkPreprocessors (τ := Unit) samples seed [fun _ _ => ⟨(), [⟨"array", [], [.num x]⟩]⟩, fun _ _ => ⟨(), [⟨"array", shape, List.replicate n (.num x)⟩]⟩] = .ok true := by
  obtain ⟨b, hb, hiff⟩ := C112_result (τ := Unit) samples seed (fun _ _ => ⟨(), [⟨"array", [], [.num x]⟩]⟩) (fun _ _ => ⟨(), [⟨"array", shape, List.replicate n (.num x)⟩]⟩) []
  rw [hb, hiff.2]
  intro i y _ j p hp
  cases j with
  | succ j => simp at hp
  | zero =>
    simp at hp; subst hp
    refine ⟨rfl, fun i a b ha hb => ?_⟩
    cases i with
    | succ i => simp at ha
    | zero =>
      simp at ha hb; subst ha hb
      refine ⟨rfl, ?_⟩
      by_cases hs : shape = []
      · refine .inl ⟨hs, fun i u v hu hv => ?_⟩
        have h1 : u = .num x := (List.mem_replicate.1 (List.mem_of_getElem? hu)).2
        have h2 : v = .num x := by simpa using List.mem_of_getElem? hv
        exact .inl (h1.trans h2.symm)
      · refine .inr ⟨hs, .inr rfl, fun u hu v hv => ?_⟩
        have h1 : u = .num x := (List.mem_replicate.1 hu).2
        have h2 : v = .num x := by simpa using hv
        exact .inl (h1.trans h2.symm)

/-! ### check_array -/

/-- What `check_array` is asked for. -/
def Meets (a : ArrInfo) (s : ArrSpec) : Prop :=
  (a.kind = .jax ∨ a.kind = .numpy ∧ s.exceptNp = true) ∧
  (∀ l, s.ndim = some l → a.shape.length ∈ l) ∧ (∀ m, s.ndimMin = some m → m ≤ a.shape.length) ∧ (∀ m, s.ndimMax = some m → a.shape.length ≤ m) ∧
  (∀ l, s.dtype = some l → a.dtype ∈ l) ∧ (∀ t, s.shape = some t → a.shape = t) ∧
  (∀ l i, s.axisSize = some l → s.axis = some i → ∃ n ∈ l, ∃ j : Nat, a.shape[j]? = some n ∧ (i = j ∨ i + a.shape.length = j))

/-- The axis that was asked for does not exist. -/
def NoAxis (a : ArrInfo) (s : ArrSpec) : Prop :=
  ∃ i, s.axisSize ≠ none ∧ s.axis = some i ∧ (i < -(a.shape.length : Int) ∨ (a.shape.length : Int) ≤ i)

theorem axisLen_ok {shape : List Nat} {i : Int} (h : ¬ (i < -(shape.length : Int) ∨ (shape.length : Int) ≤ i)) :
    ∃ n j : Nat, axisLen shape i = .ok n ∧ shape[j]? = some n ∧ (i = j ∨ i + shape.length = j) ∧ ∀ j' : Nat, j' < shape.length → (i = j' ∨ i + shape.length = j') → j' = j := by
  unfold axisLen
  by_cases hi : i < 0
  · obtain ⟨j, hj⟩ : ∃ j : Nat, i + shape.length = j := ⟨(i + shape.length).toNat, by omega⟩
    have hlt : j < shape.length := by omega
    refine ⟨shape[j], j, ?_, List.getElem?_eq_getElem hlt, .inr hj, fun j' _ h' => by omega⟩
    simp only [if_pos hi, hj]
    rw [if_neg (by omega), Int.toNat_natCast, List.getElem?_eq_getElem hlt]; rfl
  · obtain ⟨j, hj⟩ : ∃ j : Nat, i = j := ⟨i.toNat, by omega⟩
    have hlt : j < shape.length := by omega
    refine ⟨shape[j], j, ?_, List.getElem?_eq_getElem hlt, .inl hj, fun j' _ h' => by omega⟩
    rw [hj] at hi ⊢
    simp only [if_neg hi]
    rw [Int.toNat_natCast, List.getElem?_eq_getElem hlt]; rfl

theorem axisLen_error {shape : List Nat} {i : Int} (h : i < -(shape.length : Int) ∨ (shape.length : Int) ≤ i) : axisLen shape i = .error .indexError := by
  unfold axisLen
  by_cases hi : i < 0
  · simp only [if_pos hi]
    by_cases h0 : i + shape.length < 0
    · rw [if_pos h0]
    · omega
  · simp only [if_neg hi]
    rw [List.getElem?_eq_none (by omega)]; rfl

/-- **C112** for `check_array`: accepted exactly if everything asked for holds; otherwise TypeError, except for axes that do not exist. -/
theorem C112_array (a : ArrInfo) (s : ArrSpec) : (checkArray a s = .ok () ↔ Meets a s) ∧
    (¬ Meets a s → ¬ NoAxis a s → checkArray a s = .error .typeError) ∧ (checkArray a s = .error .typeError ∨ checkArray a s = .error .indexError ∨ checkArray a s = .ok ()) ∧
    (checkArray a s = .error .indexError → NoAxis a s) := by
  have hany : ∀ {α : Type} (o : Option α) (f : α → Bool), (o.any f = true) ↔ ∃ x, o = some x ∧ f x = true := by
    intro α o f; cases o <;> simp
  unfold checkArray
  by_cases h1 : (!s.exceptNp && a.kind != .jax) = true
  · rw [if_pos h1]
    have hn : ¬ Meets a s := by
      rintro ⟨h | ⟨h, h'⟩, -⟩ <;> simp_all
    exact ⟨⟨fun h => (by cases h), fun h => absurd h hn⟩, fun _ _ => rfl, .inl rfl, fun h => (by cases h)⟩
  rw [if_neg h1]
  by_cases h2 : a.kind = .other
  · rw [if_pos h2]
    have hn : ¬ Meets a s := by rintro ⟨h | ⟨h, -⟩, -⟩ <;> simp_all
    exact ⟨⟨fun h => (by cases h), fun h => absurd h hn⟩, fun _ _ => rfl, .inl rfl, fun h => (by cases h)⟩
  rw [if_neg h2]
  have hk : a.kind = .jax ∨ a.kind = .numpy ∧ s.exceptNp = true := by
    cases hkind : a.kind <;> simp_all
  by_cases h3 : (s.ndim.any fun l => !l.contains a.shape.length) = true
  · rw [if_pos h3]
    obtain ⟨l, hl, hc⟩ := (hany _ _).1 h3
    have hn : ¬ Meets a s := fun h => by have := h.2.1 l hl; simp_all
    exact ⟨⟨fun h => (by cases h), fun h => absurd h hn⟩, fun _ _ => rfl, .inl rfl, fun h => (by cases h)⟩
  rw [if_neg h3]
  by_cases h4 : (s.ndimMin.any fun m => decide (a.shape.length < m)) = true
  · rw [if_pos h4]
    obtain ⟨m, hm, hc⟩ := (hany _ _).1 h4
    have hn : ¬ Meets a s := fun h => by have := h.2.2.1 m hm; simp at hc; omega
    exact ⟨⟨fun h => (by cases h), fun h => absurd h hn⟩, fun _ _ => rfl, .inl rfl, fun h => (by cases h)⟩
  rw [if_neg h4]
  by_cases h5 : (s.ndimMax.any fun m => decide (a.shape.length > m)) = true
  · rw [if_pos h5]
    obtain ⟨m, hm, hc⟩ := (hany _ _).1 h5
    have hn : ¬ Meets a s := fun h => by have := h.2.2.2.1 m hm; simp at hc; omega
    exact ⟨⟨fun h => (by cases h), fun h => absurd h hn⟩, fun _ _ => rfl, .inl rfl, fun h => (by cases h)⟩
  rw [if_neg h5]
  by_cases h6 : (s.dtype.any fun l => !l.contains a.dtype) = true
  · rw [if_pos h6]
    obtain ⟨l, hl, hc⟩ := (hany _ _).1 h6
    have hn : ¬ Meets a s := fun h => by have := h.2.2.2.2.1 l hl; simp_all
    exact ⟨⟨fun h => (by cases h), fun h => absurd h hn⟩, fun _ _ => rfl, .inl rfl, fun h => (by cases h)⟩
  rw [if_neg h6]
  by_cases h7 : (s.shape.any fun t => a.shape != t) = true
  · rw [if_pos h7]
    obtain ⟨t, ht, hc⟩ := (hany _ _).1 h7
    have hn : ¬ Meets a s := fun h => by have := h.2.2.2.2.2.1 t ht; simp_all
    exact ⟨⟨fun h => (by cases h), fun h => absurd h hn⟩, fun _ _ => rfl, .inl rfl, fun h => (by cases h)⟩
  rw [if_neg h7]
  rw [hany] at h3 h4 h5 h6 h7
  have hrest : Meets a s ↔ ∀ l i, s.axisSize = some l → s.axis = some i → ∃ n ∈ l, ∃ j : Nat, a.shape[j]? = some n ∧ (i = j ∨ i + a.shape.length = j) := by
    refine ⟨fun h => h.2.2.2.2.2.2, fun h => ⟨hk, ?_, ?_, ?_, ?_, ?_, h⟩⟩
    · intro l hl; by_contra hc; exact h3 ⟨l, hl, by simpa using hc⟩
    · intro m hm; by_contra hc; exact h4 ⟨m, hm, by simp; omega⟩
    · intro m hm; by_contra hc; exact h5 ⟨m, hm, by simp; omega⟩
    · intro l hl; by_contra hc; exact h6 ⟨l, hl, by simpa using hc⟩
    · intro t ht; by_contra hc; exact h7 ⟨t, ht, by simpa using hc⟩
  rw [hrest]
  unfold NoAxis
  cases hs : s.axisSize with
  | none => simp
  | some sizes =>
    cases hx : s.axis with
    | none => simp
    | some i =>
      by_cases hr : i < -(a.shape.length : Int) ∨ (a.shape.length : Int) ≤ i
      · simp only [axisLen_error hr]
        refine ⟨⟨fun h => (by cases h), fun h => ?_⟩, fun _ h => absurd ⟨i, by simp, rfl, hr⟩ h, .inr (.inl trivial), fun _ => ⟨i, by simp, rfl, hr⟩⟩
        obtain ⟨n, -, j, hj, hij⟩ := h sizes i rfl rfl
        have := (List.getElem?_eq_some_iff.1 hj).1
        omega
      · obtain ⟨n, j, hlen, hj, hij, huniq⟩ := axisLen_ok hr
        simp only [hlen]
        have hiff : (∀ l i', some sizes = some l → some i = some i' → ∃ n ∈ l, ∃ j : Nat, a.shape[j]? = some n ∧ (i' = j ∨ i' + a.shape.length = j)) ↔ n ∈ sizes := by
          constructor
          · intro h
            obtain ⟨n', hn', j', hj', hij'⟩ := h sizes i rfl rfl
            have := huniq j' (List.getElem?_eq_some_iff.1 hj').1 hij'
            subst this
            rw [hj] at hj'; cases hj'
            exact hn'
          · intro h l i' hl hi'
            cases hl; cases hi'
            exact ⟨n, h, j, hj, hij⟩
        rw [hiff]
        by_cases hc : n ∈ sizes
        · rw [if_pos (by simpa using hc)]
          exact ⟨⟨fun _ => hc, fun _ => rfl⟩, fun h => absurd hc h, .inr (.inr rfl), fun h => (by cases h)⟩
        · rw [if_neg (by simpa using hc)]
          exact ⟨⟨fun h => (by cases h), fun h => absurd h hc⟩, fun _ _ => rfl, .inl rfl, fun h => (by cases h)⟩

/-- C112 fails for `check_array`: an axis that does not exist raises IndexError instead of TypeError. -/
theorem C112_axis_counterexample : ∃ (a : ArrInfo) (s : ArrSpec), checkArray a s = .error .indexError :=
  ⟨⟨.jax, [3], "float32"⟩, { axisSize := some [3], axis := some 1 }, rfl⟩

example : Meets ⟨.jax, [3, 4], "float32"⟩ { ndim := some [2, 3], axisSize := some [4], axis := some (-1) } := by
  refine (C112_array _ _).1.1 rfl

end Coax.Utils
