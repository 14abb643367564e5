import Verif.Utils.GetBatch
import Verif.Utils.PreprocessProps

/-! Property C113: `get_transition_batch` returns a valid batch of the requested size. -/

namespace Coax.Utils

open Coax.Dists (Space)

/-! ### Specification -/

/-- A batch of `B` members of the space: every leaf has `B` rows, and the rows with the same index together are a member. -/
def BatchOf (B : Nat) (s : Space) (X : Inp) : Prop := Leaves B X ∧ ∀ i < B, ∃ x, batchToSingle i X = some x ∧ Mem s x

/-- `B` numbers with a property. -/
def Column {α : Type _} (B : Nat) (p : α → Prop) (l : List α) : Prop := l.length = B ∧ ∀ x ∈ l, p x

/-- A positive integer. -/
def PositiveInt (a : NumArg) (B : Nat) : Prop := 0 < B ∧ a = .int B

/-- A number of the unit interval. -/
def InUnit (a : NumArg) (g : ℝ) : Prop := 0 ≤ g ∧ g ≤ 1 ∧ (a = .float (some g) ∨ ∃ z : Int, a = .int z ∧ g = z)

/-- The random numbers are in the ranges that numpy gives them. -/
def Draws.Ok (d : Draws) : Prop := (∀ k p, 0 ≤ (d.rnd k).unit p ∧ (d.rnd k).unit p ≤ 1) ∧ ∀ k, 0 ≤ d.unif k ∧ d.unif k < 1

/-! ### Stacking -/

mutual
/-- The structure of a sample of the space. -/
def Form : Space → Inp → Prop
  | .discrete _ _, .int _ => True
  | .multiDiscrete nvec, .ints l => l.length = nvec.length
  | .multiBinary n, .ints l => l.length = n
  | .box bounds, .floats l => l.length = bounds.length
  | .tuple ss, .tuple xs => FormList ss xs
  | .dict ss, .dict xs => FormDict ss xs
  | _, _ => False
def FormList : List Space → List Inp → Prop
  | [], [] => True
  | s :: ss, x :: xs => Form s x ∧ FormList ss xs
  | _, _ => False
def FormDict : List (String × Space) → List (String × Inp) → Prop
  | [], [] => True
  | (k, s) :: ss, (k', x) :: xs => k' = k ∧ Form s x ∧ FormDict ss xs
  | _, _ => False
end

mutual
theorem form_sample (rnd : Rnd) : ∀ path s x, safeSample rnd path s = .ok x → Form s x
  | path, .discrete n start, x, h => by
    rw [safeSample] at h
    split at h <;> cases h
    trivial
  | path, .multiDiscrete nvec, x, h => by
    rw [safeSample] at h
    split at h <;> cases h
    simp [Form]
  | path, .multiBinary n, x, h => by
    rw [safeSample] at h
    cases h
    simp [Form]
  | path, .box bounds, x, h => by
    rw [safeSample] at h
    cases h
    simp [Form]
  | path, .tuple ss, x, h => by
    rw [safeSample] at h
    cases hs : safeSampleList rnd path 0 ss with
    | error e => rw [hs] at h; cases h
    | ok xs => rw [hs] at h; cases h; exact form_sampleList rnd path 0 ss xs hs
  | path, .dict ss, x, h => by
    rw [safeSample] at h
    cases hs : safeSampleDict rnd path 0 ss with
    | error e => rw [hs] at h; cases h
    | ok xs => rw [hs] at h; cases h; exact form_sampleDict rnd path 0 ss xs hs
  | path, .other, x, h => by rw [safeSample] at h; cases h
theorem form_sampleList (rnd : Rnd) : ∀ path i ss xs, safeSampleList rnd path i ss = .ok xs → FormList ss xs
  | _, _, [], xs, h => by rw [safeSampleList] at h; cases h; trivial
  | path, i, s :: ss, xs, h => by
    rw [safeSampleList] at h
    cases h1 : safeSample rnd (i :: path) s with
    | error e => rw [h1] at h; cases h
    | ok x =>
      cases h2 : safeSampleList rnd path (i + 1) ss with
      | error e => rw [h1] at h; simp only [h2] at h; cases h
      | ok ys =>
        rw [h1] at h; simp only [h2] at h; cases h
        exact ⟨form_sample rnd _ _ _ h1, form_sampleList rnd _ _ _ _ h2⟩
theorem form_sampleDict (rnd : Rnd) : ∀ path i ss xs, safeSampleDict rnd path i ss = .ok xs → FormDict ss xs
  | _, _, [], xs, h => by rw [safeSampleDict] at h; cases h; trivial
  | path, i, (k, s) :: ss, xs, h => by
    rw [safeSampleDict] at h
    cases h1 : safeSample rnd (i :: path) s with
    | error e => rw [h1] at h; cases h
    | ok x =>
      cases h2 : safeSampleDict rnd path (i + 1) ss with
      | error e => rw [h1] at h; simp only [h2] at h; cases h
      | ok ys =>
        rw [h1] at h; simp only [h2] at h; cases h
        exact ⟨rfl, form_sample rnd _ _ _ h1, form_sampleDict rnd _ _ _ _ h2⟩
end

theorem collect_some {α β : Type _} {f : α → Option β} {l : List α} (h : ∀ x ∈ l, ∃ y, f x = some y) :
    ∃ ys, collect f l = some ys ∧ List.Forall₂ (fun x y => f x = some y) l ys := by
  induction l with
  | nil => exact ⟨[], rfl, .nil⟩
  | cons x l ih =>
    obtain ⟨y, hy⟩ := h x (by simp)
    obtain ⟨ys, hys, hf⟩ := ih fun z hz => h z (by simp [hz])
    exact ⟨y :: ys, by simp only [collect, hy, hys], .cons hy hf⟩

theorem forall₂_get {α β : Type _} {R : α → β → Prop} {l : List α} {l' : List β} (h : List.Forall₂ R l l') (i : Nat) (hi : i < l.length) :
    ∃ x y, l[i]? = some x ∧ l'[i]? = some y ∧ R x y := by
  induction h generalizing i with
  | nil => simp at hi
  | cons hr _ ih =>
    cases i with
    | zero => exact ⟨_, _, rfl, rfl, hr⟩
    | succ i =>
      obtain ⟨x, y, h1, h2, h3⟩ := ih i (by simpa using hi)
      exact ⟨x, y, by simpa using h1, by simpa using h2, h3⟩

theorem forall₂_mem_right {α β : Type _} {R : α → β → Prop} {l : List α} {l' : List β} (h : List.Forall₂ R l l') {y : β} (hy : y ∈ l') : ∃ x ∈ l, R x y := by
  induction h with
  | nil => simp at hy
  | cons hr _ ih =>
    rcases List.mem_cons.1 hy with rfl | hy
    · exact ⟨_, by simp, hr⟩
    · obtain ⟨x, hx, hr'⟩ := ih hy
      exact ⟨x, by simp [hx], hr'⟩

/-- A leaf: the rows of the stacked array are the leaves. -/
theorem stack_leaf {α : Type} (f : Inp → Option α) (mk : α → Inp) (hf : ∀ x y, f x = some y → x = mk y) (a : α) (xs : List Inp) (h : ∀ x ∈ xs, ∃ y, f x = some y) :
    ∃ ys, collect f xs = some ys ∧ ys.length = xs.length ∧ ∀ i < xs.length + 1, ((a :: ys)[i]?).map mk = (mk a :: xs)[i]? := by
  obtain ⟨ys, hys, hall⟩ := collect_some h
  refine ⟨ys, hys, hall.length_eq.symm, fun i hi => ?_⟩
  cases i with
  | zero => rfl
  | succ i =>
    obtain ⟨x, y, h1, h2, h3⟩ := forall₂_get hall i (by omega)
    simp [h1, h2, hf x y h3]

mutual
theorem stackSamples_ok : ∀ s x xs, Form s x → (∀ z ∈ xs, Form s z) →
    ∃ y, stackInp x xs = some y ∧ Leaves (xs.length + 1) y ∧ ∀ i < xs.length + 1, batchToSingle i y = (x :: xs)[i]?
  | .discrete n st, .int a, xs, _, h => by
    obtain ⟨ys, h1, h2, h3⟩ := stack_leaf Inp.asInt .int (fun x y hxy => by cases x <;> simp_all [Inp.asInt]) a xs fun z hz => by
      have := h z hz
      cases z <;> simp_all [Form, Inp.asInt]
    exact ⟨.ints (a :: ys), by rw [stackInp, h1]; rfl, by simp [Leaves, h2], fun i hi => by rw [batchToSingle]; exact h3 i hi⟩
  | .multiDiscrete nvec, .ints l, xs, hl, h => by
    obtain ⟨ys, h1, h2, h3⟩ := stack_leaf (Inp.asInts l.length) .ints (fun x y hxy => by cases x <;> simp_all [Inp.asInts]) l xs fun z hz => by
      have := h z hz
      cases z <;> simp_all [Form, Inp.asInts]
    exact ⟨.ints2 (l :: ys), by rw [stackInp, h1]; rfl, by simp [Leaves, h2], fun i hi => by rw [batchToSingle]; exact h3 i hi⟩
  | .multiBinary n, .ints l, xs, hl, h => by
    obtain ⟨ys, h1, h2, h3⟩ := stack_leaf (Inp.asInts l.length) .ints (fun x y hxy => by cases x <;> simp_all [Inp.asInts]) l xs fun z hz => by
      have := h z hz
      cases z <;> simp_all [Form, Inp.asInts]
    exact ⟨.ints2 (l :: ys), by rw [stackInp, h1]; rfl, by simp [Leaves, h2], fun i hi => by rw [batchToSingle]; exact h3 i hi⟩
  | .box bounds, .floats l, xs, hl, h => by
    obtain ⟨ys, h1, h2, h3⟩ := stack_leaf (Inp.asFloats l.length) .floats (fun x y hxy => by cases x <;> simp_all [Inp.asFloats]) l xs fun z hz => by
      have := h z hz
      cases z <;> simp_all [Form, Inp.asFloats]
    exact ⟨.floats2 (l :: ys), by rw [stackInp, h1]; rfl, by simp [Leaves, h2], fun i hi => by rw [batchToSingle]; exact h3 i hi⟩
  | .tuple ss, .tuple l, xs, hl, h => by
    have hx : ∀ z ∈ xs, ∃ w, Inp.asTuple z = some w := fun z hz => by
      have := h z hz
      cases z <;> simp_all [Form, Inp.asTuple]
    obtain ⟨ls, h1, h2⟩ := collect_some hx
    have hls : ∀ w ∈ ls, FormList ss w := fun w hw => by
      obtain ⟨z, hz, hzw⟩ := forall₂_mem_right h2 hw
      have := h z hz
      cases z <;> simp_all [Form, Inp.asTuple]
    obtain ⟨ys, h3, h4, h5⟩ := stack_okList ss l ls hl hls
    refine ⟨.tuple ys, by rw [stackInp, h1]; simp [h3], by rw [h2.length_eq]; exact h4, fun i hi => ?_⟩
    rw [h2.length_eq] at hi
    rw [batchToSingle, h5 i hi]
    cases i with
    | zero => rfl
    | succ i =>
      obtain ⟨z, w, k1, k2, k3⟩ := forall₂_get h2 i (by rw [h2.length_eq]; omega)
      cases z <;> simp_all [Inp.asTuple]
  | .dict ss, .dict l, xs, hl, h => by
    have hx : ∀ z ∈ xs, ∃ w, Inp.asDict z = some w := fun z hz => by
      have := h z hz
      cases z <;> simp_all [Form, Inp.asDict]
    obtain ⟨ls, h1, h2⟩ := collect_some hx
    have hls : ∀ w ∈ ls, FormDict ss w := fun w hw => by
      obtain ⟨z, hz, hzw⟩ := forall₂_mem_right h2 hw
      have := h z hz
      cases z <;> simp_all [Form, Inp.asDict]
    obtain ⟨ys, h3, h4, h5⟩ := stack_okDict ss l ls hl hls
    refine ⟨.dict ys, by rw [stackInp, h1]; simp [h3], by rw [h2.length_eq]; exact h4, fun i hi => ?_⟩
    rw [h2.length_eq] at hi
    rw [batchToSingle, h5 i hi]
    cases i with
    | zero => rfl
    | succ i =>
      obtain ⟨z, w, k1, k2, k3⟩ := forall₂_get h2 i (by rw [h2.length_eq]; omega)
      cases z <;> simp_all [Inp.asDict]
theorem stack_okList : ∀ ss l ls, FormList ss l → (∀ w ∈ ls, FormList ss w) →
    ∃ ys, stackInpList l ls = some ys ∧ LeavesList (ls.length + 1) ys ∧ ∀ i < ls.length + 1, batchToSingleList i ys = (l :: ls)[i]?
  | [], [], ls, _, h => by
    have hall : ∀ w ∈ ls, w = [] := fun w hw => by
      have := h w hw
      cases w <;> simp_all [FormList]
    refine ⟨[], by rw [stackInpList, if_pos (List.all_eq_true.2 fun w hw => by simp [hall w hw])], trivial, fun i hi => ?_⟩
    cases i with
    | zero => rfl
    | succ i =>
      have hi' : i < ls.length := by omega
      rw [List.getElem?_cons_succ, List.getElem?_eq_getElem hi', hall _ (List.getElem_mem hi'), batchToSingleList]
  | s :: ss, x :: r, ls, hl, h => by
    have hx : ∀ w ∈ ls, ∃ u, uncons w = some u := fun w hw => by
      have := h w hw
      cases w <;> simp_all [FormList, uncons]
    obtain ⟨us, h1, h2⟩ := collect_some hx
    have hus : ∀ u ∈ us, Form s u.1 ∧ FormList ss u.2 := fun u hu => by
      obtain ⟨w, hw, hwu⟩ := forall₂_mem_right h2 hu
      have := h w hw
      cases w with
      | nil => simp [uncons] at hwu
      | cons a w => simp only [uncons, Option.some.injEq] at hwu; subst hwu; exact this
    obtain ⟨y, h3, h4, h5⟩ := stackSamples_ok s x (us.map Prod.fst) hl.1 fun z hz => by
      obtain ⟨u, hu, rfl⟩ := List.mem_map.1 hz; exact (hus u hu).1
    obtain ⟨ys, h6, h7, h8⟩ := stack_okList ss r (us.map Prod.snd) hl.2 fun z hz => by
      obtain ⟨u, hu, rfl⟩ := List.mem_map.1 hz; exact (hus u hu).2
    rw [List.length_map, ← h2.length_eq] at h4 h5 h7 h8
    refine ⟨y :: ys, by rw [stackInpList, h1]; simp only [h3, h6], ⟨h4, h7⟩, fun i hi => ?_⟩
    rw [batchToSingleList, h5 i hi, h8 i hi]
    cases i with
    | zero => rfl
    | succ i =>
      obtain ⟨w, u, k1, k2, k3⟩ := forall₂_get h2 i (by omega)
      cases w with
      | nil => simp [uncons] at k3
      | cons a w => simp only [uncons, Option.some.injEq] at k3; subst k3; simp [k1, k2]
theorem stack_okDict : ∀ ss l ls, FormDict ss l → (∀ w ∈ ls, FormDict ss w) →
    ∃ ys, stackInpDict l ls = some ys ∧ LeavesDict (ls.length + 1) ys ∧ ∀ i < ls.length + 1, batchToSingleDict i ys = (l :: ls)[i]?
  | [], [], ls, _, h => by
    have hall : ∀ w ∈ ls, w = [] := fun w hw => by
      have := h w hw
      cases w <;> simp_all [FormDict]
    refine ⟨[], by rw [stackInpDict, if_pos (List.all_eq_true.2 fun w hw => by simp [hall w hw])], trivial, fun i hi => ?_⟩
    cases i with
    | zero => rfl
    | succ i =>
      have hi' : i < ls.length := by omega
      rw [List.getElem?_cons_succ, List.getElem?_eq_getElem hi', hall _ (List.getElem_mem hi'), batchToSingleDict]
  | (k, s) :: ss, (k', x) :: r, ls, hl, h => by
    obtain ⟨rfl, hl1, hl2⟩ := hl
    have hx : ∀ w ∈ ls, ∃ u, unconsKey k' w = some u := fun w hw => by
      have := h w hw
      cases w with
      | nil => simp [FormDict] at this
      | cons a w => obtain ⟨ka, a⟩ := a; exact ⟨(a, w), by rw [unconsKey, if_pos this.1]⟩
    obtain ⟨us, h1, h2⟩ := collect_some hx
    have hus : ∀ u ∈ us, Form s u.1 ∧ FormDict ss u.2 := fun u hu => by
      obtain ⟨w, hw, hwu⟩ := forall₂_mem_right h2 hu
      have := h w hw
      cases w with
      | nil => simp [unconsKey] at hwu
      | cons a w =>
        obtain ⟨ka, a⟩ := a
        rw [unconsKey, if_pos this.1] at hwu
        cases hwu; exact this.2
    obtain ⟨y, h3, h4, h5⟩ := stackSamples_ok s x (us.map Prod.fst) hl1 fun z hz => by
      obtain ⟨u, hu, rfl⟩ := List.mem_map.1 hz; exact (hus u hu).1
    obtain ⟨ys, h6, h7, h8⟩ := stack_okDict ss r (us.map Prod.snd) hl2 fun z hz => by
      obtain ⟨u, hu, rfl⟩ := List.mem_map.1 hz; exact (hus u hu).2
    rw [List.length_map, ← h2.length_eq] at h4 h5 h7 h8
    refine ⟨(k', y) :: ys, by rw [stackInpDict, h1]; simp only [h3, h6], ⟨h4, h7⟩, fun i hi => ?_⟩
    rw [batchToSingleDict, h5 i hi, h8 i hi]
    cases i with
    | zero => rfl
    | succ i =>
      obtain ⟨w, u, k1, k2, k3⟩ := forall₂_get h2 i (by omega)
      cases w with
      | nil => simp [unconsKey] at k3
      | cons a w =>
        obtain ⟨ka, a⟩ := a
        by_cases hk : ka = k'
        · rw [unconsKey, if_pos hk] at k3
          cases k3; subst hk; simp [k1, k2]
        · rw [unconsKey, if_neg hk] at k3; cases k3
end

theorem sampleRows_ok (s : Space) (hs : Samplable s) (rnds : List Rnd) (hr : ∀ r ∈ rnds, ∀ p, 0 ≤ r.unit p ∧ r.unit p ≤ 1) :
    ∃ xs, sampleRows s rnds = .ok xs ∧ xs.length = rnds.length ∧ ∀ x ∈ xs, Form s x ∧ Mem s x := by
  induction rnds with
  | nil => exact ⟨[], rfl, rfl, by simp⟩
  | cons r rs ih =>
    obtain ⟨x, h1, h2⟩ := sample_mem r (hr r (by simp)) [] s hs
    obtain ⟨xs, h3, h4, h5⟩ := ih fun r' h' => hr r' (by simp [h'])
    refine ⟨x :: xs, by simp only [sampleRows, h1, h3], by simp [h4], fun y hy => ?_⟩
    rcases List.mem_cons.1 hy with rfl | hy
    · exact ⟨form_sample r [] s _ h1, h2⟩
    · exact h5 y hy

theorem batchSample_ok (s : Space) (hs : Samplable s) (rnds : List Rnd) (hne : rnds ≠ []) (hr : ∀ r ∈ rnds, ∀ p, 0 ≤ r.unit p ∧ r.unit p ≤ 1) :
    ∃ X, batchSample s rnds = .ok X ∧ BatchOf rnds.length s X := by
  obtain ⟨xs, h1, h2, h3⟩ := sampleRows_ok s hs rnds hr
  cases xs with
  | nil => exact absurd (List.length_eq_zero_iff.1 h2.symm) hne
  | cons x xs =>
    obtain ⟨y, h4, h5, h6⟩ := stackSamples_ok s x xs (h3 x (by simp)).1 fun z hz => (h3 z (by simp [hz])).1
    rw [List.length_cons] at h2
    rw [h2] at h5 h6
    refine ⟨y, by simp only [batchSample, h1, h4]; rfl, h5, fun i hi => ?_⟩
    have hi' : i < (x :: xs).length := by rw [List.length_cons, h2]; exact hi
    exact ⟨(x :: xs)[i], by rw [h6 i hi, List.getElem?_eq_getElem hi'], (h3 _ (List.getElem_mem hi')).2⟩

/-! ### Arguments and numbers -/

theorem positiveInt_iff (a : NumArg) (B : Nat) : a.positiveInt = some B ↔ PositiveInt a B := by
  unfold PositiveInt
  cases a with
  | int z =>
    simp only [NumArg.positiveInt, NumArg.int.injEq]
    split
    · rw [Option.some.injEq]; omega
    · constructor
      · intro h; cases h
      · intro h; omega
  | float x => simp [NumArg.positiveInt]
  | other => simp [NumArg.positiveInt]

theorem unitInterval_iff (a : NumArg) (g : ℝ) : a.unitInterval = some g ↔ InUnit a g := by
  unfold InUnit
  cases a with
  | int z =>
    simp only [NumArg.unitInterval]
    by_cases h : 0 ≤ z ∧ z ≤ 1
    · rw [if_pos h, Option.some.injEq]
      constructor
      · rintro rfl
        exact ⟨by exact_mod_cast h.1, by exact_mod_cast h.2, .inr ⟨z, rfl, rfl⟩⟩
      · rintro ⟨-, -, h | ⟨z', h, rfl⟩⟩
        · cases h
        · cases h; rfl
    · rw [if_neg h]
      refine ⟨fun h => (by cases h), ?_⟩
      rintro ⟨h0, h1, h' | ⟨z', h', rfl⟩⟩
      · cases h'
      · cases h'
        exact absurd ⟨by exact_mod_cast h0, by exact_mod_cast h1⟩ h
  | float x =>
    cases x with
    | none => simp [NumArg.unitInterval]
    | some x =>
      simp only [NumArg.unitInterval]
      by_cases h : 0 ≤ x ∧ x ≤ 1
      · rw [if_pos h, Option.some.injEq]
        constructor
        · rintro rfl; exact ⟨h.1, h.2, .inl rfl⟩
        · rintro ⟨-, -, h | ⟨z', h, rfl⟩⟩
          · cases h; rfl
          · cases h
      · rw [if_neg h]
        refine ⟨fun h => (by cases h), ?_⟩
        rintro ⟨h0, h1, h' | ⟨z', h', rfl⟩⟩
        · cases h'; exact absurd ⟨h0, h1⟩ h
        · cases h'
  | other => simp [NumArg.unitInterval]

theorem clipTo_mem {lo hi : ℝ} (h : lo ≤ hi) (x : ℝ) : lo ≤ clipTo lo hi x ∧ clipTo lo hi x ≤ hi :=
  ⟨le_min (le_max_right _ _) h, min_le_right _ _⟩

theorem logPEntry_mem (u : ℝ) : 0.01 ≤ Real.exp (logPEntry u) ∧ Real.exp (logPEntry u) ≤ 0.99 := by
  have := clipTo_mem (lo := 0.01) (hi := 0.99) (by norm_num) u
  unfold logPEntry
  rw [Real.exp_log (by linarith [this.1, show (0 : ℝ) < 0.01 by norm_num])]
  exact this

theorem column_map {α : Type _} {B k : Nat} {p : α → Prop} {f : Nat → α} (h : ∀ i, p (f i)) : Column B p (((List.range B).map (k * B + ·)).map f) := by
  refine ⟨by simp, fun x hx => ?_⟩
  obtain ⟨i, -, rfl⟩ := List.mem_map.1 hx
  exact h i

/-! ### C113 -/

/-- **C113**: for spaces that can be sampled (C82), the batch has the requested size in every field; its states and actions are members of the spaces; propensities are probabilities in `[0.01, 0.99]`,
rewards are in `[-5, 5]`, bootstrap factors are `0` or `gamma`, and importance weights are in `[0.01, 100]`, with NaN exactly where two uniform numbers are both zero.
Missing: spaces for which `safe_sample` fails (C82), and the NaN. -/
theorem C113_valid_partial (obs act : Space) (hobs : Samplable obs) (hact : Samplable act) (batchSize gamma : NumArg) (B : Nat) (g : ℝ) (hB : PositiveInt batchSize B) (hg : InUnit gamma g)
    (d : Draws) (hd : d.Ok) :
    ∃ b, getTransitionBatch obs act batchSize gamma d = .ok b ∧ BatchOf B obs b.S ∧ BatchOf B act b.A ∧ BatchOf B obs b.S_next ∧ BatchOf B act b.A_next ∧
      Column B (fun x => 0.01 ≤ Real.exp x ∧ Real.exp x ≤ 0.99) b.logP ∧ Column B (fun x => 0.01 ≤ Real.exp x ∧ Real.exp x ≤ 0.99) b.logP_next ∧
      Column B (fun x => -5 ≤ x ∧ x ≤ 5) b.Rn ∧ Column B (fun x => x = 0 ∨ x = g) b.In ∧
      Column B (fun w => w = none ∨ ∃ x, w = some x ∧ 0.01 ≤ x ∧ x ≤ 100) b.W ∧
      ∀ i < B, (b.W[i]? = some none ↔ ∃ u v, u ≠ v ∧ d.unif u = 0 ∧ d.unif v = 0 ∧ u = 2 * B + i ∧ v = 3 * B + i) := by
  have hlen : ∀ k, (((List.range B).map (k * B + ·)).map d.rnd).length = B := fun k => by simp
  have hne : ∀ k, ((List.range B).map (k * B + ·)).map d.rnd ≠ [] := fun k h => by
    have := hlen k; rw [h] at this; exact absurd this.symm (Nat.ne_of_gt hB.1)
  have hr : ∀ k, ∀ r ∈ ((List.range B).map (k * B + ·)).map d.rnd, ∀ p, 0 ≤ r.unit p ∧ r.unit p ≤ 1 := fun k r h p => by
    obtain ⟨i, -, rfl⟩ := List.mem_map.1 h; exact hd.1 i p
  obtain ⟨S, s1, s2⟩ := batchSample_ok obs hobs _ (hne 0) (hr 0)
  obtain ⟨A, a1, a2⟩ := batchSample_ok act hact _ (hne 1) (hr 1)
  obtain ⟨S', t1, t2⟩ := batchSample_ok obs hobs _ (hne 2) (hr 2)
  obtain ⟨A', b1, b2⟩ := batchSample_ok act hact _ (hne 3) (hr 3)
  rw [hlen] at s2 a2 t2 b2
  refine ⟨_, by simp only [getTransitionBatch, (positiveInt_iff _ _).2 hB, (unitInterval_iff _ _).2 hg, s1, a1, t1, b1]; rfl, s2, a2, t2, b2,
    column_map (p := fun x : ℝ => 0.01 ≤ Real.exp x ∧ Real.exp x ≤ 0.99) fun i => logPEntry_mem _, column_map (p := fun x : ℝ => 0.01 ≤ Real.exp x ∧ Real.exp x ≤ 0.99) fun i => logPEntry_mem _, column_map (p := fun x : ℝ => -5 ≤ x ∧ x ≤ 5) fun i => clipTo_mem (by norm_num) _, column_map fun i => ?_, column_map fun i => ?_, fun i hi => ?_⟩
  · by_cases h : d.choice i = true
    · rw [if_pos h]; exact .inr rfl
    · rw [if_neg h]; exact .inl rfl
  · unfold weightEntry
    by_cases h : d.unif (i + B) = 0
    · rw [if_pos h]
      by_cases h' : d.unif i = 0
      · rw [if_pos h']; exact .inl rfl
      · rw [if_neg h']; exact .inr ⟨100, rfl, by norm_num, le_refl _⟩
    · rw [if_neg h]; exact .inr ⟨_, rfl, clipTo_mem (by norm_num) _⟩
  · have he : 2 * B + i + B = 3 * B + i := by omega
    have hB := hB.1
    simp only [List.getElem?_map, List.getElem?_range hi, Option.map_some, Option.some.injEq, he]
    unfold weightEntry
    by_cases h : d.unif (3 * B + i) = 0
    · rw [if_pos h]
      by_cases h' : d.unif (2 * B + i) = 0
      · rw [if_pos h']; exact ⟨fun _ => ⟨_, _, by omega, h', h, rfl, rfl⟩, fun _ => rfl⟩
      · rw [if_neg h']
        refine ⟨fun h => (by cases h), ?_⟩
        rintro ⟨u, v, -, hu, -, rfl, -⟩; exact absurd hu h'
    · rw [if_neg h]
      refine ⟨fun h => (by cases h), ?_⟩
      rintro ⟨u, v, -, -, hv, -, rfl⟩; exact absurd hv h

/-- **C113**: anything but a positive integer as the size, or a number of the unit interval as the discount factor, raises TypeError; nothing else does for spaces that can be sampled. -/
theorem C113_errors (obs act : Space) (hobs : Samplable obs) (hact : Samplable act) (batchSize gamma : NumArg) (d : Draws) (hd : d.Ok) :
    (getTransitionBatch obs act batchSize gamma d = .error .typeError ↔ ¬ ((∃ B, PositiveInt batchSize B) ∧ ∃ g, InUnit gamma g)) ∧
    ∀ e, getTransitionBatch obs act batchSize gamma d = .error e → e = .typeError := by
  by_cases h : (∃ B, PositiveInt batchSize B) ∧ ∃ g, InUnit gamma g
  · obtain ⟨⟨B, hB⟩, g, hg⟩ := h
    obtain ⟨b, hb, -⟩ := C113_valid_partial obs act hobs hact batchSize gamma B g hB hg d hd
    rw [hb]
    exact ⟨⟨fun h => (by cases h), fun h => absurd ⟨⟨B, hB⟩, g, hg⟩ h⟩, fun e h => (by cases h)⟩
  · have he : getTransitionBatch obs act batchSize gamma d = .error .typeError := by
      unfold getTransitionBatch
      cases hB : batchSize.positiveInt with
      | none => rfl
      | some B =>
        cases hg : gamma.unitInterval with
        | none => rfl
        | some g => exact absurd ⟨⟨B, (positiveInt_iff _ _).1 hB⟩, g, (unitInterval_iff _ _).1 hg⟩ h
    rw [he]
    exact ⟨⟨fun _ => h, fun _ => rfl⟩, fun e h => by cases h; rfl⟩

/-- C113 fails for importance weights: two uniform numbers that are zero give NaN, which `clip` keeps. -/
theorem C113_nan_counterexample (obs act : Space) (hobs : Samplable obs) (hact : Samplable act) : ∃ d : Draws, d.Ok ∧ ∃ b, getTransitionBatch obs act (.int 1) (.float (some 0.9)) d = .ok b ∧ b.W = [none] := by
  let d : Draws := ⟨fun _ => ⟨fun _ => 0, fun _ => 0⟩, fun _ => 0, fun _ => 0, fun _ => false⟩
  have hd : d.Ok := ⟨fun _ _ => ⟨le_refl _, zero_le_one⟩, fun _ => ⟨le_refl _, zero_lt_one⟩⟩
  obtain ⟨b, hb, -, -, -, -, -, -, -, -, hW, hi⟩ := C113_valid_partial obs act hobs hact (.int 1) (.float (some 0.9)) 1 0.9 ⟨Nat.one_pos, rfl⟩ ⟨by norm_num, by norm_num, .inl rfl⟩ d hd
  refine ⟨d, hd, b, hb, ?_⟩
  have := (hi 0 Nat.one_pos).2 ⟨2, 3, by omega, rfl, rfl, rfl, rfl⟩
  match hl : b.W, hW.1 with
  | [w], _ => rw [hl] at this; simpa using this

example : Samplable (.dict [("a", .box [(some (-1), some 1), (none, none)]), ("b", .tuple [.discrete 3 0, .multiBinary 2])]) := by
  refine ⟨by simp, ?_, by simp, ⟨⟨by norm_num, rfl⟩, trivial, trivial⟩, trivial⟩
  intro b hb
  simp only [List.mem_cons, List.not_mem_nil, or_false] at hb
  rcases hb with rfl | rfl <;> simp [Inside]

end Coax.Utils
