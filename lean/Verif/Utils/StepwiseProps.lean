import Verif.Utils.Stepwise
import Mathlib.Data.List.Chain
import Mathlib.Topology.Order.OrderClosed
import Mathlib.Topology.Instances.Real.Lemmas
import Mathlib.Tactic.FieldSimp
import Mathlib.Tactic.Linarith
import Mathlib.Tactic.LinearCombination
import Mathlib.Tactic.Ring

/-! Property C30: `StepwiseLinearFunction` interpolates its steps. -/

namespace Coax.Stepwise

variable {K : Type _} [Field K] [LinearOrder K] [IsStrictOrderedRing K]

/-! ### Specification -/

/-- A schedule: at least two steps at strictly increasing times. -/
structure Schedule (ps : List (Int × K)) : Prop where
  two : 2 ≤ ps.length
  ascending : ps.Pairwise (fun p q => p.1 < q.1)

/-- `v` is the value at `t` of the piecewise linear function through the points `ps`, flat outside of them. -/
structure Interp (ps : List (Int × K)) (t v : K) : Prop where
  before : ∀ p : Int × K, ps.head? = some p → t ≤ (p.1 : K) → v = p.2
  after : ∀ p : Int × K, ps.getLast? = some p → (p.1 : K) ≤ t → v = p.2
  between : ∀ (k : Nat) (p q : Int × K), ps[k]? = some p → ps[k + 1]? = some q → (p.1 : K) ≤ t → t ≤ (q.1 : K) →
    (v - p.2) * ((q.1 : K) - p.1) = (q.2 - p.2) * (t - p.1)

/-! ### Helpers -/

/-- A recursive form of the interpolation. -/
def lerp : List (Int × K) → K → K
  | [], _ => 0
  | [p], _ => p.2
  | p :: q :: rest, t =>
    if t ≤ (q.1 : K) then p.2 + (q.2 - p.2) / ((q.1 : K) - p.1) * (max t p.1 - p.1) else lerp (q :: rest) t

theorem Interp.eq_lerp {ps : List (Int × K)} {t v : K} (hasc : ps.Pairwise (fun p q => p.1 < q.1)) (hne : ps ≠ [])
    (h : Interp ps t v) : v = lerp ps t := by
  induction ps with
  | nil => exact absurd rfl hne
  | cons p rest ih =>
    cases rest with
    | nil =>
      rcases le_total t (p.1 : K) with h1 | h1
      · exact h.before p rfl h1
      · exact h.after p rfl h1
    | cons q rest =>
      have hpq : (p.1 : K) < q.1 := by
        have := (List.pairwise_cons.1 hasc).1 q (by simp)
        exact_mod_cast this
      simp only [lerp]
      split
      · rename_i ht
        rcases le_total t (p.1 : K) with h1 | h1
        · rw [max_eq_right h1, sub_self, mul_zero, add_zero]
          exact h.before p rfl h1
        · rw [max_eq_left h1]
          have := h.between 0 p q rfl rfl h1 ht
          have hd : (q.1 : K) - p.1 ≠ 0 := sub_ne_zero.2 (ne_of_gt hpq)
          field_simp
          linear_combination this
      · rename_i ht
        refine ih (List.pairwise_cons.1 hasc).2 (by simp) ⟨?_, ?_, ?_⟩
        · intro p' hp h1
          simp only [List.head?_cons, Option.some.injEq] at hp
          subst hp
          exact absurd h1 ht
        · intro p' hp h1
          exact h.after p' (by rw [List.getLast?_cons_cons]; exact hp) h1
        · intro k p' q' hp hq
          exact h.between (k + 1) p' q' (by simpa using hp) (by simpa using hq)

theorem pairs_eq_some {as : List (Arg K)} {ps : List (Int × K)} :
    pairs as = some ps ↔ as = ps.map (fun p => Arg.pair p.1 p.2) := by
  induction as generalizing ps with
  | nil => cases ps <;> simp [pairs]
  | cons a as ih =>
    cases a with
    | other => cases ps <;> simp [pairs]
    | pair t v =>
      cases ps with
      | nil => simp [pairs]
      | cons p ps =>
        simp only [pairs, Option.map_eq_some_iff, List.map_cons, List.cons.injEq, Arg.pair.injEq]
        constructor
        · rintro ⟨ps', h, rfl, rfl⟩; exact ⟨⟨rfl, rfl⟩, ih.1 h⟩
        · rintro ⟨⟨rfl, rfl⟩, h⟩; exact ⟨ps, ih.2 h, rfl, rfl⟩

theorem ascending_iff (ps : List (Int × K)) :
    ((ps.zip ps.tail).all (fun (p, q) => decide (p.1 < q.1))) = true ↔ ps.Pairwise (fun p q => p.1 < q.1) := by
  have htr : IsTrans (Int × K) (fun p q => p.1 < q.1) := ⟨fun _ _ _ h1 h2 => lt_trans h1 h2⟩
  rw [← List.isChain_iff_pairwise]
  induction ps with
  | nil => simp
  | cons p ps ih =>
    cases ps with
    | nil => simp
    | cons q ps =>
      rw [List.isChain_cons_cons]
      simp only [List.tail_cons, List.zip_cons_cons, List.all_cons, Bool.and_eq_true, decide_eq_true_eq]
      exact and_congr Iff.rfl ih

/-- The object built from a schedule. -/
def build (ps : List (Int × K)) (first last : Int × K) : Fn K :=
  { startValue := first.2
    finalValue := last.2
    offsets := ps.map Prod.fst
    intercepts := ps.map Prod.snd
    index := List.range ps.length
    slopes := (ps.zip ps.tail).map (fun (p, q) => (q.2 - p.2) / ((q.1 - p.1 : Int) : K)) }

theorem new_ok {ps : List (Int × K)} (h : Schedule ps) : ∃ first last, ps.head? = some first ∧ ps.getLast? = some last ∧
    new (ps.map (fun p => Arg.pair p.1 p.2)) = .ok (build ps first last) := by
  have h2 := h.two
  obtain ⟨p, q, rest, rfl⟩ : ∃ p q rest, ps = p :: q :: rest := by
    match ps, h2 with
    | p :: q :: rest, _ => exact ⟨p, q, rest, rfl⟩
  have hl := List.getLast?_eq_some_getLast (l := p :: q :: rest) (by simp)
  refine ⟨p, _, rfl, hl, ?_⟩
  unfold new
  rw [if_neg (by rw [List.length_map]; omega)]
  rw [pairs_eq_some.2 rfl]
  simp only [(ascending_iff _).2 h.ascending, if_true, hl, List.head?_cons]
  rfl

theorem mem_select {n : Nat} {mask : List Bool} {i : Nat} (hn : mask.length = n) :
    i ∈ select (List.range n) mask ↔ mask[i]? = some true := by
  simp only [select, List.mem_filterMap, Prod.exists, Option.ite_none_right_eq_some, Option.some.injEq]
  constructor
  · rintro ⟨a, b, h, hb, rfl⟩
    obtain ⟨k, hk⟩ := List.mem_iff_getElem?.1 h
    rw [List.getElem?_zip_eq_some] at hk
    obtain ⟨h1, h2⟩ := hk
    obtain ⟨hlt, h1⟩ := List.getElem?_eq_some_iff.1 h1
    simp at h1
    subst h1
    rw [h2]
    simpa using hb
  · intro h
    have hlt : i < mask.length := (List.getElem?_eq_some_iff.1 h).1
    refine ⟨i, true, ?_, rfl, rfl⟩
    rw [List.mem_iff_getElem?]
    refine ⟨i, List.getElem?_zip_eq_some.2 ⟨?_, h⟩⟩
    rw [List.getElem?_range (by omega)]

theorem ascending_get {ps : List (Int × K)} (h : ps.Pairwise (fun p q => p.1 < q.1)) {i j : Nat} {p q : Int × K}
    (hi : ps[i]? = some p) (hj : ps[j]? = some q) (hij : i < j) : (p.1 : K) < q.1 := by
  obtain ⟨hi', rfl⟩ := List.getElem?_eq_some_iff.1 hi
  obtain ⟨hj', rfl⟩ := List.getElem?_eq_some_iff.1 hj
  exact_mod_cast List.pairwise_iff_getElem.1 h i j hi' hj' hij

theorem ascending_get_le {ps : List (Int × K)} (h : ps.Pairwise (fun p q => p.1 < q.1)) {i j : Nat} {p q : Int × K}
    (hi : ps[i]? = some p) (hj : ps[j]? = some q) (hij : i ≤ j) : (p.1 : K) ≤ q.1 := by
  rcases Nat.lt_or_eq_of_le hij with h1 | rfl
  · exact (ascending_get h hi hj h1).le
  · rw [hi] at hj; cases hj; exact le_rfl

theorem call_interp {ps : List (Int × K)} (h : Schedule ps) {first last : Int × K} (hf : ps.head? = some first)
    (hl : ps.getLast? = some last) (t : K) : ∃ v, (build ps first last).call t = .ok v ∧ Interp ps t v := by
  have h2 := h.two
  have hasc := h.ascending
  have hf0 : ps[0]? = some first := by rw [← List.head?_eq_getElem?]; exact hf
  have hlast : ps[ps.length - 1]? = some last := by rw [← List.getLast?_eq_getElem?]; exact hl
  have hmask : ∀ i : Nat, (ps.map Prod.fst |>.map (fun t' : Int => decide ((t' : K) ≤ t)))[i]? =
      (ps[i]?).map (fun p => decide ((p.1 : K) ≤ t)) := by
    intro i; rw [List.getElem?_map, List.getElem?_map, Option.map_map]; rfl
  have hmlen : (ps.map Prod.fst |>.map (fun t' : Int => decide ((t' : K) ≤ t))).length = ps.length := by simp
  dsimp only [Fn.call, build]
  generalize hm : (ps.map Prod.fst |>.map (fun t' : Int => decide ((t' : K) ≤ t))) = mask at *
  by_cases h0 : mask.any id = true
  swap
  · rw [if_pos (by simpa using h0)]
    refine ⟨_, rfl, ?_⟩
    have hgt : ∀ (i : Nat) p, ps[i]? = some p → t < (p.1 : K) := by
      intro i p hp
      by_contra hc
      apply h0
      rw [List.any_eq_true]
      refine ⟨true, List.mem_iff_getElem?.2 ⟨i, ?_⟩, rfl⟩
      rw [hmask, hp]; simp [not_lt.1 hc]
    refine ⟨?_, ?_, ?_⟩
    · intro p hp _; rw [hf] at hp; cases hp; rfl
    · intro p hp hle; rw [hl] at hp; cases hp; exact absurd hle (not_le.2 (hgt _ _ hlast))
    · intro k p q hp hq hle; exact absurd hle (not_le.2 (hgt _ _ hp))
  rw [if_neg (by simpa using h0)]
  by_cases h1 : mask.all id = true
  · rw [if_pos h1]
    refine ⟨_, rfl, ?_⟩
    have hle : ∀ (i : Nat) p, ps[i]? = some p → (p.1 : K) ≤ t := by
      intro i p hp
      rw [List.all_eq_true] at h1
      have := h1 (decide ((p.1 : K) ≤ t)) (List.mem_iff_getElem?.2 ⟨i, by rw [hmask, hp]; rfl⟩)
      simpa using this
    have hend := hle _ _ hlast
    refine ⟨?_, ?_, ?_⟩
    · intro p hp ht
      rw [hf] at hp; cases hp
      have := ascending_get hasc hf0 hlast (by omega)
      exact absurd (lt_of_lt_of_le this hend) (not_lt.2 ht)
    · intro p hp _; rw [hl] at hp; cases hp; rfl
    · intro k p q hp hq _ ht
      have hk : k + 1 < ps.length := (List.getElem?_eq_some_iff.1 hq).1
      rcases Nat.lt_or_ge (k + 1) (ps.length - 1) with hlt | hge
      · have := ascending_get hasc hq hlast hlt
        exact absurd (lt_of_lt_of_le this hend) (not_lt.2 ht)
      · have e : k + 1 = ps.length - 1 := by omega
        rw [e, hlast] at hq
        cases hq
        have et : t = last.1 := le_antisymm ht hend
        rw [et]
  rw [if_neg h1]
  have hne : (select (List.range ps.length) mask) ≠ [] := by
    rw [List.any_eq_true] at h0
    obtain ⟨b, hb, hbt⟩ := h0
    obtain ⟨i, hi⟩ := List.mem_iff_getElem?.1 hb
    have hbt : b = true := hbt
    subst hbt
    exact List.ne_nil_of_mem ((mem_select (by omega)).2 hi)
  obtain ⟨i, hi⟩ : ∃ i, (select (List.range ps.length) mask).max? = some i := by
    cases hx : (select (List.range ps.length) mask).max? with
    | none => exact absurd (List.max?_eq_none_iff.1 hx) hne
    | some i => exact ⟨i, rfl⟩
  have hi' := List.max?_eq_some_iff.1 hi
  have himem := (mem_select (by omega)).1 hi'.1
  rw [hmask] at himem
  obtain ⟨p, hp, hple⟩ := Option.map_eq_some_iff.1 himem
  have hple : (p.1 : K) ≤ t := by simpa using hple
  have himax : ∀ (k : Nat) q, ps[k]? = some q → (q.1 : K) ≤ t → k ≤ i := by
    intro k q hq hqt
    exact hi'.2 k ((mem_select (by omega)).2 (by rw [hmask, hq]; simp [hqt]))
  have hilt : i + 1 < ps.length := by
    by_contra hc
    apply h1
    rw [List.all_eq_true]
    intro b hb
    obtain ⟨k, hk⟩ := List.mem_iff_getElem?.1 hb
    rw [hmask] at hk
    obtain ⟨q, hq, rfl⟩ := Option.map_eq_some_iff.1 hk
    have hklt : k < ps.length := (List.getElem?_eq_some_iff.1 hq).1
    have := ascending_get_le hasc hq hp (by omega)
    simpa using le_trans this hple
  obtain ⟨q, hq⟩ : ∃ q, ps[i + 1]? = some q := ⟨_, List.getElem?_eq_getElem hilt⟩
  have hqt : t < q.1 := by
    by_contra hc
    have := himax _ _ hq (not_lt.1 hc)
    omega
  have hpq : (p.1 : K) < q.1 := ascending_get hasc hp hq (by omega)
  have hsl : ((ps.zip ps.tail).map (fun (p, q) => (q.2 - p.2) / ((q.1 - p.1 : Int) : K)))[i]? =
      some ((q.2 - p.2) / ((q.1 - p.1 : Int) : K)) := by
    have hz : (ps.zip ps.tail)[i]? = some (p, q) := List.getElem?_zip_eq_some.2 ⟨hp, by simpa using hq⟩
    rw [List.getElem?_map, hz]; rfl
  simp only [hi, hsl, List.getElem?_map, hp, Option.map_some]
  refine ⟨_, rfl, ?_⟩
  have hd : (q.1 : K) - p.1 ≠ 0 := sub_ne_zero.2 (ne_of_gt hpq)
  refine ⟨?_, ?_, ?_⟩
  · intro p' hp' ht
    rw [hf] at hp'; cases hp'
    rcases Nat.eq_zero_or_pos i with rfl | hpos
    · rw [hf0] at hp; cases hp
      have : t = first.1 := le_antisymm ht hple
      rw [this, sub_self, mul_zero, add_zero]
    · have := ascending_get hasc hf0 hp hpos
      exact absurd (lt_of_lt_of_le this hple) (not_lt.2 ht)
  · intro p' hp' ht
    rw [hl] at hp'; cases hp'
    have := himax _ _ hlast ht
    omega
  · intro k p' q' hp' hq' hpt htq
    rcases Nat.lt_trichotomy k i with hk | rfl | hk
    · have h3 := ascending_get_le hasc hq' hp (by omega)
      have et : t = q'.1 := le_antisymm htq (le_trans h3 hple)
      have e : k + 1 = i := by
        by_contra hc
        have := ascending_get hasc hq' hp (by omega)
        exact absurd (lt_of_lt_of_le this hple) (not_lt.2 htq)
      subst e
      rw [hp] at hq'; cases hq'
      rw [et]; ring
    · rw [hp] at hp'; cases hp'
      rw [hq] at hq'; cases hq'
      push_cast
      field_simp
      ring
    · have := himax _ _ hp' hpt
      omega

theorem new_cases {args : List (Arg K)} {f : Fn K} (h : new args = .ok f) :
    ∃ ps first last, args = ps.map (fun p => Arg.pair p.1 p.2) ∧ Schedule ps ∧ ps.head? = some first ∧
      ps.getLast? = some last ∧ f = build ps first last := by
  unfold new at h
  split at h
  · cases h
  rename_i hlen
  cases hp : pairs args with
  | none => rw [hp] at h; cases h
  | some ps =>
    have e := pairs_eq_some.1 hp
    rw [hp] at h
    simp only at h
    split at h
    · rename_i hasc
      have hs : Schedule ps := ⟨by rw [e, List.length_map] at hlen; omega, (ascending_iff _).1 hasc⟩
      obtain ⟨first, last, h1, h2, h3⟩ := new_ok hs
      simp only [h1, h2, Except.ok.injEq] at h
      exact ⟨ps, first, last, e, hs, h1, h2, h.symm⟩
    · cases h

/-! ### Theorems -/

/-- C30.  Exactly the schedules (at least two well typed pairs at strictly increasing times) are accepted; fewer than two
steps or a badly typed step raise `TypeError`, badly ordered steps raise `ValueError`. -/
theorem C30_accepts (args : List (Arg K)) :
    ((∃ f, new args = .ok f) ↔ ∃ ps : List (Int × K), args = ps.map (fun p => Arg.pair p.1 p.2) ∧ Schedule ps) ∧
    (args.length < 2 → new args = .error .typeError) ∧
    (Arg.other ∈ args → new args = .error .typeError) ∧
    (∀ ps : List (Int × K), args = ps.map (fun p => Arg.pair p.1 p.2) → 2 ≤ ps.length →
      ¬ ps.Pairwise (fun p q => p.1 < q.1) → new args = .error .valueError) := by
  refine ⟨⟨?_, ?_⟩, ?_, ?_, ?_⟩
  · rintro ⟨f, hf⟩
    obtain ⟨ps, _, _, h1, h2, _⟩ := new_cases hf
    exact ⟨ps, h1, h2⟩
  · rintro ⟨ps, rfl, hs⟩
    obtain ⟨_, _, _, _, h⟩ := new_ok hs
    exact ⟨_, h⟩
  · intro h; unfold new; rw [if_pos h]
  · intro h
    unfold new
    split
    · rfl
    · cases hp : pairs args with
      | none => rfl
      | some ps => rw [pairs_eq_some.1 hp] at h; simp at h
  · rintro ps rfl h2 h
    unfold new
    rw [if_neg (by rw [List.length_map]; omega), pairs_eq_some.2 rfl]
    simp only
    rw [if_neg (fun hc => h ((ascending_iff _).1 hc))]

/-- C30.  For every schedule and every time the call returns the value of the piecewise linear interpolation, and no other
number has that property. -/
theorem C30_interpolates {ps : List (Int × K)} (h : Schedule ps) : ∃ f, new (ps.map (fun p => Arg.pair p.1 p.2)) = .ok f ∧
    ∀ t v, f.call t = .ok v ↔ Interp ps t v := by
  obtain ⟨first, last, h1, h2, h3⟩ := new_ok h
  refine ⟨_, h3, ?_⟩
  intro t v
  have hne : ps ≠ [] := by rintro rfl; simpa using h.two
  obtain ⟨v', h4, h5⟩ := call_interp h h1 h2 t
  rw [h4, Except.ok.injEq]
  constructor
  · rintro rfl; exact h5
  · intro h6; rw [h5.eq_lerp h.ascending hne, h6.eq_lerp h.ascending hne]

/-- C30.  A call never raises. -/
theorem C30_total {args : List (Arg K)} {f : Fn K} (h : new args = .ok f) (t : K) : ∃ v, f.call t = .ok v := by
  obtain ⟨ps, first, last, rfl, hs, h1, h2, rfl⟩ := new_cases h
  obtain ⟨v, hv, _⟩ := call_interp hs h1 h2 t
  exact ⟨v, hv⟩

/-- C30.  At the time of each step the function has the value of that step. -/
theorem C30_at_steps {ps : List (Int × K)} {f : Fn K} (h : new (ps.map (fun p => Arg.pair p.1 p.2)) = .ok f) :
    ∀ p ∈ ps, f.call (p.1 : K) = .ok p.2 := by
  have hs : Schedule ps := by
    obtain ⟨ps', h1, h2⟩ := (C30_accepts _).1.1 ⟨f, h⟩
    have : ps = ps' := by
      refine List.map_injective_iff.2 ?_ h1
      rintro ⟨a, b⟩ ⟨c, d⟩ e
      simpa using e
    exact this ▸ h2
  obtain ⟨f', h1, h2⟩ := C30_interpolates hs
  rw [h1] at h
  cases h
  intro p hp
  obtain ⟨v, hv⟩ := C30_total h1 (p.1 : K)
  rw [hv]
  congr 1
  have hI := (h2 _ _).1 hv
  obtain ⟨k, hk⟩ := List.mem_iff_getElem?.1 hp
  rcases Nat.lt_or_ge (k + 1) ps.length with hlt | hge
  · have hq := List.getElem?_eq_getElem hlt
    have hpq := ascending_get hs.ascending hk hq (by omega)
    have h3 := hI.between k p _ hk hq le_rfl hpq.le
    rw [sub_self, mul_zero] at h3
    rcases mul_eq_zero.1 h3 with h4 | h4
    · exact sub_eq_zero.1 h4
    · exact absurd (sub_eq_zero.1 h4) (ne_of_gt hpq)
  · have hk' := (List.getElem?_eq_some_iff.1 hk).1
    have : ps.getLast? = some p := by rw [List.getLast?_eq_getElem?, ← hk]; congr 1; omega
    exact hI.after p this le_rfl

theorem lerp_bounds {ps : List (Int × K)} (hasc : ps.Pairwise (fun p q => p.1 < q.1)) (hne : ps ≠ []) (t : K) :
    (∃ p ∈ ps, p.2 ≤ lerp ps t) ∧ (∃ p ∈ ps, lerp ps t ≤ p.2) := by
  induction ps with
  | nil => exact absurd rfl hne
  | cons p rest ih =>
    cases rest with
    | nil => exact ⟨⟨p, by simp, le_rfl⟩, ⟨p, by simp, le_rfl⟩⟩
    | cons q rest =>
      have hpq : (p.1 : K) < q.1 := by
        have := (List.pairwise_cons.1 hasc).1 q (by simp)
        exact_mod_cast this
      simp only [lerp]
      split
      · rename_i ht
        have hd : 0 < (q.1 : K) - p.1 := sub_pos.2 hpq
        set x := (max t p.1 - p.1) / ((q.1 : K) - p.1) with hx
        have hx0 : 0 ≤ x := div_nonneg (sub_nonneg.2 (le_max_right _ _)) hd.le
        have hx1 : x ≤ 1 := by
          rw [hx, div_le_one hd]
          exact sub_le_sub_right (max_le ht hpq.le) _
        have e : p.2 + (q.2 - p.2) / ((q.1 : K) - p.1) * (max t p.1 - p.1) = p.2 + (q.2 - p.2) * x := by
          rw [hx]; ring
        rw [e]
        rcases le_total p.2 q.2 with hle | hle
        · refine ⟨⟨p, by simp, by nlinarith⟩, ⟨q, by simp, by nlinarith⟩⟩
        · refine ⟨⟨q, by simp, by nlinarith⟩, ⟨p, by simp, by nlinarith⟩⟩
      · obtain ⟨⟨a, ha, h1⟩, ⟨b, hb, h2⟩⟩ := ih (List.pairwise_cons.1 hasc).2 (by simp)
        exact ⟨⟨a, by simp only [List.mem_cons] at ha ⊢; exact .inr ha, h1⟩, ⟨b, by simp only [List.mem_cons] at hb ⊢; exact .inr hb, h2⟩⟩

/-- C30.  The value lies between the smallest and the largest value of the steps. -/
theorem C30_bounds {ps : List (Int × K)} {f : Fn K} (h : new (ps.map (fun p => Arg.pair p.1 p.2)) = .ok f) {t v : K}
    (hv : f.call t = .ok v) : (∃ p ∈ ps, p.2 ≤ v) ∧ (∃ p ∈ ps, v ≤ p.2) := by
  have hs : Schedule ps := by
    obtain ⟨ps', h1, h2⟩ := (C30_accepts _).1.1 ⟨f, h⟩
    have : ps = ps' := by
      refine List.map_injective_iff.2 ?_ h1
      rintro ⟨a, b⟩ ⟨c, d⟩ e
      simpa using e
    exact this ▸ h2
  obtain ⟨f', h1, h2⟩ := C30_interpolates hs
  rw [h1] at h
  cases h
  have hne : ps ≠ [] := by rintro rfl; simpa using hs.two
  rw [((h2 _ _).1 hv).eq_lerp hs.ascending hne]
  exact lerp_bounds hs.ascending hne t

theorem lerp_continuous (ps : List (Int × ℝ)) (hasc : ps.Pairwise (fun p q => p.1 < q.1)) : Continuous (lerp ps) := by
  induction ps with
  | nil => exact continuous_const
  | cons p rest ih =>
    cases rest with
    | nil => exact continuous_const
    | cons q rest =>
      have hpq : (p.1 : ℝ) < q.1 := by
        have := (List.pairwise_cons.1 hasc).1 q (by simp)
        exact_mod_cast this
      have ih := ih (List.pairwise_cons.1 hasc).2
      have : lerp (p :: q :: rest) = fun t => if t ≤ (q.1 : ℝ) then
          p.2 + (q.2 - p.2) / ((q.1 : ℝ) - p.1) * (max t p.1 - p.1) else lerp (q :: rest) t := by
        funext t; simp only [lerp]
      rw [this]
      refine Continuous.if_le ?_ ih continuous_id continuous_const ?_
      · exact continuous_const.add (continuous_const.mul ((continuous_id.max continuous_const).sub continuous_const))
      · rintro t (rfl : t = q.1)
        have hd : (q.1 : ℝ) - p.1 ≠ 0 := sub_ne_zero.2 (ne_of_gt hpq)
        rw [max_eq_left hpq.le, div_mul_cancel₀ _ hd, add_sub_cancel]
        cases rest with
        | nil => rfl
        | cons r rest =>
          have hqr : (q.1 : ℝ) < r.1 := by
            have := (List.pairwise_cons.1 (List.pairwise_cons.1 hasc).2).1 r (by simp)
            exact_mod_cast this
          simp only [lerp]
          rw [if_pos hqr.le, max_self, sub_self, mul_zero, add_zero]

/-- C30.  Over the reals the function is continuous. -/
theorem C30_continuous {args : List (Arg ℝ)} {f : Fn ℝ} (h : new args = .ok f) :
    ∃ F : ℝ → ℝ, Continuous F ∧ ∀ t, f.call t = .ok (F t) := by
  obtain ⟨ps, first, last, rfl, hs, h1, h2, rfl⟩ := new_cases h
  have hne : ps ≠ [] := by rintro rfl; simpa using hs.two
  refine ⟨lerp ps, lerp_continuous ps hs.ascending, ?_⟩
  intro t
  obtain ⟨v, hv, hI⟩ := call_interp hs h1 h2 t
  rw [hv, hI.eq_lerp hs.ascending hne]

/-- The exploration schedule of the documentation, halfway between its first two steps. -/
def exSteps : List (Int × ℚ) := [(0, 1), (1000000, 1 / 10), (2000000, 1 / 100)]

example : Schedule exSteps := ⟨by decide, by simp [exSteps]⟩

example : (new (exSteps.map (fun p => Arg.pair p.1 p.2))).toOption.map (fun f => (f.call 500000).toOption) = some (some (11 / 20)) := by
  decide +kernel

end Coax.Stepwise
