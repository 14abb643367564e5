import Verif.Wrappers.BoxSpaces
import Mathlib.Algebra.Order.Floor.Ring

/-! Property C40 of the Box action wrappers. -/

namespace Coax.BoxSpaces

/-- The `a`-th of the `n` equally wide parts of `[lo, hi)`. -/
def bin (lo hi : ℝ) (n a : Int) : Set ℝ := Set.Ico (lo + a * ((hi - lo) / n)) (lo + (a + 1) * ((hi - lo) / n))

/-! ### One coordinate -/

theorem toBox_mem_bin {lo hi u : ℝ} {n a : Int} (hn : 0 < n) (hlt : lo < hi) (hu : 0 ≤ u ∧ u < 1) : toBox lo hi n a u ∈ bin lo hi n a := by
  have hn' : (0 : ℝ) < n := by exact_mod_cast hn
  have hw : 0 < (hi - lo) / n := div_pos (by linarith) hn'
  have e : toBox lo hi n a u = lo + (a + u) * ((hi - lo) / n) := by unfold toBox; ring
  rw [e]
  constructor
  · have := mul_le_mul_of_nonneg_right (show (a : ℝ) ≤ a + u by linarith [hu.1]) hw.le; linarith
  · have := mul_lt_mul_of_pos_right (show (a : ℝ) + u < a + 1 by linarith [hu.2]) hw; linarith

theorem bin_subset {lo hi : ℝ} {n a : Int} (hlt : lo < hi) (ha : 0 ≤ a ∧ a < n) : bin lo hi n a ⊆ Set.Ico lo hi := by
  have hn' : (0 : ℝ) < n := by exact_mod_cast (show 0 < n by omega)
  have hw : 0 < (hi - lo) / n := div_pos (by linarith) hn'
  have ha0 : (0 : ℝ) ≤ a := by exact_mod_cast ha.1
  have ha1 : (a : ℝ) + 1 ≤ n := by exact_mod_cast ha.2
  intro x hx
  obtain ⟨h1, h2⟩ := hx
  constructor
  · have := mul_nonneg ha0 hw.le; linarith
  · have := mul_le_mul_of_nonneg_right ha1 hw.le
    have e : (n : ℝ) * ((hi - lo) / n) = hi - lo := by field_simp
    linarith

/-- Each point of `[lo, hi)` comes from exactly one bin and draw. -/
theorem toBox_bijective {lo hi y : ℝ} {n : Int} (hn : 0 < n) (hlt : lo < hi) (hy : y ∈ Set.Ico lo hi) :
    ∃! p : Int × ℝ, (0 ≤ p.1 ∧ p.1 < n) ∧ (0 ≤ p.2 ∧ p.2 < 1) ∧ toBox lo hi n p.1 p.2 = y := by
  have hn' : (0 : ℝ) < n := by exact_mod_cast hn
  have hd : 0 < hi - lo := by linarith
  set z := (y - lo) / (hi - lo) * n with hz
  have hz0 : 0 ≤ z := mul_nonneg (div_nonneg (by linarith [hy.1]) hd.le) hn'.le
  have hz1 : z < n := by
    have : (y - lo) / (hi - lo) < 1 := by rw [div_lt_one hd]; linarith [hy.2]
    calc z < 1 * n := mul_lt_mul_of_pos_right this hn'
      _ = n := one_mul _
  have hback : ∀ (a : Int) (u : ℝ), toBox lo hi n a u = y ↔ (a : ℝ) + u = z := by
    intro a u
    unfold toBox
    rw [hz]
    constructor
    · intro h
      have : (a + u) / n * (hi - lo) = y - lo := by linarith
      field_simp at this ⊢
      linarith
    · intro h
      rw [h]; field_simp; ring
  refine ⟨(⌊z⌋, Int.fract z), ⟨⟨Int.floor_nonneg.2 hz0, Int.floor_lt.2 hz1⟩, ⟨Int.fract_nonneg z, Int.fract_lt_one z⟩, (hback _ _).2 (Int.floor_add_fract z)⟩, ?_⟩
  rintro ⟨a, u⟩ ⟨_, ⟨hu0, hu1⟩, h⟩
  have h' := (hback a u).1 h
  simp only at hu0 hu1
  have e1 : ⌊z⌋ = a := by rw [← h', Int.floor_intCast_add, Int.floor_eq_zero_iff.2 ⟨hu0, hu1⟩, add_zero]
  have e2 : Int.fract z = u := by rw [← h', Int.fract_intCast_add, Int.fract_eq_self.2 ⟨hu0, hu1⟩]
  rw [e1, e2]

/-! ### Vectors -/

/-- The bounds of the Box have equal length, and each lower bound is below the upper bound. -/
def Box.Valid (b : Box) : Prop := b.low.length = b.high.length ∧ ∀ (i : Nat) (lo hi : ℝ), b.low[i]? = some lo → b.high[i]? = some hi → lo < hi

/-- C40.  The constructor accepts an int `n ≥ 1` (the same number of bins everywhere) or a tuple of as many ints `≥ 1` as the
Box has coordinates, and nothing else. -/
theorem C40_accepts (b : Box) (nb : NumBins) (hb : 0 < b.size) (d : Discretizer) :
    init b nb = .ok d ↔ d.box = b ∧ d.nvec.length = b.size ∧ (∀ n ∈ d.nvec, 0 < n) ∧
      ((∃ n, nb = .int n ∧ ∀ k ∈ d.nvec, k = n) ∨ nb = .tuple d.nvec) := by
  unfold init
  cases nb with
  | int n =>
    simp only [checkPositive]
    split
    · rename_i hp
      simp only [List.all_eq_true, decide_eq_true_eq] at hp
      constructor
      · intro h; cases h
        exact ⟨rfl, by simp, hp, .inl ⟨n, rfl, fun k hk => List.eq_of_mem_replicate hk⟩⟩
      · rintro ⟨h1, h2, h3, h4⟩
        rcases h4 with ⟨n', h, h4⟩ | h
        · cases h
          congr 1
          obtain ⟨db, dn⟩ := d
          simp only at h1 h2 h4
          rw [h1, ← h2, ← List.eq_replicate_of_mem h4]
        · cases h
    · rename_i hp
      constructor
      · intro h; cases h
      · rintro ⟨h1, h2, h3, h4⟩
        exfalso; apply hp
        rcases h4 with ⟨n', h, h4⟩ | h
        · cases h
          have hn : 0 < n := by
            obtain ⟨k, hk⟩ := List.exists_mem_of_length_pos (h2.symm ▸ hb)
            have := h3 k hk; rwa [h4 k hk] at this
          simp only [List.all_eq_true, decide_eq_true_eq]
          intro k hk
          rw [List.eq_of_mem_replicate hk]; exact hn
        · cases h
  | tuple ns =>
    simp only [checkPositive, List.all_eq_true, decide_eq_true_eq]
    split
    · rename_i hl
      constructor
      · intro h; cases h
      · rintro ⟨h1, h2, h3, h4⟩
        rcases h4 with ⟨n', h, _⟩ | h
        · cases h
        · cases h; exact absurd h2 hl
    · rename_i hl
      rw [not_not] at hl
      split
      · rename_i hp
        constructor
        · intro h; cases h; exact ⟨rfl, hl, hp, .inr rfl⟩
        · rintro ⟨h1, h2, h3, h4⟩
          rcases h4 with ⟨n', h, _⟩ | h
          · cases h
          · cases h; cases h1; rfl
      · rename_i hp
        constructor
        · intro h; cases h
        · rintro ⟨h1, h2, h3, h4⟩
          rcases h4 with ⟨n', h, _⟩ | h
          · cases h
          · cases h; exact absurd h3 hp
  | other =>
    simp only
    constructor
    · intro h; cases h
    · rintro ⟨_, _, _, h⟩
      rcases h with ⟨_, h, _⟩ | h <;> cases h

theorem contains_iff {d : Discretizer} {a : List Int} : d.contains a = true ↔ a.length = d.nvec.length ∧
    ∀ (i : Nat) (k n : Int), a[i]? = some k → d.nvec[i]? = some n → 0 ≤ k ∧ k < n := by
  unfold Discretizer.contains
  simp only [Bool.and_eq_true, beq_iff_eq, List.all_eq_true, decide_eq_true_eq]
  refine and_congr_right (fun _ => ?_)
  constructor
  · intro h i k n hk hn
    exact h (k, n) (List.mem_of_getElem? (i := i) (by rw [List.getElem?_zip_eq_some]; exact ⟨hk, hn⟩))
  · intro h p hp
    obtain ⟨i, hi⟩ := List.mem_iff_getElem?.1 hp
    rw [List.getElem?_zip_eq_some] at hi
    exact h i p.1 p.2 hi.1 hi.2

theorem discreteToBox_get {d : Discretizer} {a : List Int} {u : List ℝ} {i : Nat} {lo hi w : ℝ} {n k : Int}
    (h1 : d.box.low[i]? = some lo) (h2 : d.box.high[i]? = some hi) (h3 : d.nvec[i]? = some n) (h4 : a[i]? = some k) (h5 : u[i]? = some w) :
    (d.discreteToBox a u)[i]? = some (toBox lo hi n k w) := by
  unfold Discretizer.discreteToBox
  rw [List.getElem?_zipWith]
  have e1 : (d.box.low.zip d.box.high)[i]? = some (lo, hi) := List.getElem?_zip_eq_some.2 ⟨h1, h2⟩
  have e2 : (a.zip (d.nvec.zip u))[i]? = some (k, (n, w)) := List.getElem?_zip_eq_some.2 ⟨h4, List.getElem?_zip_eq_some.2 ⟨h3, h5⟩⟩
  rw [e1, e2]

/-- C40.  Every discrete action in the action space is passed on as a point of the Box, of the right size; each coordinate
lies in the bin its discrete value names, whatever the random draws in `[0, 1)`. -/
theorem C40_in_bin {b : Box} {nb : NumBins} {d : Discretizer} (hb : b.Valid) (hsz : 0 < b.size) (hd : init b nb = .ok d) {a : List Int}
    (ha : d.contains a = true) {u : List ℝ} (hu : u.length = b.size) (hu01 : ∀ w ∈ u, 0 ≤ w ∧ w < 1) :
    ∃ y, d.step a u = .ok y ∧ y.length = b.size ∧
      ∀ (i : Nat) (lo hi : ℝ) (n k : Int), b.low[i]? = some lo → b.high[i]? = some hi → d.nvec[i]? = some n → a[i]? = some k →
        ∃ x, y[i]? = some x ∧ x ∈ bin lo hi n k ∧ lo ≤ x ∧ x < hi := by
  obtain ⟨h1, h2, h3, _⟩ := (C40_accepts b nb hsz d).1 hd
  obtain ⟨hal, hak⟩ := contains_iff.1 ha
  refine ⟨d.discreteToBox a u, by unfold Discretizer.step; simp [ha], ?_, ?_⟩
  · unfold Discretizer.discreteToBox
    have := hb.1
    simp only [List.length_zipWith, List.length_zip, h1]
    unfold Box.size at *
    omega
  · intro i lo hi n k hlo hhi hn hk
    have hi' : i < u.length := by
      obtain ⟨h, _⟩ := List.getElem?_eq_some_iff.1 hlo
      rw [hu]; exact h
    have hw := List.getElem?_eq_getElem hi'
    refine ⟨_, discreteToBox_get (by rw [h1]; exact hlo) (by rw [h1]; exact hhi) hn hk hw, ?_⟩
    have hlt := hb.2 i lo hi hlo hhi
    have hk' := hak i k n hk hn
    have hm := toBox_mem_bin (a := k) (by omega : 0 < n) hlt (hu01 _ (List.getElem_mem hi'))
    exact ⟨hm, (bin_subset hlt hk' hm).1, (bin_subset hlt hk' hm).2⟩

/-- C40.  The bins of a coordinate tile `[low, high)`: every point lies in exactly one of them. -/
theorem C40_tiling {lo hi : ℝ} (hlt : lo < hi) {n : Int} (hn : 0 < n) (y : ℝ) :
    y ∈ Set.Ico lo hi ↔ ∃! a : Int, (0 ≤ a ∧ a < n) ∧ y ∈ bin lo hi n a := by
  constructor
  · intro hy
    obtain ⟨⟨a, u⟩, ⟨h1, h2, h3⟩, _⟩ := toBox_bijective hn hlt hy
    refine ⟨a, ⟨h1, h3 ▸ toBox_mem_bin hn hlt h2⟩, ?_⟩
    rintro a' ⟨_, hy'⟩
    have hy2 : y ∈ bin lo hi n a := h3 ▸ toBox_mem_bin hn hlt h2
    have hn' : (0 : ℝ) < n := by exact_mod_cast hn
    have hw : 0 < (hi - lo) / n := div_pos (by linarith) hn'
    have l1 : (a' : ℝ) < a + 1 := by
      by_contra hc
      have := mul_le_mul_of_nonneg_right (not_lt.1 hc) hw.le
      linarith [hy'.1, hy2.2]
    have l2 : (a : ℝ) < a' + 1 := by
      by_contra hc
      have := mul_le_mul_of_nonneg_right (not_lt.1 hc) hw.le
      linarith [hy'.2, hy2.1]
    have l1' : a' < a + 1 := by exact_mod_cast l1
    have l2' : a < a' + 1 := by exact_mod_cast l2
    omega
  · rintro ⟨a, ⟨h1, h2⟩, _⟩
    exact bin_subset hlt h1 h2

/-- C40.  Nothing is left out and nothing is hit twice: each point of `[low, high)` is produced by exactly one discrete value
and draw. -/
theorem C40_surjective {lo hi y : ℝ} {n : Int} (hn : 0 < n) (hlt : lo < hi) (hy : y ∈ Set.Ico lo hi) :
    ∃! p : Int × ℝ, (0 ≤ p.1 ∧ p.1 < n) ∧ (0 ≤ p.2 ∧ p.2 < 1) ∧ toBox lo hi n p.1 p.2 = y := toBox_bijective hn hlt hy

/-- C40.  An action outside the action space raises `AssertionError`. -/
theorem C40_rejects (d : Discretizer) (a : List Int) (u : List ℝ)
    (h : a.length ≠ d.nvec.length ∨ ∃ (i : Nat) (k n : Int), a[i]? = some k ∧ d.nvec[i]? = some n ∧ (k < 0 ∨ n ≤ k)) :
    d.step a u = .error .assertionError := by
  have : d.contains a ≠ true := by
    intro hc
    obtain ⟨h1, h2⟩ := contains_iff.1 hc
    rcases h with h | ⟨i, k, n, hk, hn, h⟩
    · exact h h1
    · have := h2 i k n hk hn; omega
  unfold Discretizer.step
  rw [if_pos this]

/-! ### `BoxActionsToReals` -/

theorem compactify_get {b : Box} {a : List ℝ} {i : Nat} {lo hi x : ℝ} (h1 : b.low[i]? = some lo) (h2 : b.high[i]? = some hi) (h3 : a[i]? = some x) :
    (b.compactify a)[i]? = some (compact lo hi x) := by
  unfold Box.compactify
  rw [List.getElem?_zipWith, show (b.low.zip b.high)[i]? = some (lo, hi) from List.getElem?_zip_eq_some.2 ⟨h1, h2⟩, h3]

/-- C40.  Every accepted real action is passed on as a point strictly inside the Box, namely `low + (high - low)·sigmoid(a)`. -/
theorem C40_reals_inside {b : Box} (hb : b.Valid) {a y : List ℝ} (h : b.stepReals a = .ok y) :
    y.length = b.size ∧ ∀ (i : Nat) (lo hi x : ℝ), b.low[i]? = some lo → b.high[i]? = some hi → a[i]? = some x →
      ∃ z, y[i]? = some z ∧ z = lo + (hi - lo) * (1 + Real.exp (-x))⁻¹ ∧ lo < z ∧ z < hi := by
  unfold Box.stepReals at h
  split at h
  · cases h
  · rename_i hc
    rw [not_not] at hc
    cases h
    refine ⟨?_, ?_⟩
    · have := hb.1
      simp only [Box.compactify, List.length_zipWith, List.length_zip]
      have := hc.1
      unfold Box.size at *
      omega
    · intro i lo hi x h1 h2 h3
      refine ⟨_, compactify_get h1 h2 h3, ?_⟩
      have hlt := hb.2 i lo hi h1 h2
      have hx := hc.2 x (List.mem_of_getElem? h3)
      have e : clip15 x = x := by unfold clip15; rw [max_eq_left hx.1, min_eq_left hx.2]
      unfold compact
      rw [e]
      have p1 := Real.sigmoid_pos x
      have p2 := Real.sigmoid_lt_one x
      refine ⟨by rw [Real.sigmoid_def], ?_, ?_⟩
      · nlinarith
      · nlinarith

/-- C40.  Exactly the vectors of the right size with entries in `[-1e15, 1e15]` are accepted. -/
theorem C40_reals_accepts (b : Box) (a : List ℝ) :
    (∃ y, b.stepReals a = .ok y) ↔ a.length = b.size ∧ ∀ x ∈ a, -(10 : ℝ) ^ 15 ≤ x ∧ x ≤ (10 : ℝ) ^ 15 := by
  unfold Box.stepReals
  split
  · rename_i h
    refine ⟨?_, fun hc => absurd hc h⟩
    rintro ⟨_, hc⟩
    cases hc
  · rename_i h
    rw [not_not] at h
    exact ⟨fun _ => h, fun _ => ⟨_, rfl⟩⟩

/-- C40.  Each coordinate is strictly increasing in the real action (on the action space). -/
theorem C40_reals_monotone {lo hi : ℝ} (hlt : lo < hi) : StrictMonoOn (compact lo hi) (Set.Icc (-(10 : ℝ) ^ 15) ((10 : ℝ) ^ 15)) := by
  intro x hx y hy hxy
  have e : ∀ z ∈ Set.Icc (-(10 : ℝ) ^ 15) ((10 : ℝ) ^ 15), clip15 z = z := by
    intro z hz; unfold clip15; rw [max_eq_left hz.1, min_eq_left hz.2]
  unfold compact
  rw [e x hx, e y hy]
  have := Real.sigmoid_strictMono hxy
  nlinarith

/-- C40.  Every point of the open interval whose preimage is in the action space is reached; the preimage is
`log((y - low) / (high - y))`. -/
theorem C40_reals_surjective {lo hi y : ℝ} (hy : lo < y ∧ y < hi)
    (hx : Real.log ((y - lo) / (hi - y)) ∈ Set.Icc (-(10 : ℝ) ^ 15) ((10 : ℝ) ^ 15)) :
    compact lo hi (Real.log ((y - lo) / (hi - y))) = y := by
  unfold compact clip15
  rw [max_eq_left hx.1, min_eq_left hx.2, Real.sigmoid_def, Real.exp_neg, Real.exp_log (div_pos (by linarith) (by linarith))]
  have h1 : y - lo ≠ 0 := by linarith
  have h2 : hi - y ≠ 0 := by linarith
  have h3 : hi - lo ≠ 0 := by linarith
  rw [inv_div]
  have : 1 + (hi - y) / (y - lo) = (hi - lo) / (y - lo) := by field_simp; ring
  rw [this, inv_div]
  field_simp
  ring

/-- The interval `[0, 10)` with five bins. -/
example : init ⟨[0, -1], [10, 1]⟩ (.tuple [5, 2]) = .ok ⟨⟨[0, -1], [10, 1]⟩, [5, 2]⟩ := by rfl

example : Box.Valid ⟨[0, -1], [10, 1]⟩ := by
  refine ⟨rfl, ?_⟩
  intro i lo hi h1 h2
  match i, h1, h2 with
  | 0, h1, h2 => cases h1; cases h2; norm_num
  | 1, h1, h2 => cases h1; cases h2; norm_num
  | i + 2, h1, h2 => simp at h1

example : (⟨⟨[0, -1], [10, 1]⟩, [5, 2]⟩ : Discretizer).contains [4, 1] = true := by decide

end Coax.BoxSpaces
