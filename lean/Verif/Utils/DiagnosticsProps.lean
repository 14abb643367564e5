import Verif.Utils.Diagnostics
import Mathlib.Data.List.Forall2
import Mathlib.Algebra.Order.BigOperators.Group.List
import Mathlib.Tactic.Linarith
import Mathlib.Tactic.FieldSimp
import Mathlib.Tactic.Positivity

/-! Properties C96 (`double_relu`) and C97 (diagnostics of gradients). -/

namespace Coax.Utils

/-! ### C96 -/

/-- C96.  Each row has twice as many entries; entry `k` of the row is the sum of entries `k` and `n + k` of the result, of which at least one is zero, the first is not positive and the
second is not negative. -/
theorem C96_splits (arr : List (List ℝ)) (i : Nat) (x : List ℝ) (hx : arr[i]? = some x) : ∃ y, (doubleRelu arr)[i]? = some y ∧ y.length = 2 * x.length ∧
    ∀ k (hk : k < x.length), ∃ neg pos, y[k]? = some neg ∧ y[x.length + k]? = some pos ∧ neg + pos = x[k] ∧ neg ≤ 0 ∧ 0 ≤ pos ∧ (neg = 0 ∨ pos = 0) := by
  refine ⟨doubleReluRow x, by simp [doubleRelu, hx], by simp [doubleReluRow]; omega, fun k hk => ?_⟩
  refine ⟨-relu (-x[k]), relu x[k], ?_, ?_, ?_⟩
  · simp [doubleReluRow, List.getElem?_append, hk]
  · simp [doubleReluRow, List.getElem?_append, hk]
  · simp only [relu]
    rcases le_total x[k] 0 with h | h
    · rw [max_eq_right h, max_eq_left (by linarith)]
      exact ⟨by ring, by linarith, le_refl _, Or.inr rfl⟩
    · rw [max_eq_left h, max_eq_right (by linarith)]
      exact ⟨by ring, by linarith, h, Or.inl (by ring)⟩

/-- C96, "no signal is lost": the array can be recovered from the result. -/
theorem C96_injective : Function.Injective doubleRelu := by
  have hrow : Function.Injective doubleReluRow := by
    intro x y h
    have hl : x.length = y.length := by
      have := congrArg List.length h
      simp [doubleReluRow] at this
      omega
    obtain ⟨h1, h2⟩ := List.append_inj h (by simpa using hl)
    refine List.ext_getElem hl fun k hx hy => ?_
    have e1 : (x.map fun y => -relu (-y))[k]'(by simpa) = (y.map fun y => -relu (-y))[k]'(by simpa) := by simp only [h1]
    have e2 : (x.map relu)[k]'(by simpa) = (y.map relu)[k]'(by simpa) := by simp only [h2]
    simp only [List.getElem_map] at e1 e2
    have key : ∀ z : ℝ, z = -relu (-z) + relu z := by
      intro z
      simp only [relu]
      rcases le_total z 0 with h | h
      · rw [max_eq_right h, max_eq_left (by linarith)]; ring
      · rw [max_eq_left h, max_eq_right (by linarith)]; ring
    rw [key x[k], key y[k], e1, e2]
  exact hrow.list_map

/-- C96, the "amount of activation" is not doubled: the sum of the magnitudes of a row stays the same. -/
theorem C96_magnitude (x : List ℝ) : ((doubleReluRow x).map fun y => |y|).sum = (x.map fun y => |y|).sum := by
  induction x with
  | nil => simp [doubleReluRow]
  | cons a x ih =>
    simp only [doubleReluRow, List.map_append, List.sum_append, List.map_cons, List.sum_cons] at ih ⊢
    have : |-relu (-a)| + |relu a| = |a| := by
      simp only [relu]
      rcases le_total a 0 with h | h
      · rw [max_eq_right h, max_eq_left (by linarith)]; simp
      · rw [max_eq_left h, max_eq_right (by linarith)]; simp
    linarith

/-! ### C97 -/

theorem arrMax_ok {l : List ℝ} (h : l ≠ []) : ∃ m, arrMax l = .ok m ∧ m ∈ l ∧ ∀ x ∈ l, x ≤ m := by
  obtain ⟨a, l, rfl⟩ := List.exists_cons_of_ne_nil h
  refine ⟨_, rfl, ?_⟩
  clear h
  induction l generalizing a with
  | nil => simp
  | cons b l ih =>
    obtain ⟨h1, h2⟩ := ih (max a b)
    simp only [List.foldl_cons]
    constructor
    · rcases List.mem_cons.1 h1 with h | h
      · rw [h]
        rcases max_choice a b with e | e <;> rw [e] <;> simp
      · simp [h]
    · intro x hx
      have h3 := h2 (max a b) (by simp)
      rcases List.mem_cons.1 hx with rfl | hx
      · exact (le_max_left _ _).trans h3
      · rcases List.mem_cons.1 hx with rfl | hx
        · exact (le_max_right _ _).trans h3
        · exact h2 x (by simp [hx])

/-- C97, gradients.  If there is at least one entry, `max` is the greatest magnitude of all entries of all leaves, and the square of `norm` is the sum of all their squares; so
`max ≤ norm`, and `norm` is zero exactly if all gradients are. -/
theorem C97_grads {grads : List (List ℝ)} (h : grads.flatten ≠ []) : ∃ m nrm, gradsDiagnostics grads = .ok (m, nrm) ∧
    IsGreatest {y | ∃ leaf ∈ grads, ∃ x ∈ leaf, y = |x|} m ∧
    0 ≤ nrm ∧ nrm ^ 2 = (grads.map fun leaf => (leaf.map fun x => x ^ 2).sum).sum ∧ m ≤ nrm ∧
    (nrm = 0 ↔ ∀ leaf ∈ grads, ∀ x ∈ leaf, x = 0) := by
  have hg : grads ≠ [] := by rintro rfl; exact h rfl
  obtain ⟨m, h1, h2, h3⟩ := arrMax_ok (l := grads.flatten.map fun x => |x|) (by simpa using h)
  have hsum0 : ∀ l : List ℝ, 0 ≤ (l.map fun x => x ^ 2).sum := fun l => List.sum_nonneg (by simp only [List.mem_map]; rintro _ ⟨x, _, rfl⟩; positivity)
  have hmem : ∀ l : List ℝ, ∀ x ∈ l, x ^ 2 ≤ (l.map fun x => x ^ 2).sum := fun l x hx =>
    List.single_le_sum (by simp only [List.mem_map]; rintro _ ⟨x, _, rfl⟩; positivity) _ (List.mem_map.2 ⟨x, hx, rfl⟩)
  refine ⟨m, Real.sqrt (grads.flatten.map fun x => x ^ 2).sum, ?_, ⟨?_, ?_⟩, Real.sqrt_nonneg _, ?_, ?_, ?_⟩
  · simp only [gradsDiagnostics, treeRavel]
    rw [if_neg (by simpa using hg)]
    simp only [leafDiagnostics, h1]
    rfl
  · simp only [List.mem_map, List.mem_flatten] at h2
    obtain ⟨x, ⟨leaf, hl, hx⟩, rfl⟩ := h2
    exact ⟨leaf, hl, x, hx, rfl⟩
  · rintro y ⟨leaf, hl, x, hx, rfl⟩
    exact h3 _ (List.mem_map.2 ⟨x, List.mem_flatten.2 ⟨leaf, hl, hx⟩, rfl⟩)
  · rw [Real.sq_sqrt (hsum0 _), List.map_flatten, List.sum_flatten, List.map_map]
    rfl
  · obtain ⟨x, hx, rfl⟩ := List.mem_map.1 h2
    rw [← Real.sqrt_sq_eq_abs]
    exact Real.sqrt_le_sqrt (hmem _ x hx)
  · rw [Real.sqrt_eq_zero (hsum0 _)]
    constructor
    · intro h0 leaf hl x hx
      have := hmem _ x (List.mem_flatten.2 ⟨leaf, hl, hx⟩)
      rw [h0] at this
      exact pow_eq_zero_iff (two_ne_zero) |>.1 (le_antisymm this (sq_nonneg x))
    · intro h0
      have : grads.flatten.map (fun x => x ^ 2) = List.replicate grads.flatten.length 0 := by
        rw [List.eq_replicate_iff]
        refine ⟨List.length_map .., ?_⟩
        intro b hb
        obtain ⟨x, hx, rfl⟩ := List.mem_map.1 hb
        obtain ⟨leaf, hl, hx⟩ := List.mem_flatten.1 hx
        rw [h0 leaf hl x hx]; norm_num
      rw [this]; simp

/-- C97, with `keep_tree_structure=True`: the diagnostics of the whole are the greatest `max` of the leaves and the root of the sum of squares of their `norm`. -/
theorem C97_tree {grads : List (List ℝ)} (hg : grads ≠ []) (h : ∀ leaf ∈ grads, leaf ≠ []) : ∃ ds m nrm, gradsDiagnosticsTree grads = .ok ds ∧ gradsDiagnostics grads = .ok (m, nrm) ∧
    ds.length = grads.length ∧ m ∈ ds.map (·.1) ∧ (∀ d ∈ ds, d.1 ≤ m) ∧ nrm ^ 2 = (ds.map fun d => d.2 ^ 2).sum := by
  have hleaf : ∀ leaf ∈ grads, ∃ d, leafDiagnostics leaf = .ok d ∧ (d.1 ∈ leaf.map fun x => |x|) ∧ (∀ x ∈ leaf, |x| ≤ d.1) ∧ d.2 ^ 2 = (leaf.map fun x => x ^ 2).sum := by
    intro leaf hl
    obtain ⟨m, h1, h2, h3⟩ := arrMax_ok (l := leaf.map fun x => |x|) (by simpa using h leaf hl)
    refine ⟨(m, Real.sqrt (leaf.map fun x => x ^ 2).sum), by simp only [leafDiagnostics, h1]; rfl, h2, fun x hx => h3 _ (List.mem_map.2 ⟨x, hx, rfl⟩), ?_⟩
    exact Real.sq_sqrt (List.sum_nonneg (by simp only [List.mem_map]; rintro _ ⟨x, _, rfl⟩; positivity))
  obtain ⟨ds, h1, h2⟩ : ∃ ds, gradsDiagnosticsTree grads = .ok ds ∧
      List.Forall₂ (fun leaf d => (d.1 ∈ leaf.map fun x => |x|) ∧ (∀ x ∈ leaf, |x| ≤ d.1) ∧ d.2 ^ 2 = (leaf.map fun x => x ^ 2).sum) grads ds := by
    clear hg h
    simp only [gradsDiagnosticsTree]
    induction grads with
    | nil => exact ⟨[], rfl, .nil⟩
    | cons leaf grads ih =>
      obtain ⟨d, h1, h2⟩ := hleaf leaf (by simp)
      obtain ⟨ds, h3, h4⟩ := ih fun l hl => hleaf l (by simp [hl])
      exact ⟨d :: ds, by rw [List.mapM_cons, h1, h3]; rfl, .cons h2 h4⟩
  have hne : grads.flatten ≠ [] := by
    obtain ⟨l, ls, rfl⟩ := List.exists_cons_of_ne_nil hg
    have := h l (by simp)
    simp [this]
  obtain ⟨m, nrm, h3, h4, h6, h5, h7, h8⟩ := C97_grads hne
  have hle : ∀ d ∈ ds, ∃ leaf ∈ grads, (d.1 ∈ leaf.map fun x => |x|) := by
    intro d hd
    obtain ⟨i, hi, rfl⟩ := List.mem_iff_getElem.1 hd
    have hi' : i < grads.length := by rw [h2.length_eq]; exact hi
    exact ⟨grads[i], List.getElem_mem _, ((List.forall₂_iff_get.1 h2).2 i hi' hi).1⟩
  have hle2 : ∀ d ∈ ds, d.1 ≤ m := by
    intro d hd
    obtain ⟨leaf, hl, hm⟩ := hle d hd
    obtain ⟨x, hx, he⟩ := List.mem_map.1 hm
    exact h4.2 ⟨leaf, hl, x, hx, he.symm⟩
  refine ⟨ds, m, nrm, h1, h3, h2.length_eq.symm, ?_, hle2, ?_⟩
  · obtain ⟨leaf, hl, x, hx, rfl⟩ := h4.1
    obtain ⟨i, hi, rfl⟩ := List.mem_iff_getElem.1 hl
    have hi' : i < ds.length := by rw [← h2.length_eq]; exact hi
    have hd := (List.forall₂_iff_get.1 h2).2 i hi hi'
    refine List.mem_map.2 ⟨ds[i], List.getElem_mem _, le_antisymm (hle2 _ (List.getElem_mem _)) (hd.2.1 x hx)⟩
  · rw [h5]
    clear h8 h7 h6 h5 h4 h3 h1 hle hle2 hne hleaf hg h
    induction h2 with
    | nil => rfl
    | cons h1 _ ih => simp only [List.map_cons, List.sum_cons]; rw [ih, h1.2.2]

/-- A leaf without entries raises. -/
theorem C97_empty (grads : List (List ℝ)) (h : grads.flatten = []) : gradsDiagnostics grads = .error .valueError := by
  simp only [gradsDiagnostics, treeRavel]
  split
  · rename_i e he
    split at he
    · cases he; rfl
    · cases he
  · rename_i g hg
    split at hg
    · cases hg
    · cases hg
      rw [h]; rfl

/-! #### Quantiles -/

/-- `v` is a `q`-quantile of the numbers `l`: at least the fraction `q` of the `n - 1` steps from the least to the greatest lies below, and at least the fraction `1 - q` above. -/
structure IsQuantile (l : List ℝ) (q v : ℝ) : Prop where
  below : q * (l.length - 1) < l.countP (fun x => decide (x ≤ v))
  above : (1 - q) * (l.length - 1) < l.countP (fun x => decide (v ≤ x))

theorem getD_lt (l : List ℝ) (d : ℝ) {i : Nat} (h : i < l.length) : l.getD i d = l[i] := by simp [List.getD_eq_getElem?_getD, h]

/-- The sorted entries. -/
noncomputable def sorted (a : List ℝ) : List ℝ := a.mergeSort (fun x y => decide (x ≤ y))

theorem sorted_perm (a : List ℝ) : (sorted a).Perm a := List.mergeSort_perm _ _

theorem sorted_mono {a : List ℝ} {i j : Nat} (hij : i ≤ j) (hj : j < a.length) : (sorted a).getD i 0 ≤ (sorted a).getD j 0 := by
  have hl : (sorted a).length = a.length := (sorted_perm a).length_eq
  have hp : (sorted a).Pairwise fun x y => decide (x ≤ y) = true :=
    List.pairwise_mergeSort (fun x y z h1 h2 => by simp only [decide_eq_true_eq] at *; linarith) (fun x y => by simp only [Bool.or_eq_true, decide_eq_true_eq]; exact le_total x y) a
  rw [getD_lt _ _ (by omega), getD_lt _ _ (by omega)]
  rcases Nat.lt_or_eq_of_le hij with h | h
  · have := List.pairwise_iff_getElem.1 hp i j (by omega) (by omega) h
    simpa using this
  · subst h; exact le_refl _

/-- The interpolation at position `pos` between the sorted entries. -/
noncomputable def interp (a : List ℝ) (pos : ℝ) : ℝ := (sorted a).getD ⌊pos⌋₊ 0 * (1 - (pos - ⌊pos⌋₊)) + (sorted a).getD ⌈pos⌉₊ 0 * (pos - ⌊pos⌋₊)

theorem quantile_eq (a : List ℝ) (q : ℝ) : quantile a q = interp a (q * (a.length - 1 : ℝ)) := rfl

theorem ceil_lt {a : List ℝ} (ha : a ≠ []) {pos : ℝ} (h1 : pos ≤ a.length - 1) : ⌈pos⌉₊ < a.length := by
  have hn : 0 < a.length := List.length_pos_iff.2 ha
  have : ⌈pos⌉₊ ≤ a.length - 1 := Nat.ceil_le.2 (by rw [Nat.cast_sub (by omega)]; simpa using h1)
  omega

theorem interp_bounds {a : List ℝ} (ha : a ≠ []) {pos : ℝ} (h0 : 0 ≤ pos) (h1 : pos ≤ a.length - 1) :
    (sorted a).getD ⌊pos⌋₊ 0 ≤ interp a pos ∧ interp a pos ≤ (sorted a).getD ⌈pos⌉₊ 0 := by
  have hm := sorted_mono (a := a) (Nat.floor_le_ceil pos) (ceil_lt ha h1)
  have hw0 : 0 ≤ pos - ⌊pos⌋₊ := by linarith [Nat.floor_le h0]
  have hw1 : pos - ⌊pos⌋₊ ≤ 1 := by linarith [Nat.lt_floor_add_one pos]
  unfold interp
  constructor <;> nlinarith

theorem interp_mono {a : List ℝ} (ha : a ≠ []) {p r : ℝ} (h0 : 0 ≤ p) (hpr : p ≤ r) (h1 : r ≤ a.length - 1) : interp a p ≤ interp a r := by
  have hr0 : 0 ≤ r := h0.trans hpr
  have hb1 := interp_bounds ha h0 (hpr.trans h1)
  have hb2 := interp_bounds ha hr0 h1
  rcases Nat.lt_or_eq_of_le (Nat.floor_mono hpr) with h | h
  · have : ⌈p⌉₊ ≤ ⌊r⌋₊ := (Nat.ceil_le_floor_add_one p).trans h
    have hlt : ⌊r⌋₊ < a.length := lt_of_le_of_lt (Nat.floor_le_ceil r) (ceil_lt ha h1)
    exact hb1.2.trans ((sorted_mono this hlt).trans hb2.1)
  · by_cases hc : ⌈p⌉₊ = ⌈r⌉₊
    · have hm := sorted_mono (a := a) (Nat.floor_le_ceil r) (ceil_lt ha h1)
      unfold interp
      rw [h, hc]
      nlinarith
    · have hlt : ⌈p⌉₊ < ⌈r⌉₊ := lt_of_le_of_ne (Nat.ceil_mono hpr) hc
      have h3 : ⌈r⌉₊ ≤ ⌊p⌋₊ + 1 := by rw [h]; exact Nat.ceil_le_floor_add_one r
      have h4 : ⌈p⌉₊ = ⌊p⌋₊ := le_antisymm (by omega) (Nat.floor_le_ceil p)
      have : interp a p ≤ (sorted a).getD ⌊r⌋₊ 0 := by rw [← h, ← h4]; exact hb1.2
      exact this.trans hb2.1

theorem interp_spec {a : List ℝ} (ha : a ≠ []) {pos : ℝ} (h0 : 0 ≤ pos) (h1 : pos ≤ a.length - 1) :
    pos < a.countP (fun x => decide (x ≤ interp a pos)) ∧ a.length - 1 - pos < a.countP (fun x => decide (interp a pos ≤ x)) := by
  have hb := interp_bounds ha h0 h1
  have hc := ceil_lt ha h1
  have hl : (sorted a).length = a.length := (sorted_perm a).length_eq
  have hf : ⌊pos⌋₊ < a.length := lt_of_le_of_lt (Nat.floor_le_ceil pos) hc
  rw [← (sorted_perm a).countP_eq, ← (sorted_perm a).countP_eq]
  constructor
  · have hcnt : ⌊pos⌋₊ + 1 ≤ (sorted a).countP (fun x => decide (x ≤ interp a pos)) := by
      have e : ((sorted a).take (⌊pos⌋₊ + 1)).countP (fun x => decide (x ≤ interp a pos)) = ⌊pos⌋₊ + 1 := by
        rw [List.countP_eq_length.2]
        · rw [List.length_take]; omega
        · intro x hx
          obtain ⟨i, hi, rfl⟩ := List.mem_iff_getElem.1 hx
          rw [List.length_take] at hi
          have := sorted_mono (a := a) (i := i) (j := ⌊pos⌋₊) (by omega) hf
          rw [getD_lt _ _ (by omega)] at this
          simp only [List.getElem_take, decide_eq_true_eq]
          exact this.trans hb.1
      rw [← e]
      exact (List.take_sublist _ _).countP_le
    calc pos < ⌊pos⌋₊ + 1 := Nat.lt_floor_add_one pos
      _ ≤ _ := by exact_mod_cast hcnt
  · have hcnt : a.length - ⌈pos⌉₊ ≤ (sorted a).countP (fun x => decide (interp a pos ≤ x)) := by
      have e : ((sorted a).drop ⌈pos⌉₊).countP (fun x => decide (interp a pos ≤ x)) = a.length - ⌈pos⌉₊ := by
        rw [List.countP_eq_length.2]
        · rw [List.length_drop]; omega
        · intro x hx
          obtain ⟨i, hi, rfl⟩ := List.mem_iff_getElem.1 hx
          rw [List.length_drop] at hi
          have := sorted_mono (a := a) (i := ⌈pos⌉₊) (j := ⌈pos⌉₊ + i) (by omega) (by omega)
          rw [getD_lt _ _ (by omega : ⌈pos⌉₊ + i < (sorted a).length)] at this
          simp only [List.getElem_drop, decide_eq_true_eq]
          exact hb.2.trans this
      rw [← e]
      exact (List.drop_sublist _ _).countP_le
    have h2 : (⌈pos⌉₊ : ℝ) < pos + 1 := Nat.ceil_lt_add_one h0
    have h3 : ((a.length - ⌈pos⌉₊ : Nat) : ℝ) = a.length - ⌈pos⌉₊ := Nat.cast_sub (by omega)
    have h4 : ((a.length - ⌈pos⌉₊ : Nat) : ℝ) ≤ ((sorted a).countP (fun x => decide (interp a pos ≤ x)) : ℝ) := by exact_mod_cast hcnt
    linarith

theorem length_sub_one_nonneg {a : List ℝ} (ha : a ≠ []) : (0 : ℝ) ≤ a.length - 1 := by
  have : 1 ≤ a.length := List.length_pos_iff.2 ha
  have : (1 : ℝ) ≤ a.length := by exact_mod_cast this
  linarith

theorem quantile_mono {a : List ℝ} (ha : a ≠ []) {q r : ℝ} (h0 : 0 ≤ q) (hqr : q ≤ r) (h1 : r ≤ 1) : quantile a q ≤ quantile a r := by
  have hn := length_sub_one_nonneg ha
  rw [quantile_eq, quantile_eq]
  exact interp_mono ha (by positivity) (by nlinarith) (by nlinarith)

theorem quantile_spec {a : List ℝ} (ha : a ≠ []) {q : ℝ} (h0 : 0 ≤ q) (h1 : q ≤ 1) : IsQuantile a q (quantile a q) := by
  have hn := length_sub_one_nonneg ha
  have h := interp_spec ha (pos := q * (a.length - 1)) (by positivity) (by nlinarith)
  rw [quantile_eq]
  exact ⟨h.1, by linarith [h.2]⟩

theorem quantile_ends {a : List ℝ} (ha : a ≠ []) : IsLeast {x | x ∈ a} (quantile a 0) ∧ IsGreatest {x | x ∈ a} (quantile a 1) := by
  have hl : (sorted a).length = a.length := (sorted_perm a).length_eq
  have hn : 0 < a.length := List.length_pos_iff.2 ha
  have e0 : quantile a 0 = (sorted a)[0] := by
    rw [quantile_eq]
    simp only [interp, zero_mul, Nat.floor_zero, Nat.ceil_zero]
    rw [getD_lt _ _ (show 0 < (sorted a).length by omega)]
    simp
  have e1 : quantile a 1 = (sorted a)[a.length - 1] := by
    have : (1 : ℝ) * (a.length - 1) = ((a.length - 1 : Nat) : ℝ) := by rw [Nat.cast_sub (by omega)]; simp
    rw [quantile_eq, this]
    simp only [interp, Nat.floor_natCast, Nat.ceil_natCast]
    rw [getD_lt _ _ (by omega)]
    ring
  have key : ∀ x ∈ a, ∃ i, ∃ h : i < a.length, x = (sorted a).getD i 0 := by
    intro x hx
    obtain ⟨i, hi, rfl⟩ := List.mem_iff_getElem.1 ((sorted_perm a).mem_iff.2 hx)
    exact ⟨i, by omega, by rw [getD_lt _ _ hi]⟩
  refine ⟨⟨?_, ?_⟩, ⟨?_, ?_⟩⟩
  · rw [e0]; exact (sorted_perm a).mem_iff.1 (List.getElem_mem _)
  · intro x hx
    obtain ⟨i, hi, rfl⟩ := key x hx
    rw [e0, ← getD_lt _ 0 (by omega)]
    exact sorted_mono (by omega) hi
  · rw [e1]; exact (sorted_perm a).mem_iff.1 (List.getElem_mem _)
  · intro x hx
    obtain ⟨i, hi, rfl⟩ := key x hx
    rw [e1, ← getD_lt _ 0 (by omega)]
    exact sorted_mono (by omega) (by omega)

/-- C97, magnitudes.  The five numbers are quantiles of all magnitudes for the fractions 0, 1/4, 1/2, 3/4 and 1, in ascending order; the first is the least magnitude and the last the
greatest. -/
theorem C97_quantiles {leaves : List (List ℝ)} (h : leaves.flatten ≠ []) : ∃ mn p25 p50 p75 mx, magnitudeQuantiles leaves = .ok [mn, p25, p50, p75, mx] ∧
    mn ≤ p25 ∧ p25 ≤ p50 ∧ p50 ≤ p75 ∧ p75 ≤ mx ∧
    IsLeast {y | ∃ leaf ∈ leaves, ∃ x ∈ leaf, |x| = y} mn ∧ IsGreatest {y | ∃ leaf ∈ leaves, ∃ x ∈ leaf, |x| = y} mx ∧
    IsQuantile (leaves.flatten.map fun x => |x|) (1 / 4) p25 ∧ IsQuantile (leaves.flatten.map fun x => |x|) (1 / 2) p50 ∧ IsQuantile (leaves.flatten.map fun x => |x|) (3 / 4) p75 := by
  have hl : leaves ≠ [] := by rintro rfl; exact h rfl
  have ha : (leaves.flatten.map fun x => |x|) ≠ [] := by simpa using h
  have hset : {y | ∃ leaf ∈ leaves, ∃ x ∈ leaf, |x| = y} = {x | x ∈ leaves.flatten.map fun x => |x|} := by
    ext y
    simp only [Set.mem_ofPred_eq, List.mem_map, List.mem_flatten]
    constructor
    · rintro ⟨leaf, h1, x, h2, rfl⟩; exact ⟨x, ⟨leaf, h1, h2⟩, rfl⟩
    · rintro ⟨x, ⟨leaf, h1, h2⟩, rfl⟩; exact ⟨leaf, h1, x, h2, rfl⟩
  refine ⟨_, _, _, _, _, ?_, quantile_mono (q := 0) (r := 1 / 4) ha (by norm_num) (by norm_num) (by norm_num), quantile_mono (r := 1 / 2) ha (by norm_num) (by norm_num) (by norm_num),
    quantile_mono (r := 3 / 4) ha (by norm_num) (by norm_num) (by norm_num), quantile_mono (r := 1) ha (by norm_num) (by norm_num) (by norm_num), ?_, ?_, quantile_spec ha (by norm_num) (by norm_num),
    quantile_spec ha (by norm_num) (by norm_num), quantile_spec ha (by norm_num) (by norm_num)⟩
  · simp only [magnitudeQuantiles, treeRavel]
    rw [if_neg (by simpa using hl)]
    rfl
  · rw [hset]; exact (quantile_ends ha).1
  · rw [hset]; exact (quantile_ends ha).2

/-- A pytree with two leaves that meets the hypotheses. -/
example : ([[1, -2], [3]] : List (List ℝ)).flatten ≠ [] := by simp

end Coax.Utils
