import Verif.SegmentTree.InverseCdf
import Verif.SegmentTree.FloatLemmas

/-! The sum tree with rounded operations. -/

namespace Coax.SegmentTree

variable {K : Type _} [Field K] [LinearOrder K] [IsStrictOrderedRing K]

/-- What is used of a rounding function: on non-negative numbers it is monotone and idempotent, and its relative error
is at most `ε`. -/
structure Rounding (ε : K) (rnd : K → K) : Prop where
  zero : rnd 0 = 0
  mono : ∀ {x y}, 0 ≤ x → x ≤ y → rnd x ≤ rnd y
  idem : ∀ {x}, 0 ≤ x → rnd (rnd x) = rnd x
  err : ∀ {x}, 0 ≤ x → |rnd x - x| ≤ ε * rnd x

theorem Rounding.nonneg {ε : K} {rnd : K → K} (h : Rounding ε rnd) {x : K} (hx : 0 ≤ x) : 0 ≤ rnd x := by
  have := h.mono le_rfl hx; rwa [h.zero] at this

theorem fl_rounding [FloorRing K] {p : Nat} (hp : 0 < p) : Rounding ((2 ^ p)⁻¹ : K) (fl p) :=
  ⟨fl_zero p, fun h0 h => fl_mono hp h0 h, fun h => fl_idem hp h, fun h => fl_err hp h⟩

variable {cap : Nat} {t : Tree K} {rnd : K → K} {ε : K}

/-- Pairwise summation with rounded additions (missing entries count as zero). -/
def pairwiseSum (rnd : K → K) : Nat → List K → K
  | 0, xs => xs.headD 0
  | n + 1, xs => rnd (pairwiseSum rnd n (xs.take (2 ^ n)) + pairwiseSum rnd n (xs.drop (2 ^ n)))

theorem pairwiseSum_congr : ∀ (n : Nat) {xs ys : List K}, (∀ i : Nat, xs[i]?.getD 0 = ys[i]?.getD 0) →
    pairwiseSum rnd n xs = pairwiseSum rnd n ys
  | 0, xs, ys, h => by
    have := h 0
    cases xs <;> cases ys <;> simpa [pairwiseSum] using this
  | n + 1, xs, ys, h => by
    unfold pairwiseSum
    rw [pairwiseSum_congr n (xs := xs.take (2 ^ n)) (ys := ys.take (2 ^ n)), pairwiseSum_congr n
      (xs := xs.drop (2 ^ n)) (ys := ys.drop (2 ^ n))]
    · intro i; simpa using h (2 ^ n + i)
    · intro i
      rw [List.getElem?_take, List.getElem?_take]
      split_ifs
      · exact h i
      · rfl

theorem pairwiseSum_nonneg (hr : Rounding ε rnd) : ∀ (n : Nat) {xs : List K}, (∀ x ∈ xs, 0 ≤ x) →
    0 ≤ pairwiseSum rnd n xs
  | 0, xs, h => by cases xs <;> simp_all [pairwiseSum]
  | n + 1, xs, h => by
    unfold pairwiseSum
    exact hr.nonneg (add_nonneg (pairwiseSum_nonneg hr n fun x hx => h x (List.mem_of_mem_take hx))
      (pairwiseSum_nonneg hr n fun x hx => h x (List.mem_of_mem_drop hx)))

theorem pairwiseSum_fix (hr : Rounding ε rnd) : ∀ (n : Nat) {xs : List K}, (∀ x ∈ xs, 0 ≤ x) →
    (∀ x ∈ xs, rnd x = x) → rnd (pairwiseSum rnd n xs) = pairwiseSum rnd n xs
  | 0, xs, _, h => by cases xs <;> simp_all [pairwiseSum, hr.zero]
  | n + 1, xs, h, _ => by
    unfold pairwiseSum
    exact hr.idem (add_nonneg (pairwiseSum_nonneg hr n fun x hx => h x (List.mem_of_mem_take hx))
      (pairwiseSum_nonneg hr n fun x hx => h x (List.mem_of_mem_drop hx)))

/-- The relative error of the pairwise sum. -/
theorem pairwiseSum_err (hr : Rounding ε rnd) (h0 : 0 ≤ ε) (h1 : ε ≤ 1) : ∀ (n : Nat) {xs : List K}, (∀ x ∈ xs, 0 ≤ x) →
    xs.length ≤ 2 ^ n →
    (1 - ε) ^ n * pairwiseSum rnd n xs ≤ xs.sum ∧ xs.sum ≤ (1 + ε) ^ n * pairwiseSum rnd n xs
  | 0, xs, _, hl => by
    match xs, hl with
    | [], _ => simp [pairwiseSum]
    | [x], _ => simp [pairwiseSum]
  | n + 1, xs, h, hl => by
    have hA : ∀ x ∈ xs.take (2 ^ n), 0 ≤ x := fun x hx => h x (List.mem_of_mem_take hx)
    have hB : ∀ x ∈ xs.drop (2 ^ n), 0 ≤ x := fun x hx => h x (List.mem_of_mem_drop hx)
    have ha := pairwiseSum_err hr h0 h1 n hA (by simp)
    have hb := pairwiseSum_err hr h0 h1 n hB (by rw [List.length_drop]; rw [Nat.pow_succ] at hl; omega)
    have hs : xs.sum = (xs.take (2 ^ n)).sum + (xs.drop (2 ^ n)).sum := (List.sum_take_add_sum_drop _ _).symm
    have na := pairwiseSum_nonneg hr n hA
    have nb := pairwiseSum_nonneg hr n hB
    have he := hr.err (add_nonneg na nb)
    rw [abs_le] at he
    have hN : pairwiseSum rnd (n + 1) xs =
      rnd (pairwiseSum rnd n (xs.take (2 ^ n)) + pairwiseSum rnd n (xs.drop (2 ^ n))) := rfl
    rw [hN]
    set l := pairwiseSum rnd n (xs.take (2 ^ n))
    set r := pairwiseSum rnd n (xs.drop (2 ^ n))
    set N := rnd (l + r)
    have p1 : 0 ≤ (1 - ε) ^ n := pow_nonneg (by linarith) n
    have p2 : 0 ≤ (1 + ε) ^ n := pow_nonneg (by linarith) n
    rw [hs]
    constructor
    · calc (1 - ε) ^ (n + 1) * N = (1 - ε) ^ n * ((1 - ε) * N) := by ring
        _ ≤ (1 - ε) ^ n * (l + r) := mul_le_mul_of_nonneg_left (by linarith) p1
        _ ≤ _ := by linarith
    · calc _ ≤ (1 + ε) ^ n * (l + r) := by linarith
        _ ≤ (1 + ε) ^ n * ((1 + ε) * N) := mul_le_mul_of_nonneg_left (by linarith) p2
        _ = (1 + ε) ^ (n + 1) * N := by ring

/-- `1 - (1 - ε)^n ≤ (1 + ε)^n - 1`. -/
theorem one_sub_pow_le (h0 : 0 ≤ ε) (h1 : ε ≤ 1) : ∀ n : Nat, 2 ≤ (1 - ε) ^ n + (1 + ε) ^ n
  | 0 => by norm_num
  | n + 1 => by
    have ih := one_sub_pow_le h0 h1 n
    have h2 : (1 - ε) ^ n ≤ (1 + ε) ^ n := pow_le_pow_left₀ (by linarith) (by linarith) n
    rw [pow_succ, pow_succ]
    nlinarith

/-- Value of a node. -/
theorem Inv.node_pairwise (h : Inv cap (fun a b => rnd (a + b)) 0 t) :
    ∀ (d lev k : Nat), lev + d + 1 = t.height → k < 2 ^ lev →
      t.arr[2 ^ lev - 1 + k]? = some (pairwiseSum rnd d (slice t.leaves (k * 2 ^ d) ((k + 1) * 2 ^ d)))
  | 0, lev, k, hl, hk => by
    have hlev : t.height - 1 = lev := by omega
    have hlt : 2 ^ lev - 1 + k < t.arr.length := by
      rw [h.len]; exact node_lt (by omega) hk
    have h1 : t.leaves[k]? = some t.arr[2 ^ lev - 1 + k] := by
      rw [leaves_get, hlev]; simp [hlt]
    simp only [Nat.pow_zero, Nat.mul_one]
    rw [slice_single h1]
    simp [pairwiseSum, hlt]
  | d + 1, lev, k, hl, hk => by
    obtain ⟨a, b, ha, hb, hab⟩ := h.node lev (by omega) k hk
    have h0 : 2 * k < 2 ^ (lev + 1) := by rw [Nat.pow_succ]; omega
    have h1 : 2 * k + 1 < 2 ^ (lev + 1) := by rw [Nat.pow_succ]; omega
    have ea := h.node_pairwise d (lev + 1) (2 * k) (by omega) h0
    have eb := h.node_pairwise d (lev + 1) (2 * k + 1) (by omega) h1
    rw [ha] at ea
    rw [← Nat.add_assoc, hb] at eb
    simp only [Option.some.injEq] at ea eb
    rw [hab, ea, eb]
    have e1 : k * 2 ^ (d + 1) = 2 * k * 2 ^ d := by rw [Nat.pow_succ]; ring
    have e2 : (k + 1) * 2 ^ (d + 1) = (2 * k + 1 + 1) * 2 ^ d := by rw [Nat.pow_succ]; ring
    have e3 : (2 * k + 1) * 2 ^ d = 2 * k * 2 ^ d + 2 ^ d := by ring
    have e4 : (2 * k + 1 + 1) * 2 ^ d = 2 * k * 2 ^ d + 2 ^ d + 2 ^ d := by ring
    conv_rhs => rw [pairwiseSum]
    rw [e1, e2, e3, e4]
    congr 4
    · unfold slice
      rw [List.take_drop, List.take_take]
      congr 2
      generalize 2 ^ d = z
      generalize 2 * k * z = y
      omega
    · unfold slice
      rw [List.drop_drop]

omit [Field K] [LinearOrder K] [IsStrictOrderedRing K] in
theorem slice_mem {xs : List K} {s e : Nat} {x : K} (h : x ∈ slice xs s e) : x ∈ xs :=
  List.mem_of_mem_take (List.mem_of_mem_drop h)

theorem slice_sum (xs : List K) {s e : Nat} (h : s ≤ e) : (slice xs s e).sum = cumsum xs e - cumsum xs s := by
  rw [← sum_slice xs h, reduce_add_eq_sum]

/-- What is known of the node at `(lev, k)`. -/
theorem Inv.node_facts (h : Inv cap (fun a b => rnd (a + b)) 0 t) (hr : Rounding ε rnd) (h0 : 0 ≤ ε) (h1 : ε ≤ 1)
    (hnn : ∀ x ∈ t.leaves, 0 ≤ x) (hfix : ∀ x ∈ t.leaves, rnd x = x) {d lev k : Nat} (hl : lev + d + 1 = t.height)
    (hk : k < 2 ^ lev) :
    ∃ N, t.arr[2 ^ lev - 1 + k]? = some N ∧ 0 ≤ N ∧ rnd N = N ∧
      |cumsum t.leaves ((k + 1) * 2 ^ d) - cumsum t.leaves (k * 2 ^ d) - N| ≤ ((1 + ε) ^ (t.height - 1) - 1) * N := by
  have hn : ∀ x ∈ slice t.leaves (k * 2 ^ d) ((k + 1) * 2 ^ d), 0 ≤ x := fun x hx => hnn x (slice_mem hx)
  have hN := pairwiseSum_nonneg hr d hn
  refine ⟨_, h.node_pairwise d lev k hl hk, hN, pairwiseSum_fix hr d hn (fun x hx => hfix x (slice_mem hx)), ?_⟩
  obtain ⟨lo, hi⟩ := pairwiseSum_err hr h0 h1 d hn (by
    unfold slice
    simp only [List.length_drop, List.length_take, Nat.add_mul, Nat.one_mul]
    generalize 2 ^ d = z
    generalize k * z = y
    omega)
  rw [slice_sum _ (Nat.mul_le_mul_right _ (by omega))] at lo hi
  have e1 : (1 + ε) ^ d ≤ (1 + ε) ^ (t.height - 1) := pow_le_pow_right₀ (by linarith) (by omega)
  have e2 := one_sub_pow_le h0 h1 d
  rw [abs_le]
  constructor <;> nlinarith

theorem left_arith {v c n d η x c' : K} (hd0 : 0 ≤ d) (hη0 : 0 ≤ η) (hx : 0 ≤ x)
    (lo : c ≤ v + n * d + η * (v + n * d)) (hi : v ≤ c' + 0 + 3 * n * d + η * (v + n * d)) :
    c ≤ v + (n + 1) * d + η * (v + (n + 1) * d) ∧ v ≤ c' + x + 3 * (n + 1) * d + η * (v + (n + 1) * d) := by
  have := mul_nonneg hη0 hd0
  constructor <;> linarith

theorem right_arith {v v' l c s m n d η x c' : K} (hη0 : 0 ≤ η) (hv : v' ≤ v - l + d)
    (hv2 : v - l - d ≤ v') (hL : m - s ≤ l + η * l) (hL2 : l - η * l ≤ m - s)
    (lo : c - m ≤ v' + n * d + η * (v' + n * d))
    (hi : v' ≤ c' - m + (x + 2 * d) + 3 * n * d + η * (v' + n * d)) :
    c - s ≤ v + (n + 1) * d + η * (v + (n + 1) * d) ∧ v ≤ c' - s + x + 3 * (n + 1) * d + η * (v + (n + 1) * d) := by
  have := mul_le_mul_of_nonneg_left (show l + v' ≤ v + d by linarith) hη0
  constructor <;> linarith

/-- The descent.  `R` bounds the node and the remaining value, `x` is by how much the value exceeds the node. -/
theorem Inv.descendR_ok (h : Inv cap (fun a b => rnd (a + b)) 0 t) (hr : Rounding ε rnd) (h0 : 0 ≤ ε) (h1 : ε ≤ 1)
    (hnn : ∀ x ∈ t.leaves, 0 ≤ x) (hfix : ∀ x ∈ t.leaves, rnd x = x) {R d η : K} (hd : d = ε * R)
    (hη : η = (1 + ε) ^ (t.height - 1) - 1) (hη0 : 0 ≤ η) (hd0 : 0 ≤ d) :
    ∀ (n lev k : Nat) (v x N : K), lev + n + 1 = t.height → k < 2 ^ lev → t.arr[2 ^ lev - 1 + k]? = some N →
      rnd v = v → 0 ≤ v → v ≤ R → N ≤ R → 0 ≤ x → v ≤ N + x →
      ∃ i, descendR rnd t.arr n (lev + 1) (2 ^ lev - 1) (2 ^ lev - 1 + k) v = .ok i ∧ i < 2 ^ (t.height - 1) ∧
        cumsum t.leaves i - cumsum t.leaves (k * 2 ^ n) ≤ v + n * d + η * (v + n * d) ∧
        v ≤ cumsum t.leaves (i + 1) - cumsum t.leaves (k * 2 ^ n) + x + 3 * n * d + η * (v + n * d)
  | 0, lev, k, v, x, N, hl, hk, hN, hv, hv0, hvR, hNR, hx, hle => by
    have hlev : t.height - 1 = lev := by omega
    refine ⟨k, by simp [descendR], by rw [hlev]; exact hk, ?_, ?_⟩
    · simp only [pow_zero, mul_one, sub_self, Nat.cast_zero, zero_mul, add_zero]
      have := mul_nonneg hη0 hv0
      linarith
    · have hlf : t.leaves[k]? = some N := by rw [leaves_get, hlev]; exact hN
      rw [cumsum_succ hlf]
      simp only [pow_zero, mul_one, Nat.cast_zero, zero_mul, add_zero, mul_zero]
      have := mul_nonneg hη0 hv0
      linarith
  | n + 1, lev, k, v, x, N, hl, hk, hN, hv, hv0, hvR, hNR, hx, hle => by
    have hk0 : 2 * k < 2 ^ (lev + 1) := by rw [Nat.pow_succ]; omega
    have hk1 : 2 * k + 1 < 2 ^ (lev + 1) := by rw [Nat.pow_succ]; omega
    obtain ⟨l, el, hl0, hlf, hle'⟩ := h.node_facts hr h0 h1 hnn hfix (d := n) (lev := lev + 1) (k := 2 * k) (by omega) hk0
    obtain ⟨r, er, hr0, hrf, hre⟩ := h.node_facts hr h0 h1 hnn hfix (d := n) (lev := lev + 1) (k := 2 * k + 1)
      (by omega) hk1
    obtain ⟨l', r', el', er', eN⟩ := h.node lev (by omega) k hk
    rw [el] at el'
    rw [← Nat.add_assoc] at er
    rw [er] at er'
    obtain rfl := Option.some.inj el'
    obtain rfl := Option.some.inj er'
    rw [hN] at eN
    have hNeq : N = rnd (l + r) := Option.some.inj eN
    have e1 : k * 2 ^ (n + 1) = 2 * k * 2 ^ n := by rw [Nat.pow_succ]; ring
    have hlN : l ≤ N := by rw [hNeq, ← hlf]; rw [hlf]; exact hlf ▸ hr.mono hl0 (by linarith)
    have hrN : r ≤ N := by rw [hNeq, ← hrf]; rw [hrf]; exact hrf ▸ hr.mono hr0 (by linarith)
    have hNerr := hr.err (add_nonneg hl0 hr0)
    rw [← hNeq] at hNerr
    have hNd : |N - (l + r)| ≤ d := hNerr.trans (by rw [hd]; exact mul_le_mul_of_nonneg_left hNR h0)
    rw [abs_le] at hNd
    rw [← hη] at hle'
    rw [abs_le] at hle'
    have eidx : (2 ^ lev - 1 + k - (2 ^ lev - 1)) * 2 + (2 ^ (lev + 1) - 1) = 2 ^ (lev + 1) - 1 + 2 * k := by omega
    simp only [descendR, eidx, readAt_of_some el]
    simp only [bind, Except.bind]
    push_cast
    by_cases hlt : l > v
    · rw [if_pos hlt, e1]
      obtain ⟨i, ei, hi, lo, hi'⟩ := Inv.descendR_ok h hr h0 h1 hnn hfix hd hη hη0 hd0 n (lev + 1) (2 * k) v 0 l
        (by omega) hk0 el hv hv0 hvR (hlN.trans hNR) le_rfl (by linarith)
      exact ⟨i, ei, hi, left_arith hd0 hη0 hx lo hi'⟩
    · rw [if_neg hlt, Nat.add_assoc]
      have hvl : 0 ≤ v - l := by linarith
      have hv'0 := hr.nonneg hvl
      have hv'v : rnd (v - l) ≤ v := by
        have := hr.mono hvl (show v - l ≤ v by linarith); rwa [hv] at this
      have hverr : |rnd (v - l) - (v - l)| ≤ d := (hr.err hvl).trans (by
        rw [hd]; exact mul_le_mul_of_nonneg_left (hv'v.trans hvR) h0)
      rw [abs_le] at hverr
      obtain ⟨i, ei, hi, lo, hi'⟩ := Inv.descendR_ok h hr h0 h1 hnn hfix hd hη hη0 hd0 n (lev + 1) (2 * k + 1)
        (rnd (v - l)) (x + 2 * d) r (by omega) hk1 (by rw [← Nat.add_assoc]; exact er) (hr.idem hvl) hv'0
        (hv'v.trans hvR) (hrN.trans hNR) (by linarith) (by linarith)
      rw [e1]
      exact ⟨i, ei, hi, right_arith (l := l) hη0 (by linarith) (by linarith) (by linarith) (by linarith) lo hi'⟩

end Coax.SegmentTree
