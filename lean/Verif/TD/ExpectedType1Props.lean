import Verif.TD.TargetsProps
import Mathlib.Analysis.Convex.Jensen
import Mathlib.Analysis.Convex.StdSimplex

/-!
C46 for ExpectedSarsa with type-1 q-functions: the network is evaluated once, at the vector of the probabilities of the target policy, instead of once per action.
-/

namespace Coax.TD

open Coax.Core

variable {P σ : Type _}

/-- The probability of action `a` under the logits `l`. -/
noncomputable def probType1 (n : Nat) (l : Nat → ℝ) (a : Nat) : ℝ := Real.exp (l a) / ∑ c ∈ Finset.range n, Real.exp (l c)

/-- The expectation of the values `t` under the logits `l`. -/
noncomputable def expectationType1 (n : Nat) (l t : Nat → ℝ) : ℝ := ∑ a ∈ Finset.range n, probType1 n l a * t a

theorem softmax_range_type1 (n : Nat) (l : Nat → ℝ) : softmax ((List.range n).map l) = (List.range n).map (probType1 n l) := by
  unfold softmax
  rw [List.map_map, List.map_map, sum_map_range]
  rfl

theorem probType1_pos {n : Nat} (l : Nat → ℝ) {a : Nat} (ha : a < n) : 0 < probType1 n l a :=
  div_pos (Real.exp_pos _) (Finset.sum_pos (fun _ _ => Real.exp_pos _) ⟨a, by simpa using ha⟩)

theorem probType1_sum {n : Nat} (hn : 0 < n) (l : Nat → ℝ) : ∑ a ∈ Finset.range n, probType1 n l a = 1 := by
  have hpos : 0 < ∑ c ∈ Finset.range n, Real.exp (l c) := Finset.sum_pos (fun _ _ => Real.exp_pos _) ⟨0, by simpa using hn⟩
  unfold probType1
  rw [← Finset.sum_div, div_self hpos.ne']

/-- Any distribution without zeros comes from logits. -/
theorem prob_log {n : Nat} (w : Nat → ℝ) (hpos : ∀ a < n, 0 < w a) (hsum : ∑ a ∈ Finset.range n, w a = 1) {a : Nat} (ha : a < n) :
    probType1 n (fun a => Real.log (w a)) a = w a := by
  unfold probType1
  have : ∑ c ∈ Finset.range n, Real.exp (Real.log (w c)) = 1 := by
    rw [← hsum]
    exact Finset.sum_congr rfl (fun c hc => Real.exp_log (hpos c (by simpa using hc)))
  rw [this, div_one, Real.exp_log (hpos a ha)]

/-- What the target bootstraps with: the network at the probabilities. -/
theorem C46_expectedSarsa_type1 {n : Nat} {q qTarg : QFn P σ (List ℝ)} {b : TBatch σ (List ℝ)} (hb : WellFormed b) {l : σ → Nat → ℝ}
    {f : List σ → List (List ℝ) → List ℝ} {g : σ → List ℝ → ℝ} (hf : qTarg.forward qTarg.params = .type1 f) (hg : RowWise1 f g) :
    Bootstraps q.transform qTarg.inverse b (fun s x => x = g s ((List.range n).map (probType1 n (l s))))
      (expectedSarsa n (fun S => S.map (fun s => (List.range n).map (l s))) q qTarg b) := by
  unfold expectedSarsa functionType1
  rw [hf]
  simp only
  rw [hg _ _ (by simp)]
  have e : List.zipWith g b.S_next ((b.S_next.map (fun s => (List.range n).map (l s))).map softmax)
      = b.S_next.map (fun s => g s ((List.range n).map (probType1 n (l s)))) := by
    apply List.ext_getElem
    · simp
    · intro i h1 h2
      simp only [List.getElem_zipWith, List.getElem_map, softmax_range_type1]
  rw [e]
  exact bootstraps_backup hb _ (fun s _ => rfl)

/-- **C46** for type-1 q-functions without value transform: ExpectedSarsa bootstraps with the expectation, for all target policies and all batches, exactly if the network
is the weighted mean of its values at single actions wherever all weights are positive. -/
theorem C46_expectedSarsa_type1_iff {n : Nat} (hn : 0 < n) {q qTarg : QFn P σ (List ℝ)} {t : σ → Nat → ℝ}
    {f : List σ → List (List ℝ) → List ℝ} {g : σ → List ℝ → ℝ} (hf : qTarg.forward qTarg.params = .type1 f) (hg : RowWise1 f g)
    (hid : q.transform = id) (hinv : qTarg.inverse = id) :
    (∀ (l : σ → Nat → ℝ) (b : TBatch σ (List ℝ)), WellFormed b →
      Bootstraps q.transform qTarg.inverse b (fun s x => x = expectationType1 n (l s) (t s))
        (expectedSarsa n (fun S => S.map (fun s => (List.range n).map (l s))) q qTarg b)) ↔
    ∀ (s : σ) (w : Nat → ℝ), (∀ a < n, 0 < w a) → ∑ a ∈ Finset.range n, w a = 1 → g s ((List.range n).map w) = ∑ a ∈ Finset.range n, w a * t s a := by
  constructor
  · intro h s w hpos hsum
    let b : TBatch σ (List ℝ) := ⟨[0], [1], [s], []⟩
    have hb : WellFormed b := ⟨rfl, rfl⟩
    obtain ⟨G, hG, _, hrow⟩ := h (fun _ a => Real.log (w a)) b hb
    obtain ⟨G', hG', _, hrow'⟩ := C46_expectedSarsa_type1 (n := n) (q := q) (l := fun _ a => Real.log (w a)) hb hf hg
    rw [hG] at hG'
    cases hG'
    obtain ⟨x, hx, hgx⟩ := hrow 0 0 1 s rfl rfl rfl
    obtain ⟨y, hy, hgy⟩ := hrow' 0 0 1 s rfl rfl rfl
    rw [hgx] at hgy
    simp only [hid, hinv, id, one_mul, zero_add, Option.some.injEq] at hgy
    have hmap : (List.range n).map (probType1 n (fun a => Real.log (w a))) = (List.range n).map w :=
      List.map_congr_left (fun a ha => prob_log w hpos hsum (by simpa using ha))
    rw [hmap] at hy
    rw [← hy, ← hgy, hx]
    exact Finset.sum_congr rfl (fun a ha => by rw [prob_log w hpos hsum (by simpa using ha)])
  · intro h l b hb
    obtain ⟨G, hG, hlen, hrow⟩ := C46_expectedSarsa_type1 (n := n) (q := q) (l := l) hb hf hg
    refine ⟨G, hG, hlen, fun i r d s h1 h2 h3 => ?_⟩
    obtain ⟨x, hx, hgx⟩ := hrow i r d s h1 h2 h3
    exact ⟨x, by rw [hx, h s _ (fun a ha => probType1_pos _ ha) (probType1_sum hn _)]; rfl, hgx⟩

/-- The network at the probabilities is at most the expectation if the network is convex in the action, at least if it is concave. -/
theorem jensen {n : Nat} (hn : 0 < n) (g : List ℝ → ℝ) (t : Nat → ℝ) (ht : ∀ a < n, g (oneHot n a) = t a) (l : Nat → ℝ)
    (hconv : ConvexOn ℝ (stdSimplex ℝ (Fin n)) (fun w => g (List.ofFn w))) : g ((List.range n).map (probType1 n l)) ≤ expectationType1 n l t := by
  have hJ := hconv.map_sum_le (t := Finset.univ) (w := fun a : Fin n => probType1 n l a) (p := fun a : Fin n => Pi.single a (1 : ℝ))
    (fun a _ => (probType1_pos l a.2).le) (by rw [Fin.sum_univ_eq_sum_range (fun a => probType1 n l a)]; exact probType1_sum hn l)
    (fun a _ => single_mem_stdSimplex ℝ a)
  have h1 : List.ofFn (∑ a : Fin n, probType1 n l a • (Pi.single a (1 : ℝ) : Fin n → ℝ)) = (List.range n).map (probType1 n l) := by
    apply List.ext_getElem
    · simp
    · intro i h1 h2
      simp only [List.getElem_ofFn, List.getElem_map, List.getElem_range, Finset.sum_apply, Pi.smul_apply, smul_eq_mul]
      rw [Finset.sum_eq_single (⟨i, by simpa using h1⟩ : Fin n)]
      · simp
      · intro c _ hc
        rw [Pi.single_eq_of_ne (by exact fun h => hc h.symm), mul_zero]
      · simp
  have h2 : ∀ a : Fin n, g (List.ofFn (Pi.single a (1 : ℝ) : Fin n → ℝ)) = t a := by
    intro a
    rw [← ht a a.2]
    congr 1
    apply List.ext_getElem
    · simp [oneHot]
    · intro i h1 h2
      simp only [List.getElem_ofFn, oneHot, List.getElem_map, List.getElem_range, Pi.single_apply, Fin.ext_iff]
  simp only [h1, h2, smul_eq_mul] at hJ
  rw [Fin.sum_univ_eq_sum_range (fun a => probType1 n l a * t a)] at hJ
  exact hJ

/-- **C46** for type-1 q-functions: the value that ExpectedSarsa bootstraps with is at most the expectation if the network is convex in the action vector, and at least the
expectationType1 if it is concave. -/
theorem C46_expectedSarsa_type1_partial {n : Nat} (hn : 0 < n) {q qTarg : QFn P σ (List ℝ)} {b : TBatch σ (List ℝ)} (hb : WellFormed b) {t l : σ → Nat → ℝ}
    {f : List σ → List (List ℝ) → List ℝ} {g : σ → List ℝ → ℝ} (hf : qTarg.forward qTarg.params = .type1 f) (hg : RowWise1 f g)
    (ht : ∀ s, ∀ a < n, g s (oneHot n a) = t s a) :
    Bootstraps q.transform qTarg.inverse b
      (fun s x => (ConvexOn ℝ (stdSimplex ℝ (Fin n)) (fun w => g s (List.ofFn w)) → x ≤ expectationType1 n (l s) (t s)) ∧
        (ConcaveOn ℝ (stdSimplex ℝ (Fin n)) (fun w => g s (List.ofFn w)) → expectationType1 n (l s) (t s) ≤ x))
      (expectedSarsa n (fun S => S.map (fun s => (List.range n).map (l s))) q qTarg b) := by
  obtain ⟨G, hG, hlen, hrow⟩ := C46_expectedSarsa_type1 (n := n) (q := q) (l := l) hb hf hg
  refine ⟨G, hG, hlen, fun i r d s h1 h2 h3 => ?_⟩
  obtain ⟨x, hx, hgx⟩ := hrow i r d s h1 h2 h3
  refine ⟨x, ⟨fun hc => ?_, fun hc => ?_⟩, hgx⟩
  · rw [hx]; exact jensen hn _ _ (ht s) _ hc
  · have := jensen hn (fun w => -g s w) (fun a => -t s a) (fun a ha => by rw [ht s a ha]) (l s) hc.neg
    rw [hx]
    have e : expectationType1 n (l s) (fun a => -t s a) = -expectationType1 n (l s) (t s) := by simp [expectationType1]
    rw [e] at this
    linarith

/-- C46 fails for type-1 q-functions: with `q(s, A) = A₀² + A₁²` both actions have the value 1, so every expectation is 1, but the target for the uniform policy is ½. -/
theorem C46_expectedSarsa_counterexample : ∃ (q : QFn Unit Unit (List ℝ)) (b : TBatch Unit (List ℝ)) (t : Unit → Nat → ℝ), WellFormed b ∧ Computes 2 t (q.forward q.params) ∧
    q.transform = id ∧ q.inverse = id ∧ (∀ l, expectationType1 2 l (t ()) = 1) ∧ b.Rn = [0] ∧ b.In = [1] ∧
    expectedSarsa 2 (fun S => S.map (fun _ => (List.range 2).map (fun _ => 0))) q q b = .ok [1/2] := by
  let g : Unit → List ℝ → ℝ := fun _ A => (A.map (fun x => x * x)).sum
  let F : Func Unit (List ℝ) ℝ := .type1 (List.zipWith g)
  have hF : Computes 2 (fun (_ : Unit) _ => (1 : ℝ)) F := .type1 _ g (fun _ _ _ => rfl) (by
    intro s a ha
    rcases a with _ | _ | a
    · simp [g, oneHot, List.range_succ]
    · simp [g, oneHot, List.range_succ]
    · omega)
  refine ⟨⟨fun _ => F, (), id, id⟩, ⟨[0], [1], [()], [[0, 0]]⟩, fun _ _ => 1, ⟨rfl, rfl⟩, hF, rfl, rfl, ?_, rfl, rfl, ?_⟩
  · intro l
    simp only [expectationType1, mul_one]
    exact probType1_sum (by norm_num) l
  · norm_num [expectedSarsa, functionType1, F, g, softmax, backup, List.range_succ]

end Coax.TD
