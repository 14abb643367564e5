import Verif.TD.TargetsProps
import Mathlib.Topology.MetricSpace.Contracting
import Mathlib.Topology.MetricSpace.Pseudo.Pi
import Mathlib.Analysis.Normed.Ring.Lemmas

/-! Property C84: TD targets are contractions, so that exact fitted iteration converges to the solution of the Bellman equation. -/

namespace Coax.TD

open Coax.Core

variable {P σ α : Type _}

/-! ### One update -/

/-- Both targets are defined, and in each row they differ by at most `|In|` times `eps`. -/
def Contracts (b : TBatch σ α) (eps : ℝ) (target1 target2 : Except Err (List ℝ)) : Prop :=
  ∃ G1 G2, target1 = .ok G1 ∧ target2 = .ok G2 ∧ G1.length = b.S_next.length ∧ G2.length = b.S_next.length ∧
    ∀ (i : Nat) (d x y : ℝ), b.In[i]? = some d → G1[i]? = some x → G2[i]? = some y → |x - y| ≤ |d| * eps

theorem contracts_of_bootstraps {b : TBatch σ α} (hb : WellFormed b) {eps : ℝ} {spec1 spec2 : σ → ℝ → Prop} {target1 target2 : Except Err (List ℝ)}
    (h1 : Bootstraps id id b spec1 target1) (h2 : Bootstraps id id b spec2 target2) (h : ∀ s x y, spec1 s x → spec2 s y → |x - y| ≤ eps) : Contracts b eps target1 target2 := by
  obtain ⟨G1, e1, l1, g1⟩ := h1
  obtain ⟨G2, e2, l2, g2⟩ := h2
  refine ⟨G1, G2, e1, e2, l1, l2, ?_⟩
  intro i d x y hd hx hy
  have hi : i < b.S_next.length := by rw [← l1]; exact (List.getElem?_eq_some_iff.1 hx).1
  obtain ⟨r, hr⟩ : ∃ r, b.Rn[i]? = some r := ⟨_, List.getElem?_eq_getElem (by rw [hb.rn]; exact hi)⟩
  have hs : b.S_next[i]? = some b.S_next[i] := List.getElem?_eq_getElem _
  obtain ⟨u, hu, hu'⟩ := g1 i _ d _ hr hd hs
  obtain ⟨v, hv, hv'⟩ := g2 i _ d _ hr hd hs
  rw [hx] at hu'
  rw [hy] at hv'
  cases hu'
  cases hv'
  simp only [id]
  calc |r + d * u - (r + d * v)| = |d| * |u - v| := by rw [← abs_mul]; congr 1; ring
    _ ≤ |d| * eps := mul_le_mul_of_nonneg_left (h _ u v hu hv) (abs_nonneg d)

theorem isMaxOf_close {n : Nat} {p q : Nat → ℝ} {eps x y : ℝ} (h : ∀ a < n, |p a - q a| ≤ eps) (hx : IsMaxOf n p x) (hy : IsMaxOf n q y) : |x - y| ≤ eps := by
  obtain ⟨⟨a, ha, rfl⟩, hp⟩ := hx
  obtain ⟨⟨c, hc, rfl⟩, hq⟩ := hy
  have h1 := abs_le.1 (h a ha)
  have h2 := abs_le.1 (h c hc)
  have h3 := hp c hc
  have h4 := hq a ha
  exact abs_le.2 ⟨by linarith, by linarith⟩

/-- C84: QLearning. -/
theorem C84_qLearning {n : Nat} (hn : 0 < n) {q1 q2 : QFn P σ (List ℝ)} {b : TBatch σ (List ℝ)} (hb : WellFormed b) {t1 t2 : σ → Nat → ℝ}
    (h1 : Computes n t1 (q1.forward q1.params)) (h2 : Computes n t2 (q2.forward q2.params))
    (hs1 : TieSafe n t1 (q1.forward q1.params) b.S_next) (hs2 : TieSafe n t2 (q2.forward q2.params) b.S_next)
    (i1 : q1.transform = id) (i1' : q1.inverse = id) (i2 : q2.transform = id) (i2' : q2.inverse = id) {eps : ℝ} (h : ∀ s, ∀ a < n, |t1 s a - t2 s a| ≤ eps) :
    Contracts b eps (qLearning n q1 q1 b) (qLearning n q2 q2 b) := by
  have g1 := C46_qLearning_partial hn hb h1 rfl hs1
  have g2 := C46_qLearning_partial hn hb h2 rfl hs2
  rw [i1, i1'] at g1
  rw [i2, i2'] at g2
  exact contracts_of_bootstraps hb g1 g2 fun s x y hx hy => isMaxOf_close (h s) hx hy

/-- C84: SimpleTD. -/
theorem C84_simpleTD {v1 v2 : VFn P σ} {b : TBatch σ α} (hb : WellFormed b) {t1 t2 : σ → ℝ} (h1 : ∀ S, v1.forward v1.params S = S.map t1) (h2 : ∀ S, v2.forward v2.params S = S.map t2)
    (i1 : v1.transform = id) (i1' : v1.inverse = id) (i2 : v2.transform = id) (i2' : v2.inverse = id) {eps : ℝ} (h : ∀ s, |t1 s - t2 s| ≤ eps) :
    Contracts b eps (simpleTD v1 v1 b) (simpleTD v2 v2 b) := by
  have g1 := C46_simpleTD (v := v1) hb h1
  have g2 := C46_simpleTD (v := v2) hb h2
  rw [i1, i1'] at g1
  rw [i2, i2'] at g2
  exact contracts_of_bootstraps hb g1 g2 fun s x y hx hy => by rw [hx, hy]; exact h s

/-- C84: ExpectedSarsa, for a fixed policy. -/
theorem C84_expectedSarsa {n : Nat} (hn : 0 < n) {q1 q2 : QFn P σ (List ℝ)} {b : TBatch σ (List ℝ)} (hb : WellFormed b) {t1 t2 l : σ → Nat → ℝ} {f1 f2 : List σ → List (List ℝ)}
    (hf1 : q1.forward q1.params = .type2 f1) (hf2 : q2.forward q2.params = .type2 f2) (h1 : Computes n t1 (.type2 f1)) (h2 : Computes n t2 (.type2 f2))
    (i1 : q1.transform = id) (i1' : q1.inverse = id) (i2 : q2.transform = id) (i2' : q2.inverse = id) {eps : ℝ} (h : ∀ s, ∀ a < n, |t1 s a - t2 s a| ≤ eps) :
    Contracts b eps (expectedSarsa n (fun S => S.map (fun s => (List.range n).map (l s))) q1 q1 b) (expectedSarsa n (fun S => S.map (fun s => (List.range n).map (l s))) q2 q2 b) := by
  have g1 := C46_expectedSarsa_partial (q := q1) (l := l) hb hf1 h1 hn
  have g2 := C46_expectedSarsa_partial (q := q2) (l := l) hb hf2 h2 hn
  rw [i1, i1'] at g1
  rw [i2, i2'] at g2
  refine contracts_of_bootstraps hb g1 g2 fun s x y hx hy => ?_
  rw [hx.1, hy.1, ← Finset.sum_sub_distrib]
  have hpos : 0 < ∑ c ∈ Finset.range n, Real.exp (l s c) := Finset.sum_pos (fun _ _ => Real.exp_pos _) ⟨0, by simpa using hn⟩
  calc |∑ a ∈ Finset.range n, (Real.exp (l s a) / (∑ c ∈ Finset.range n, Real.exp (l s c)) * t1 s a - Real.exp (l s a) / (∑ c ∈ Finset.range n, Real.exp (l s c)) * t2 s a)|
      ≤ ∑ a ∈ Finset.range n, |Real.exp (l s a) / (∑ c ∈ Finset.range n, Real.exp (l s c)) * t1 s a - Real.exp (l s a) / (∑ c ∈ Finset.range n, Real.exp (l s c)) * t2 s a| := Finset.abs_sum_le_sum_abs _ _
    _ ≤ ∑ a ∈ Finset.range n, Real.exp (l s a) / (∑ c ∈ Finset.range n, Real.exp (l s c)) * eps := Finset.sum_le_sum fun a ha => by
        rw [← mul_sub, abs_mul, abs_of_nonneg (div_nonneg (Real.exp_pos _).le hpos.le)]
        exact mul_le_mul_of_nonneg_left (h s a (Finset.mem_range.1 ha)) (div_nonneg (Real.exp_pos _).le hpos.le)
    _ = eps := by rw [← Finset.sum_mul, ← Finset.sum_div, div_self hpos.ne', one_mul]

/-- C84: SoftQLearning. -/
theorem C84_softQLearning {n : Nat} (hn : 0 < n) {tau : ℝ} (htau : 0 < tau) {q1 q2 : QFn P σ (List ℝ)} {b : TBatch σ (List ℝ)} (hb : WellFormed b) {t1 t2 : σ → Nat → ℝ}
    (h1 : Computes n t1 (q1.forward q1.params)) (h2 : Computes n t2 (q2.forward q2.params))
    (i1 : q1.transform = id) (i1' : q1.inverse = id) (i2 : q2.transform = id) (i2' : q2.inverse = id) {eps : ℝ} (h : ∀ s, ∀ a < n, |t1 s a - t2 s a| ≤ eps) :
    Contracts b eps (softQLearning n tau q1 q1 b) (softQLearning n tau q2 q2 b) := by
  have g1 := C46_softQLearning (q := q1) hn htau hb h1
  have g2 := C46_softQLearning (q := q2) hn htau hb h2
  rw [i1, i1'] at g1
  rw [i2, i2'] at g2
  have key : ∀ (p q : Nat → ℝ) (x y : ℝ), (∀ a < n, p a ≤ q a + eps) → Real.exp (x / tau) = ∑ a ∈ Finset.range n, Real.exp (p a / tau) →
      Real.exp (y / tau) = ∑ a ∈ Finset.range n, Real.exp (q a / tau) → x ≤ y + eps := by
    intro p q x y hpq hx hy
    have : Real.exp (x / tau) ≤ Real.exp ((y + eps) / tau) := by
      rw [add_div, Real.exp_add, hx, hy, Finset.sum_mul]
      refine Finset.sum_le_sum fun a ha => ?_
      rw [← Real.exp_add, ← add_div]
      exact Real.exp_le_exp.2 (div_le_div_of_nonneg_right (hpq a (Finset.mem_range.1 ha)) htau.le)
    exact (div_le_div_iff_of_pos_right htau).1 (Real.exp_le_exp.1 this)
  refine contracts_of_bootstraps hb g1 g2 fun s x y hx hy => ?_
  have k1 := key (t1 s) (t2 s) x y (fun a ha => by have := (abs_le.1 (h s a ha)).2; linarith) hx.1 hy.1
  have k2 := key (t2 s) (t1 s) y x (fun a ha => by have := (abs_le.1 (h s a ha)).1; linarith) hy.1 hx.1
  exact abs_le.2 ⟨by linarith, by linarith⟩

/-- C84: Sarsa. -/
theorem C84_sarsa {n : Nat} (hn : 0 < n) {q1 q2 : QFn P σ (List ℝ)} {b : TBatch σ (List ℝ)} (hb : WellFormed b) {t1 t2 : σ → Nat → ℝ}
    (h1 : Computes n t1 (q1.forward q1.params)) (h2 : Computes n t2 (q2.forward q2.params)) (acts : List Nat) (hA : b.A_next = acts.map (oneHot n)) (hl : acts.length = b.S_next.length)
    (ha : ∀ a ∈ acts, a < n) (i1 : q1.transform = id) (i1' : q1.inverse = id) (i2 : q2.transform = id) (i2' : q2.inverse = id) {eps : ℝ} (h : ∀ s, ∀ a < n, |t1 s a - t2 s a| ≤ eps) :
    Contracts b eps (sarsa n q1 q1 b) (sarsa n q2 q2 b) := by
  obtain ⟨G1, e1, l1, g1⟩ := C46_sarsa (q := q1) hn hb h1 acts hA hl ha
  obtain ⟨G2, e2, l2, g2⟩ := C46_sarsa (q := q2) hn hb h2 acts hA hl ha
  rw [i1, i1'] at g1
  rw [i2, i2'] at g2
  refine ⟨G1, G2, e1, e2, l1, l2, ?_⟩
  intro i d x y hd hx hy
  have hi : i < b.S_next.length := by rw [← l1]; exact (List.getElem?_eq_some_iff.1 hx).1
  obtain ⟨r, hr⟩ : ∃ r, b.Rn[i]? = some r := ⟨_, List.getElem?_eq_getElem (by rw [hb.rn]; exact hi)⟩
  have hs : b.S_next[i]? = some b.S_next[i] := List.getElem?_eq_getElem _
  obtain ⟨c, hc⟩ : ∃ c, acts[i]? = some c := ⟨_, List.getElem?_eq_getElem (by rw [hl]; exact hi)⟩
  have u := g1 i _ d _ _ hr hd hs hc
  have v := g2 i _ d _ _ hr hd hs hc
  rw [hx] at u
  rw [hy] at v
  cases u
  cases v
  simp only [id]
  calc |r + d * t1 b.S_next[i] c - (r + d * t2 b.S_next[i] c)| = |d| * |t1 b.S_next[i] c - t2 b.S_next[i] c| := by rw [← abs_mul]; congr 1; ring
    _ ≤ |d| * eps := mul_le_mul_of_nonneg_left (h _ _ (ha _ (List.mem_of_getElem? hc))) (abs_nonneg d)

/-! ### Exact fitted iteration -/

/-- A table as a type-2 q-function. -/
def tableQ {n : Nat} (t : σ → Fin n → ℝ) : QFn Unit σ (List ℝ) :=
  ⟨fun _ => .type2 fun S => S.map fun s => List.ofFn (t s), (), id, id⟩

/-- The table as a function of numbers. -/
def extend {n : Nat} (t : σ → Fin n → ℝ) (s : σ) (a : Nat) : ℝ := if h : a < n then t s ⟨a, h⟩ else 0

theorem tableQ_computes {n : Nat} (t : σ → Fin n → ℝ) : Computes n (extend t) ((tableQ t).forward (tableQ t).params) := by
  refine .type2 _ fun S => List.map_congr_left fun s _ => ?_
  apply List.ext_getElem
  · simp
  · intro i h1 h2
    have : i < n := by simpa using h1
    simp [extend, this]

/-- What can happen after an action: with probability `prob j`, the (n-step) reward `rn j`, the discount `inn j` of the bootstrap and the state `next j` after it. -/
structure Outcomes (σ : Type _) (m : Nat) where
  prob : Fin m → ℝ
  rn : Fin m → ℝ
  inn : Fin m → ℝ
  next : Fin m → σ

/-- The outcome `j` as a batch of one transition. -/
def Outcomes.row {m : Nat} (o : Outcomes σ m) (j : Fin m) : TBatch σ (List ℝ) := ⟨[o.rn j], [o.inn j], [o.next j], [[]]⟩

/-- The only entry of a target. -/
def entry : Except Err (List ℝ) → ℝ
  | .ok [x] => x
  | _ => 0

/-- The expected target of QLearning in each state and for each action: what a table fitted exactly to many targets becomes. -/
noncomputable def fitted {n m : Nat} (env : σ → Fin n → Outcomes σ m) (t : σ → Fin n → ℝ) : σ → Fin n → ℝ :=
  fun s a => ∑ j, (env s a).prob j * entry (qLearning n (tableQ t) (tableQ t) ((env s a).row j))

/-- Probabilities, and discounts that do not exceed `gamma`. -/
structure Discounted {n m : Nat} (env : σ → Fin n → Outcomes σ m) (gamma : ℝ) : Prop where
  nonneg : ∀ s a j, 0 ≤ (env s a).prob j
  total : ∀ s a, ∑ j, (env s a).prob j = 1
  discount : ∀ s a j, |(env s a).inn j| ≤ gamma

theorem entry_close {n m : Nat} (hn : 0 < n) (o : Outcomes σ m) (j : Fin m) (t1 t2 : σ → Fin n → ℝ) {eps : ℝ} (h : ∀ s a, |t1 s a - t2 s a| ≤ eps) :
    |entry (qLearning n (tableQ t1) (tableQ t1) (o.row j)) - entry (qLearning n (tableQ t2) (tableQ t2) (o.row j))| ≤ |o.inn j| * eps := by
  have hs : ∀ t : σ → Fin n → ℝ, TieSafe n (extend t) ((tableQ t).forward (tableQ t).params) (o.row j).S_next := fun t => Or.inl ⟨_, rfl⟩
  obtain ⟨G1, G2, e1, e2, l1, l2, hG⟩ := C84_qLearning hn (b := o.row j) ⟨rfl, rfl⟩ (tableQ_computes t1) (tableQ_computes t2) (hs t1) (hs t2) rfl rfl rfl rfl (eps := eps) (fun s a ha => by
    simp only [extend, ha, dif_pos]; exact h s ⟨a, ha⟩)
  rw [e1, e2]
  obtain ⟨x, rfl⟩ : ∃ x, G1 = [x] := List.length_eq_one_iff.1 l1
  obtain ⟨y, rfl⟩ : ∃ y, G2 = [y] := List.length_eq_one_iff.1 l2
  exact hG 0 (o.inn j) x y rfl rfl rfl

/-- C84, what fails: DoubleQLearning is not a contraction.  Both tables change by at most `1/10`, the target (with `In = 1`) by 1. -/
theorem C84_double_counterexample : ∃ (t1 t2 u : Unit → Fin 2 → ℝ) (b : TBatch Unit (List ℝ)), WellFormed b ∧ (∀ s a, |t1 s a - t2 s a| ≤ 1 / 10) ∧ b.In = [1] ∧
    ¬ Contracts b (1 / 10) (doubleQLearning 2 (tableQ u) (tableQ t1) b) (doubleQLearning 2 (tableQ u) (tableQ t2) b) := by
  refine ⟨fun _ => ![1 / 10, 0], fun _ => ![0, 1 / 10], fun _ => ![0, 1], ⟨[0], [1], [()], [[]]⟩, ⟨rfl, rfl⟩, ?_, rfl, ?_⟩
  · intro _ a
    fin_cases a <;> norm_num
  · rintro ⟨G1, G2, e1, e2, -, -, h⟩
    obtain ⟨G1', e1', -, g1⟩ := C46_doubleQLearning_partial (n := 2) (by norm_num) (q := tableQ fun _ => ![0, 1]) (qTarg := tableQ fun _ => ![1 / 10, 0])
      (b := (⟨[0], [1], [()], [[]]⟩ : TBatch Unit (List ℝ))) ⟨rfl, rfl⟩ (tableQ_computes _) (tableQ_computes _) (Or.inl ⟨_, rfl⟩)
    obtain ⟨G2', e2', -, g2⟩ := C46_doubleQLearning_partial (n := 2) (by norm_num) (q := tableQ fun _ => ![0, 1]) (qTarg := tableQ fun _ => ![0, 1 / 10])
      (b := (⟨[0], [1], [()], [[]]⟩ : TBatch Unit (List ℝ))) ⟨rfl, rfl⟩ (tableQ_computes _) (tableQ_computes _) (Or.inl ⟨_, rfl⟩)
    obtain rfl : G1 = G1' := by rw [e1] at e1'; exact Except.ok.inj e1'
    obtain rfl : G2 = G2' := by rw [e2] at e2'; exact Except.ok.inj e2'
    obtain ⟨x, hx, hG1⟩ := g1 0 _ _ _ rfl rfl rfl
    obtain ⟨y, hy, hG2⟩ := g2 0 _ _ _ rfl rfl rfl
    have hx0 := hx.1 0 (by norm_num) (by
      intro c hc hne
      obtain rfl : c = 1 := by omega
      simp [extend])
    have hy1 := hy.1 1 (by norm_num) (by
      intro c hc hne
      obtain rfl : c = 0 := by omega
      simp [extend])
    have h' := h 0 1 _ _ rfl hG1 hG2
    rw [hx0, hy1] at h'
    norm_num [tableQ, extend] at h'

variable [Fintype σ]

theorem fitted_contracting {n m : Nat} (hn : 0 < n) {env : σ → Fin n → Outcomes σ m} {gamma : ℝ} (h0 : 0 ≤ gamma) (h1 : gamma < 1) (hd : Discounted env gamma) :
    ContractingWith ⟨gamma, h0⟩ (fitted env) := by
  refine ⟨by exact_mod_cast h1, LipschitzWith.of_dist_le_mul fun t1 t2 => ?_⟩
  have hdist : ∀ s a, |t1 s a - t2 s a| ≤ dist t1 t2 := fun s a => by
    rw [← Real.dist_eq]; exact (dist_le_pi_dist (t1 s) (t2 s) a).trans (dist_le_pi_dist t1 t2 s)
  have hnn : 0 ≤ gamma * dist t1 t2 := mul_nonneg h0 dist_nonneg
  refine (dist_pi_le_iff hnn).2 fun s => (dist_pi_le_iff hnn).2 fun a => ?_
  rw [Real.dist_eq]
  unfold fitted
  rw [← Finset.sum_sub_distrib]
  calc _ ≤ ∑ j, |(env s a).prob j * entry (qLearning n (tableQ t1) (tableQ t1) ((env s a).row j)) - (env s a).prob j * entry (qLearning n (tableQ t2) (tableQ t2) ((env s a).row j))| :=
        Finset.abs_sum_le_sum_abs _ _
    _ ≤ ∑ j, (env s a).prob j * (gamma * dist t1 t2) := Finset.sum_le_sum fun j _ => by
        rw [← mul_sub, abs_mul, abs_of_nonneg (hd.nonneg s a j)]
        refine mul_le_mul_of_nonneg_left ((entry_close hn (env s a) j t1 t2 hdist).trans ?_) (hd.nonneg s a j)
        exact mul_le_mul_of_nonneg_right (hd.discount s a j) dist_nonneg
    _ = gamma * dist t1 t2 := by rw [← Finset.sum_mul, hd.total, one_mul]

/-- The Bellman optimality equation. -/
def Bellman {n m : Nat} (env : σ → Fin n → Outcomes σ m) (t : σ → Fin n → ℝ) : Prop :=
  ∀ s a, ∃ best : σ → ℝ, (∀ s', (∃ c, t s' c = best s') ∧ ∀ c, t s' c ≤ best s') ∧ t s a = ∑ j, (env s a).prob j * ((env s a).rn j + (env s a).inn j * best ((env s a).next j))

omit [Fintype σ] in
theorem fitted_eq_iff {n m : Nat} (hn : 0 < n) (env : σ → Fin n → Outcomes σ m) (t : σ → Fin n → ℝ) : fitted env t = t ↔ Bellman env t := by
  have : Nonempty (Fin n) := ⟨⟨0, hn⟩⟩
  have hbest : ∀ s, ∃ c, ∀ c', t s c' ≤ t s c := fun s => Finite.exists_max (t s)
  choose c hc using hbest
  have hval : ∀ s a j, entry (qLearning n (tableQ t) (tableQ t) ((env s a).row j)) = (env s a).rn j + (env s a).inn j * t ((env s a).next j) (c ((env s a).next j)) := by
    intro s a j
    obtain ⟨G, e, l, g⟩ := C46_qLearning_partial hn (q := tableQ t) (qTarg := tableQ t) (b := (env s a).row j) ⟨rfl, rfl⟩ (tableQ_computes t) rfl (Or.inl ⟨_, rfl⟩)
    obtain ⟨x, hx, hG⟩ := g 0 _ _ _ rfl rfl rfl
    rw [e]
    obtain ⟨y, rfl⟩ : ∃ y, G = [y] := List.length_eq_one_iff.1 l
    have hy : y = (env s a).rn j + (env s a).inn j * x := by simpa [tableQ] using hG
    have hxv : x = t ((env s a).next j) (c ((env s a).next j)) := by
      obtain ⟨⟨k, hk, hkx⟩, hle⟩ := hx
      have e1 : extend t ((env s a).next j) k = t ((env s a).next j) ⟨k, hk⟩ := by simp [extend, hk]
      have e2 := hle (c ((env s a).next j)).1 (c ((env s a).next j)).2
      have e3 : extend t ((env s a).next j) (c ((env s a).next j)).1 = t ((env s a).next j) (c ((env s a).next j)) := by simp [extend]
      refine le_antisymm ?_ (by rw [← e3]; exact e2)
      rw [← hkx, e1]; exact hc _ _
    show y = _
    rw [hy, hxv]
  constructor
  · intro h s a
    refine ⟨fun s' => t s' (c s'), fun s' => ⟨⟨_, rfl⟩, hc s'⟩, ?_⟩
    conv_lhs => rw [← h]
    unfold fitted
    exact Finset.sum_congr rfl fun j _ => by rw [hval]
  · intro h
    funext s a
    obtain ⟨best, hb, ht⟩ := h s a
    rw [ht]
    unfold fitted
    refine Finset.sum_congr rfl fun j _ => ?_
    rw [hval]
    obtain ⟨⟨k, hk⟩, hle⟩ := hb ((env s a).next j)
    rw [show t ((env s a).next j) (c ((env s a).next j)) = best ((env s a).next j) from le_antisymm (hle _) (by rw [← hk]; exact hc _ _)]

/-- C84: in a finite environment with discounts below one, the Bellman equation has exactly one solution, and exact fitted iteration with the targets of QLearning converges to it from everywhere, at a geometric rate. -/
theorem C84_convergence {n m : Nat} (hn : 0 < n) {env : σ → Fin n → Outcomes σ m} {gamma : ℝ} (h0 : 0 ≤ gamma) (h1 : gamma < 1) (hd : Discounted env gamma) :
    ∃ best, Bellman env best ∧ (∀ t, Bellman env t → t = best) ∧
      ∀ (t : σ → Fin n → ℝ) (k : Nat) (s : σ) (a : Fin n), |(fitted env)^[k] t s a - best s a| ≤ gamma ^ k / (1 - gamma) * dist t (fitted env t) := by
  have hc := fitted_contracting hn h0 h1 hd
  refine ⟨ContractingWith.fixedPoint _ hc, (fitted_eq_iff hn env _).1 hc.fixedPoint_isFixedPt, fun t ht => hc.fixedPoint_unique ((fitted_eq_iff hn env t).2 ht), ?_⟩
  intro t k s a
  rw [← Real.dist_eq]
  have h2 := hc.apriori_dist_iterate_fixedPoint_le t k
  refine ((dist_le_pi_dist _ _ a).trans (dist_le_pi_dist _ _ s)).trans (h2.trans (le_of_eq ?_))
  show dist t (fitted env t) * gamma ^ k / (1 - gamma) = _
  ring

/-- An environment with two states, two actions and two outcomes of each action that meets the hypotheses of `C84_convergence`. -/
example : ∃ env : Bool → Fin 2 → Outcomes Bool 2, Discounted env (9 / 10) ∧ ∃ best, Bellman env best ∧ ∀ t, Bellman env t → t = best := by
  let env : Bool → Fin 2 → Outcomes Bool 2 := fun s a => ⟨![1 / 4, 3 / 4], ![if s then 1 else 0, a.1], ![9 / 10, 0], ![s, !s]⟩
  have hd : Discounted env (9 / 10) := by
    refine ⟨?_, ?_, ?_⟩
    · intro s a j
      fin_cases j <;> norm_num [env]
    · intro s a
      simp only [env, Fin.sum_univ_two]
      norm_num
    · intro s a j
      fin_cases j <;> norm_num [env]
  obtain ⟨best, hb, hu, -⟩ := C84_convergence (by norm_num) (by norm_num) (by norm_num) hd
  exact ⟨env, hd, best, hb, hu⟩

end Coax.TD
