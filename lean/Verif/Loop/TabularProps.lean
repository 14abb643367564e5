import Verif.Loop.Tabular
import Verif.Loop.TabularLemmas
import Verif.TD.TargetsProps
import Verif.TD.LossProps
import Mathlib.Topology.MetricSpace.Contracting
import Mathlib.Topology.MetricSpace.Pseudo.Pi
import Mathlib.Analysis.Calculus.Deriv.Add
import Mathlib.Analysis.Calculus.Deriv.Mul

/-! Property C104: tabular Q-learning converges to the optimal values in deterministic environments. -/

namespace Coax.Loop

open Coax.RewardTracing Coax.TD Coax.Core Coax.Values Coax.Pol Filter Topology

/-- A deterministic environment. -/
structure Det (σ : Type _) (n : Nat) where
  next : σ → Fin n → σ
  reward : σ → Fin n → ℝ
  ends : σ → Fin n → Bool

variable {σ : Type _} {n : Nat}

/-- A transition of one step of this environment, as it is in a batch. -/
structure Det.Row (e : Det σ n) (gamma : ℝ) (o : Out σ (Fin n) ℝ) : Prop where
  rn : o.Rn = e.reward o.S o.A
  ended : e.ends o.S o.A = true → o.In = 0
  goes : e.ends o.S o.A = false → o.In = gamma ∧ o.S_next = some (e.next o.S o.A)
  s_next : o.S_next.isSome
  a_next : o.A_next.isSome

/-- The Bellman equation, where `boot s row x` says that `x` is the value of state `s` if `row` are the values of its actions. -/
def Det.Solves (e : Det σ n) (gamma : ℝ) (boot : σ → (Fin n → ℝ) → ℝ → Prop) (q : σ → Fin n → ℝ) : Prop :=
  ∀ s a, (e.ends s a = true → q s a = e.reward s a) ∧ (e.ends s a = false → ∃ x, boot (e.next s a) (q (e.next s a)) x ∧ q s a = e.reward s a + gamma * x)

/-- The largest value. -/
def Greedy (_ : σ) (row : Fin n → ℝ) (x : ℝ) : Prop := IsGreatest (Set.range row) x

/-- The mean under a policy with these probabilities. -/
def Mean (pi : σ → Fin n → ℝ) (s : σ) (row : Fin n → ℝ) (x : ℝ) : Prop := x = ∑ a, pi s a * row a

/-- The soft maximum. -/
def Soft (temp : ℝ) (_ : σ) (row : Fin n → ℝ) (x : ℝ) : Prop := Real.exp (x / temp) = ∑ a, Real.exp (row a / temp)

/-! ### The function -/

/-- A table extended to all natural numbers. -/
def ext (θ : σ → Fin n → ℝ) (s : σ) (a : Nat) : ℝ := if h : a < n then θ s ⟨a, h⟩ else 0

theorem ext_row (θ : σ → Fin n → ℝ) (s : σ) : (List.finRange n).map (θ s) = (List.range n).map (ext θ s) := by
  rw [← List.map_coe_finRange_eq_range, List.map_map]
  refine List.map_congr_left fun a _ => ?_
  simp [ext]

theorem table_computes (type1 : Bool) (θ : σ → Fin n → ℝ) : Computes n (ext θ) (table type1 θ) := by
  unfold table
  split
  · refine .type1 _ (fun s A => dot A ((List.finRange n).map (θ s))) (fun _ _ _ => rfl) ?_
    intro s a ha
    rw [dot_oneHot n a _ (by simp) ha]
    simp [ext, ha]
  · exact .type2 _ fun S => List.map_congr_left fun s _ => ext_row θ s

theorem table_predict (hn : 0 < n) (type1 : Bool) (θ : σ → Fin n → ℝ) (rows : List (Out σ (Fin n) ℝ)) :
    functionType1 n (table type1 θ) (rows.map (·.S)) (rows.map fun o => oneHot n o.A) = .ok (rows.map fun o => θ o.S o.A) := by
  have h := (C55_agree hn (table_computes type1 θ) (rows.map (·.S))).2 (rows.map fun o => (o.A : Nat)) (by simp) (by simp)
  rw [List.map_map] at h
  refine Eq.trans h ?_
  congr 1
  rw [List.zipWith_map_left, List.zipWith_map_right, List.zipWith_self]
  simp [ext]

/-! ### Update rules -/

/-- The targets of the update rule bootstrap with `boot` of the values of `q_targ`. -/
structure Rule (updateRule : QFn (σ → Fin n → ℝ) σ (List ℝ) → QFn (σ → Fin n → ℝ) σ (List ℝ) → TBatch σ (List ℝ) → Except Err (List ℝ)) (type1 : Bool) (boot : σ → (Fin n → ℝ) → ℝ → Prop) : Prop where
  bootstraps : ∀ θQ θT b, WellFormed b → Bootstraps id id b (fun s x => boot s (θT s) x) (updateRule (tabular type1 θQ) (tabular type1 θT) b)
  close : ∀ s r1 r2 x1 x2 eps, boot s r1 x1 → boot s r2 x2 → (∀ a, |r1 a - r2 a| ≤ eps) → |x1 - x2| ≤ eps

theorem Rule.value {updateRule} {type1 : Bool} {boot : σ → (Fin n → ℝ) → ℝ → Prop} (h : Rule updateRule type1 boot) (s : σ) (row : Fin n → ℝ) : ∃ x, boot s row x := by
  obtain ⟨G, -, -, hG⟩ := h.bootstraps (fun _ => row) (fun _ => row) ⟨[0], [0], [s], [[]]⟩ ⟨rfl, rfl⟩
  obtain ⟨x, hx, -⟩ := hG 0 0 0 s rfl rfl rfl
  exact ⟨x, hx⟩

theorem Rule.unique {updateRule} {type1 : Bool} {boot : σ → (Fin n → ℝ) → ℝ → Prop} (h : Rule updateRule type1 boot) {s : σ} {row : Fin n → ℝ} {x y : ℝ} (hx : boot s row x) (hy : boot s row y) : x = y := by
  have := h.close s row row x y 0 hx hy (by simp)
  have := abs_nonpos_iff.1 this
  linarith

/-! ### One update -/

/-- The derivative of the loss is a multiple of the error. -/
structure Gentle (l' : ℝ → ℝ → ℝ) (c k : ℝ → ℝ) : Prop where
  eq : ∀ y p, l' y p = -(c (y - p) * (y - p))
  nonneg : ∀ x, 0 ≤ c x
  le_one : ∀ x, c x ≤ 1
  pos : ∀ M, 0 < k M
  lower : ∀ x M, |x| ≤ M → k M ≤ c x

theorem gentle_mse : Gentle (fun y p => p - y) (fun _ => 1) (fun _ => 1) :=
  ⟨fun y p => by ring, fun _ => zero_le_one, fun _ => le_rfl, fun _ => one_pos, fun _ _ _ => le_rfl⟩

theorem gentle_huber {delta : ℝ} (hd : 0 < delta) : Gentle (fun y p => limit delta (p - y)) (fun x => if |x| ≤ delta then 1 else delta / |x|) (fun M => min 1 (delta / max M 1)) where
  eq y p := by
    unfold limit
    split
    · rename_i h
      rw [if_neg (by rw [abs_le, not_and_or]; left; linarith), abs_of_neg (by linarith)]
      have : p - y ≠ 0 := by linarith
      have h2 : y - p ≠ 0 := by intro h3; apply this; linarith
      field_simp
    · split
      · rename_i h
        rw [if_neg (by rw [abs_le, not_and_or]; right; linarith), abs_of_pos (by linarith)]
        have h2 : y - p ≠ 0 := by linarith
        field_simp
      · rw [if_pos (abs_le.2 ⟨by linarith, by linarith⟩)]; ring
  nonneg x := by
    show 0 ≤ if |x| ≤ delta then 1 else delta / |x|
    split
    · exact zero_le_one
    · exact div_nonneg hd.le (abs_nonneg _)
  le_one x := by
    show (if |x| ≤ delta then 1 else delta / |x|) ≤ 1
    split
    · exact le_rfl
    · exact div_le_one_of_le₀ (by linarith) (abs_nonneg _)
  pos M := lt_min one_pos (div_pos hd (lt_of_lt_of_le one_pos (le_max_right _ _)))
  lower x M h := by
    show _ ≤ if |x| ≤ delta then 1 else delta / |x|
    split
    · exact min_le_left _ _
    · refine (min_le_right _ _).trans ?_
      exact div_le_div_of_nonneg_left hd.le (by linarith) (h.trans (le_max_left _ _))

variable [DecidableEq σ]

theorem hasDerivAt_sum {ι : Type _} (l : List ι) (F : ι → ℝ → ℝ) (F' : ι → ℝ) (x : ℝ) (h : ∀ i ∈ l, HasDerivAt (F i) (F' i) x) :
    HasDerivAt (fun x => (l.map fun i => F i x).sum) (l.map F').sum x := by
  induction l with
  | nil => simpa using hasDerivAt_const x (0 : ℝ)
  | cons i l ih =>
    simp only [List.map_cons, List.sum_cons]
    exact (h i (by simp)).add (ih fun j hj => h j (by simp [hj]))

/-- The importance weight that is used in the loss. -/
noncomputable def weight (o : Out σ (Fin n) ℝ) : ℝ := min (max o.W 0.1) 10

/-- How far the entry of `s` and `a` is moved towards the target. -/
noncomputable def share (rows : List (Out σ (Fin n) ℝ)) (s : σ) (a : Fin n) : ℝ := (rows.map fun o => if s = o.S ∧ a = o.A then weight o else 0).sum / rows.length

theorem tableLoss_eq {l l' : ℝ → ℝ → ℝ} {L : LossFn} (hL : MeanOf l l' L) (hn : 0 < n) {updateRule} {type1 : Bool} {θT θQ : σ → Fin n → ℝ} {rows : List (Out σ (Fin n) ℝ)} (hne : rows ≠ []) {b : TBatch σ (List ℝ)}
    (hb : toTBatch id (fun a : Fin n => oneHot n a) rows = .ok b) {target : Out σ (Fin n) ℝ → ℝ} (ht : updateRule (tabular type1 θQ) (tabular type1 θT) b = .ok (rows.map target)) (θ : σ → Fin n → ℝ) :
    ∃ out, tableLoss L updateRule type1 rows θT θQ θ = .ok out ∧ out.loss = some ((rows.map fun o => weight o * l (target o) (θ o.S o.A)).sum / rows.length) := by
  unfold tableLoss
  rw [hb]
  simp only
  rw [table_predict hn, table_predict hn]
  simp only
  rw [ht]
  obtain ⟨out, h⟩ := C67_total hL (G := rows.map target) (V := rows.map fun o => θ o.S o.A) (VTarg := rows.map fun o => θT o.S o.A) (W := rows.map (·.W)) (by simp) (by simp) (by simp)
  refine ⟨out, h, ?_⟩
  obtain ⟨G, hG, -, -, -, e, -⟩ := detLoss_ok h
  have hG' : G = rows.map target := by simpa [Target] using hG
  subst hG'
  have hW : clipW (rows.map (·.W)) = rows.map fun o => weight o := by simp [clipW, clip, weight]
  rw [hW] at e
  have h1 := (meanOf_scalar hL (rows.map target) (rows.map fun o => θ o.S o.A) (rows.map fun o => weight o) (by simp) (by simp) (by simpa using hne)).1
  rw [e] at h1
  have e2 : List.zipWith (fun a b => a * b) (rows.map fun o => weight o) (List.zipWith l (rows.map target) (rows.map fun o => θ o.S o.A)) = rows.map fun o => weight o * l (target o) (θ o.S o.A) := by
    simp [List.zipWith_map_left, List.zipWith_map_right, List.zipWith_self]
  rw [e2] at h1
  cases hl : out.loss with
  | none =>
    rw [hL.eq, elementwise_oneD] at e
    unfold meanWithWeights at e
    simp only at e
    rw [if_neg (by simp [oneD]), weighted_oneD, e2, meanAll_oneD (by simpa using hne), hl] at e
    simp at e
  | some x =>
    rw [hl] at h1
    simp only [scalar] at h1
    rw [h1]
    simp

theorem sgdUpdate_eq {l l' : ℝ → ℝ → ℝ} {L : LossFn} (hL : MeanOf l l' L) {c k : ℝ → ℝ} (hc : Gentle l' c k) (hn : 0 < n) {updateRule} {type1 : Bool} {θT θ : σ → Fin n → ℝ} {rows : List (Out σ (Fin n) ℝ)} (hne : rows ≠ [])
    {b : TBatch σ (List ℝ)} (hb : toTBatch id (fun a : Fin n => oneHot n a) rows = .ok b) {T : σ → Fin n → ℝ} (ht : updateRule (tabular type1 θ) (tabular type1 θT) b = .ok (rows.map fun o => T o.S o.A)) (lr : ℝ) :
    sgdUpdate lr L updateRule type1 θT θ rows = .ok fun s a => θ s a + lr * share rows s a * c (T s a - θ s a) * (T s a - θ s a) := by
  unfold sgdUpdate
  obtain ⟨out, h1, h2⟩ := tableLoss_eq hL hn hne hb ht θ
  rw [h1]
  simp only
  rw [if_neg (by simp [h2])]
  congr 1
  funext s a
  have hd : HasDerivAt (fun x => lossValue (tableLoss L updateRule type1 rows θT θ (setEntry θ s a x))) ((rows.map fun o => if s = o.S ∧ a = o.A then weight o * l' (T s a) (θ s a) else 0).sum / rows.length) (θ s a) := by
    have e : (fun x => lossValue (tableLoss L updateRule type1 rows θT θ (setEntry θ s a x))) = fun x => (rows.map fun o => weight o * l (T o.S o.A) (setEntry θ s a x o.S o.A)).sum / rows.length := by
      funext x
      obtain ⟨out, h1, h2⟩ := tableLoss_eq hL hn hne hb ht (setEntry θ s a x)
      rw [h1]
      obtain ⟨loss, b2, b3, b4⟩ := out
      simp only at h2
      subst h2
      rfl
    rw [e]
    refine HasDerivAt.div_const (hasDerivAt_sum rows (fun o x => weight o * l (T o.S o.A) (setEntry θ s a x o.S o.A)) _ _ fun o _ => ?_) _
    by_cases ho : s = o.S ∧ a = o.A
    · rw [if_pos ho]
      obtain ⟨rfl, rfl⟩ := ho
      simpa [setEntry] using (hL.deriv (T o.S o.A) (θ o.S o.A)).const_mul (weight o)
    · rw [if_neg ho]
      have : (fun x => weight o * l (T o.S o.A) (setEntry θ s a x o.S o.A)) = fun _ => weight o * l (T o.S o.A) (θ o.S o.A) := by
        funext x
        simp only [setEntry]
        rw [if_neg fun hh => ho ⟨hh.1.symm, hh.2.symm⟩]
      rw [this]
      exact hasDerivAt_const _ _
  rw [hd.deriv, hc.eq]
  have e : (rows.map fun o => if s = o.S ∧ a = o.A then weight o * -(c (T s a - θ s a) * (T s a - θ s a)) else 0) =
      rows.map fun o => (if s = o.S ∧ a = o.A then weight o else 0) * -(c (T s a - θ s a) * (T s a - θ s a)) := by
    refine List.map_congr_left fun o _ => ?_
    split <;> ring
  rw [e, List.sum_map_mul_right]
  unfold share
  ring

/-! ### The Bellman operator -/

/-- The Bellman operator for given values of the next states. -/
def Det.op (e : Det σ n) (gamma : ℝ) (val : σ → (Fin n → ℝ) → ℝ) (q : σ × Fin n → ℝ) (p : σ × Fin n) : ℝ :=
  e.reward p.1 p.2 + if e.ends p.1 p.2 then 0 else gamma * val (e.next p.1 p.2) (fun b => q (e.next p.1 p.2, b))

omit [DecidableEq σ] in
theorem toTBatch_ok {α' : Type _} (preA : Fin n → α') (rows : List (Out σ (Fin n) ℝ)) (h : ∀ o ∈ rows, o.S_next.isSome ∧ o.A_next.isSome) :
    ∃ b, toTBatch id preA rows = .ok b ∧ b.Rn = rows.map (·.Rn) ∧ b.In = rows.map (·.In) ∧ rows.map (·.S_next) = b.S_next.map some := by
  have hs : ∃ S, rows.mapM (fun o => o.S_next) = some S ∧ rows.map (·.S_next) = S.map some := by
    induction rows with
    | nil => exact ⟨[], rfl, rfl⟩
    | cons o rows ih =>
      obtain ⟨S, h1, h2⟩ := ih fun o' ho' => h o' (by simp [ho'])
      obtain ⟨s, hs⟩ := Option.isSome_iff_exists.1 (h o (by simp)).1
      exact ⟨s :: S, by rw [List.mapM_cons, hs, h1]; rfl, by simp [hs, h2]⟩
  have ha : ∃ A, rows.mapM (fun o => o.A_next) = some A := by
    clear hs
    induction rows with
    | nil => exact ⟨[], rfl⟩
    | cons o rows ih =>
      obtain ⟨A, h1⟩ := ih fun o' ho' => h o' (by simp [ho'])
      obtain ⟨s, hs⟩ := Option.isSome_iff_exists.1 (h o (by simp)).2
      exact ⟨s :: A, by rw [List.mapM_cons, hs, h1]; rfl⟩
  obtain ⟨S, h1, h2⟩ := hs
  obtain ⟨A, h3⟩ := ha
  unfold toTBatch
  rw [h1, h3]
  exact ⟨_, rfl, rfl, rfl, by simpa using h2⟩

omit [DecidableEq σ] in
theorem rule_targets {updateRule} {type1 : Bool} {boot : σ → (Fin n → ℝ) → ℝ → Prop} (hr : Rule updateRule type1 boot) {val : σ → (Fin n → ℝ) → ℝ} (hval : ∀ s row, boot s row (val s row)) {e : Det σ n} {gamma : ℝ}
    {rows : List (Out σ (Fin n) ℝ)} (h : ∀ o ∈ rows, e.Row gamma o) (θQ θT : σ → Fin n → ℝ) :
    ∃ b, toTBatch id (fun a : Fin n => oneHot n a) rows = .ok b ∧
      updateRule (tabular type1 θQ) (tabular type1 θT) b = .ok (rows.map fun o => e.op gamma val (fun p => θT p.1 p.2) (o.S, o.A)) := by
  obtain ⟨b, hb, h1, h2, h3⟩ := toTBatch_ok (fun a : Fin n => oneHot n a) rows fun o ho => ⟨(h o ho).s_next, (h o ho).a_next⟩
  have hl : b.S_next.length = rows.length := by
    have := congrArg List.length h3
    simpa using this.symm
  refine ⟨b, hb, ?_⟩
  obtain ⟨G, e1, l1, hG⟩ := hr.bootstraps θQ θT b ⟨by rw [h1, hl]; simp, by rw [h2, hl]; simp⟩
  rw [e1]
  congr 1
  apply List.ext_getElem
  · rw [l1, hl]; simp
  · intro i i1 i2
    have hi : i < rows.length := by simpa using i2
    have hs : rows[i].S_next = some (b.S_next[i]'(by omega)) := by
      have := congrArg (fun l => l[i]?) h3
      simpa [hi, hl] using this
    obtain ⟨x, hx, hx'⟩ := hG i rows[i].Rn rows[i].In (b.S_next[i]'(by omega)) (by rw [h1]; simp [hi]) (by rw [h2]; simp [hi]) (by simp [hl, hi])
    rw [List.getElem?_eq_getElem i1] at hx'
    have hx' := Option.some.inj hx'
    rw [hx', List.getElem_map]
    have ho := h rows[i] (List.getElem_mem hi)
    unfold Det.op
    simp only [id]
    rw [ho.rn]
    cases he : e.ends rows[i].S rows[i].A with
    | true => rw [ho.ended he]; simp
    | false =>
      obtain ⟨g1, g2⟩ := ho.goes he
      rw [g2] at hs
      have hs := Option.some.inj hs
      rw [g1, if_neg (by simp)]
      rw [← hs] at hx
      rw [hr.unique hx (hval _ _)]

omit [DecidableEq σ] in
theorem op_attracts {updateRule} {type1 : Bool} {boot : σ → (Fin n → ℝ) → ℝ → Prop} (hr : Rule updateRule type1 boot) {val : σ → (Fin n → ℝ) → ℝ} (hval : ∀ s row, boot s row (val s row)) {e : Det σ n} {gamma : ℝ} (h0 : 0 ≤ gamma)
    (q1 q2 : σ × Fin n → ℝ) (M : ℝ) (hM : ∀ p, |q1 p - q2 p| ≤ M) (hM0 : 0 ≤ M) (p : σ × Fin n) : |e.op gamma val q1 p - e.op gamma val q2 p| ≤ gamma * M := by
  unfold Det.op
  split
  · simpa using mul_nonneg h0 hM0
  · have := hr.close (e.next p.1 p.2) _ _ _ _ M (hval (e.next p.1 p.2) fun b => q1 (e.next p.1 p.2, b)) (hval (e.next p.1 p.2) fun b => q2 (e.next p.1 p.2, b)) fun a => hM _
    have e1 : ∀ r x y : ℝ, r + gamma * x - (r + gamma * y) = gamma * (x - y) := fun r x y => by ring
    rw [e1, abs_mul, abs_of_nonneg h0]
    exact mul_le_mul_of_nonneg_left this h0

omit [DecidableEq σ] in
theorem solves_iff {updateRule} {type1 : Bool} {boot : σ → (Fin n → ℝ) → ℝ → Prop} (hr : Rule updateRule type1 boot) {val : σ → (Fin n → ℝ) → ℝ} (hval : ∀ s row, boot s row (val s row)) {e : Det σ n} {gamma : ℝ} (q : σ → Fin n → ℝ) :
    e.Solves gamma boot q ↔ e.op gamma val (fun p => q p.1 p.2) = fun p => q p.1 p.2 := by
  constructor
  · intro h
    funext p
    obtain ⟨h1, h2⟩ := h p.1 p.2
    unfold Det.op
    cases he : e.ends p.1 p.2 with
    | true => rw [h1 he]; simp
    | false =>
      obtain ⟨x, hx, hq⟩ := h2 he
      rw [hq, if_neg (by simp), hr.unique hx (hval _ _)]
  · intro h s a
    have h1 := congrFun h (s, a)
    unfold Det.op at h1
    simp only at h1
    refine ⟨fun he => ?_, fun he => ⟨_, hval _ _, ?_⟩⟩
    · rw [← h1, he]; simp
    · rw [← h1, he]; simp

omit [DecidableEq σ] in
/-- The Bellman equation has one solution. -/
theorem solution [Fintype σ] {updateRule} {type1 : Bool} {boot : σ → (Fin n → ℝ) → ℝ → Prop} (hr : Rule updateRule type1 boot) (e : Det σ n) {gamma : ℝ} (h0 : 0 ≤ gamma) (h1 : gamma < 1) :
    ∃ best, e.Solves gamma boot best ∧ ∀ q, e.Solves gamma boot q → q = best := by
  choose val hval using hr.value
  have hc : ContractingWith ⟨gamma, h0⟩ (e.op gamma val) := by
    refine ⟨by exact_mod_cast h1, LipschitzWith.of_dist_le_mul fun q1 q2 => ?_⟩
    refine (dist_pi_le_iff (mul_nonneg h0 dist_nonneg)).2 fun p => ?_
    rw [Real.dist_eq]
    exact op_attracts hr hval h0 q1 q2 _ (fun p => by rw [← Real.dist_eq]; exact dist_le_pi_dist q1 q2 p) dist_nonneg p
  refine ⟨fun s a => ContractingWith.fixedPoint _ hc (s, a), (solves_iff hr hval _).2 hc.fixedPoint_isFixedPt, fun q hq => ?_⟩
  have := hc.fixedPoint_unique ((solves_iff hr hval q).1 hq)
  funext s a
  exact congrFun this (s, a)

/-! ### A sequence of updates -/

/-- What is known about the batches that the q-function is updated with, and about the updates of the target network. -/
structure Feeds (e : Det σ n) (gamma lr : ℝ) (batches : ℕ → List (Out σ (Fin n) ℝ)) (tau : ℕ → ℝ) : Prop where
  rows : ∀ t, ∀ o ∈ batches t, e.Row gamma o
  nonempty : ∀ t, batches t ≠ []
  bounded : ∃ B : ℕ, ∀ t, (batches t).length ≤ B
  rate : ∀ t, ∀ o ∈ batches t, lr * min (max o.W 0.1) 10 ≤ 1
  tau_nonneg : ∀ t, 0 ≤ tau t
  tau_le : ∀ t, tau t ≤ 1
  visits : ∀ s a t, ∃ t', t ≤ t' ∧ ∃ o ∈ batches t', o.S = s ∧ o.A = a
  syncs : ∃ tau0, 0 < tau0 ∧ ∀ t, ∃ t', t ≤ t' ∧ tau0 ≤ tau t'

theorem share_nonneg (rows : List (Out σ (Fin n) ℝ)) (s : σ) (a : Fin n) : 0 ≤ share rows s a := by
  unfold share
  refine div_nonneg (List.sum_nonneg ?_) (Nat.cast_nonneg _)
  intro x hx
  obtain ⟨o, -, rfl⟩ := List.mem_map.1 hx
  show 0 ≤ if s = o.S ∧ a = o.A then weight o else 0
  split
  · unfold weight
    exact le_min ((by norm_num : (0 : ℝ) ≤ 0.1).trans (le_max_right _ _)) (by norm_num)
  · exact le_rfl

theorem share_le {lr : ℝ} (hlr : 0 < lr) {rows : List (Out σ (Fin n) ℝ)} (h : ∀ o ∈ rows, lr * min (max o.W 0.1) 10 ≤ 1) (s : σ) (a : Fin n) : lr * share rows s a ≤ 1 := by
  unfold share
  rw [← mul_div_assoc, ← List.sum_map_mul_left]
  refine div_le_one_of_le₀ ?_ (Nat.cast_nonneg _)
  have : ∀ l : List (Out σ (Fin n) ℝ), (∀ o ∈ l, lr * min (max o.W 0.1) 10 ≤ 1) → (l.map fun o => lr * if s = o.S ∧ a = o.A then weight o else 0).sum ≤ l.length := by
    intro l
    induction l with
    | nil => simp
    | cons o l ih =>
      intro h
      have h1 : lr * weight o ≤ 1 := h o (by simp)
      have h2 := ih fun o' ho' => h o' (by simp [ho'])
      simp only [List.map_cons, List.sum_cons, List.length_cons, Nat.cast_add, Nat.cast_one]
      split
      · linarith
      · linarith
  exact this rows h

theorem share_ge {rows : List (Out σ (Fin n) ℝ)} {B : ℕ} (hB : rows.length ≤ B) {o : Out σ (Fin n) ℝ} (ho : o ∈ rows) : 0.1 / (B : ℝ) ≤ share rows o.S o.A := by
  have hpos : (0 : ℝ) < rows.length := by exact_mod_cast List.length_pos_of_mem ho
  have hnn : ∀ o' : Out σ (Fin n) ℝ, 0 ≤ if o.S = o'.S ∧ o.A = o'.A then weight o' else 0 := by
    intro o'
    split
    · unfold weight
      exact le_min ((by norm_num : (0 : ℝ) ≤ 0.1).trans (le_max_right _ _)) (by norm_num)
    · exact le_rfl
  have h1 : (0.1 : ℝ) ≤ (rows.map fun o' => if o.S = o'.S ∧ o.A = o'.A then weight o' else 0).sum := by
    have h2 : weight o ∈ rows.map fun o' => if o.S = o'.S ∧ o.A = o'.A then weight o' else 0 := List.mem_map.2 ⟨o, ho, by simp⟩
    refine le_trans ?_ (List.single_le_sum (fun x hx => ?_) _ h2)
    · unfold weight
      exact le_min (le_max_right _ _) (by norm_num)
    · obtain ⟨o', -, rfl⟩ := List.mem_map.1 hx
      exact hnn o'
  unfold share
  calc (0.1 : ℝ) / B ≤ 0.1 / rows.length := div_le_div_of_nonneg_left (by norm_num) hpos (by exact_mod_cast hB)
    _ ≤ _ := div_le_div_of_nonneg_right h1 hpos.le

theorem learn_append {lr : ℝ} {L : LossFn} {updateRule} {type1 : Bool} {θ θ' : (σ → Fin n → ℝ) × (σ → Fin n → ℝ)} {bs : List (List (Out σ (Fin n) ℝ) × ℝ)} (h : learn lr L updateRule type1 θ bs = .ok θ') (bs' : List (List (Out σ (Fin n) ℝ) × ℝ)) :
    learn lr L updateRule type1 θ (bs ++ bs') = learn lr L updateRule type1 θ' bs' := by
  induction bs generalizing θ with
  | nil => cases h; rfl
  | cons x bs ih =>
    obtain ⟨θ, θT⟩ := θ
    obtain ⟨rows, tau⟩ := x
    rw [List.cons_append, learn]
    rw [learn] at h
    split at h
    · cases h
    · rename_i e
      exact ih h

/-- The losses that updaters are usually made with. -/
def StandardLoss (L : LossFn) : Prop := L = mse1 ∨ ∃ delta, 0 < delta ∧ L = huber1 delta

theorem standard {L : LossFn} (h : StandardLoss L) : ∃ l l' c k, MeanOf l l' L ∧ Gentle l' c k := by
  rcases h with rfl | ⟨delta, hd, rfl⟩
  · exact ⟨_, _, _, _, mse1_meanOf, gentle_mse⟩
  · exact ⟨_, _, _, _, huber1_meanOf hd.le, gentle_huber hd⟩

theorem learn_converges [Fintype σ] {updateRule} {type1 : Bool} {boot : σ → (Fin n → ℝ) → ℝ → Prop} (hr : Rule updateRule type1 boot) (hn : 0 < n) {e : Det σ n} {gamma lr : ℝ} (h0 : 0 ≤ gamma) (h1 : gamma < 1) (hlr : 0 < lr) {L : LossFn}
    (hL : StandardLoss L) {batches : ℕ → List (Out σ (Fin n) ℝ)} {tau : ℕ → ℝ} (hf : Feeds e gamma lr batches tau) {best : σ → Fin n → ℝ} (hbest : e.Solves gamma boot best) (θ0 θT0 : σ → Fin n → ℝ) :
    ∃ θ θT : ℕ → σ → Fin n → ℝ, (∀ k, learn lr L updateRule type1 (θ0, θT0) ((List.range k).map fun t => (batches t, tau t)) = .ok (θ k, θT k)) ∧
      ∀ s a, Tendsto (fun k => θ k s a) atTop (𝓝 (best s a)) ∧ Tendsto (fun k => θT k s a) atTop (𝓝 (best s a)) := by
  obtain ⟨l, l', c, k, hL, hc⟩ := standard hL
  choose val hval using hr.value
  -- one update
  have step : ∀ θT θ t, sgdUpdate lr L updateRule type1 θT θ (batches t) = .ok fun s a => θ s a + lr * share (batches t) s a * c (e.op gamma val (fun p => θT p.1 p.2) (s, a) - θ s a) *
      (e.op gamma val (fun p => θT p.1 p.2) (s, a) - θ s a) := by
    intro θT θ t
    obtain ⟨b, hb, ht⟩ := rule_targets hr hval (hf.rows t) θ θT
    exact sgdUpdate_eq hL hc hn (hf.nonempty t) hb (T := fun s a => e.op gamma val (fun p => θT p.1 p.2) (s, a)) ht lr
  let next : ℕ → (σ → Fin n → ℝ) × (σ → Fin n → ℝ) → (σ → Fin n → ℝ) × (σ → Fin n → ℝ) := fun t x =>
    let θ' : σ → Fin n → ℝ := fun s a => x.1 s a + lr * share (batches t) s a * c (e.op gamma val (fun p => x.2 p.1 p.2) (s, a) - x.1 s a) * (e.op gamma val (fun p => x.2 p.1 p.2) (s, a) - x.1 s a)
    (θ', softTable (tau t) x.2 θ')
  let run : ℕ → (σ → Fin n → ℝ) × (σ → Fin n → ℝ) := fun k => Nat.rec (θ0, θT0) (fun t x => next t x) k
  have hrun : ∀ k, learn lr L updateRule type1 (θ0, θT0) ((List.range k).map fun t => (batches t, tau t)) = .ok (run k) := by
    intro k
    induction k with
    | zero => rfl
    | succ k ih =>
      rw [List.range_succ, List.map_append, learn_append ih]
      show learn lr L updateRule type1 ((run k).1, (run k).2) [(batches k, tau k)] = _
      rw [learn, step]
      rfl
  refine ⟨fun k => (run k).1, fun k => (run k).2, hrun, ?_⟩
  have hA : Async (e.op gamma val) (fun t p => (run t).1 p.1 p.2) (fun t p => (run t).2 p.1 p.2)
      (fun t p => lr * share (batches t) p.1 p.2 * c (e.op gamma val (fun p => (run t).2 p.1 p.2) p - (run t).1 p.1 p.2)) tau := by
    refine ⟨fun t p => mul_nonneg (mul_nonneg hlr.le (share_nonneg _ _ _)) (hc.nonneg _), fun t p => ?_, fun t p => rfl, hf.tau_nonneg, hf.tau_le, fun t p => rfl⟩
    exact mul_le_one₀ (share_le hlr (hf.rate t) _ _) (hc.nonneg _) (hc.le_one _)
  have hT : Attracts (e.op gamma val) (fun p => best p.1 p.2) gamma := by
    intro g M hM p
    have h2 := congrFun ((solves_iff hr hval best).1 hbest) p
    show |_ - best p.1 p.2| ≤ _
    rw [show best p.1 p.2 = _ from h2.symm]
    exact op_attracts hr hval h0 g _ M hM ((abs_nonneg _).trans (hM p)) p
  obtain ⟨B, hB⟩ := hf.bounded
  obtain ⟨tau0, ht0, hts⟩ := hf.syncs
  have hBpos : 0 < B := lt_of_lt_of_le (List.length_pos_iff.2 (hf.nonempty 0)) (hB 0)
  obtain ⟨c1, c2⟩ := hA.converges hT h0 h1 (beta := fun M => lr * (0.1 / B) * k M) (fun M => mul_pos (mul_pos hlr (div_pos (by norm_num) (by exact_mod_cast hBpos))) (hc.pos M)) ht0
    (fun p t => by
      obtain ⟨t', h2, o, ho, h3, h4⟩ := hf.visits p.1 p.2 t
      refine ⟨t', h2, fun M hM => ?_⟩
      have h5 := share_ge (hB t') ho
      rw [h3, h4] at h5
      exact mul_le_mul (mul_le_mul_of_nonneg_left h5 hlr.le) (hc.lower _ _ hM) (hc.pos M).le (mul_nonneg hlr.le (share_nonneg _ _ _)))
    hts
  exact fun s a => ⟨c1 (s, a), c2 (s, a)⟩

/-! ### The update rules of coax -/

omit [DecidableEq σ] in
theorem Bootstraps.imp {α : Type _} {f fInv : ℝ → ℝ} {b : TBatch σ α} {spec spec' : σ → ℝ → Prop} {target : Except Err (List ℝ)} (h : Bootstraps f fInv b spec target) (hi : ∀ s x, spec s x → spec' s x) : Bootstraps f fInv b spec' target := by
  obtain ⟨G, h1, h2, h3⟩ := h
  refine ⟨G, h1, h2, fun i r d s a1 a2 a3 => ?_⟩
  obtain ⟨x, hx, hG⟩ := h3 i r d s a1 a2 a3
  exact ⟨x, hi s x hx, hG⟩

omit [DecidableEq σ] in
/-- Both types of tables compute the same, also for actions that are not one-hot. -/
theorem table_types (θ : σ → Fin n → ℝ) (S : List σ) (A : List (List ℝ)) (hA : ∀ a ∈ A, a.length = n) (hl : A.length = S.length) : functionType1 n (table true θ) S A = functionType1 n (table false θ) S A := by
  unfold table functionType1
  simp only [if_true, Bool.false_eq_true, if_false]
  rw [if_neg (by simpa using hA), if_neg (by simp [hl])]
  congr 1
  rw [List.zipWith_map_right, List.zipWith_comm]

omit [DecidableEq σ] in
theorem ext_apply (θ : σ → Fin n → ℝ) (s : σ) (a : Fin n) : ext θ s a = θ s a := by simp [ext]

omit [DecidableEq σ] in
theorem isMaxOf_greatest {θ : σ → Fin n → ℝ} {s : σ} {x : ℝ} (h : IsMaxOf n (ext θ s) x) : Greedy s (θ s) x := by
  obtain ⟨⟨a, ha, rfl⟩, h2⟩ := h
  refine ⟨⟨⟨a, ha⟩, by simp [ext, ha]⟩, ?_⟩
  rintro y ⟨b, rfl⟩
  rw [← ext_apply θ s b]
  exact h2 b b.2

omit [DecidableEq σ] in
theorem rule_qLearning (hn : 0 < n) (type1 : Bool) : Rule (σ := σ) (n := n) (qLearning n) type1 Greedy where
  bootstraps θQ θT b hb := by
    have h2 : Bootstraps id id b (fun s x => Greedy s (θT s) x) (qLearning n (tabular false θQ) (tabular false θT) b) :=
      Bootstraps.imp (C46_qLearning_partial hn (q := tabular false θQ) (qTarg := tabular false θT) hb (table_computes false θT) rfl (Or.inl ⟨_, rfl⟩)) fun s x h => isMaxOf_greatest h
    cases type1 with
    | false => exact h2
    | true =>
      have e : qLearning n (tabular true θQ) (tabular true θT) b = qLearning n (tabular false θQ) (tabular false θT) b := by
        unfold qLearning tabular
        simp only
        rw [(C55_agree hn (table_computes true θT) b.S_next).1, (C55_agree hn (table_computes false θT) b.S_next).1]
        simp only
        rw [greedy_ok hn]
        simp only
        rw [table_types _ _ _ (by simp) (by simp)]
      rw [e]; exact h2
  close s r1 r2 x1 x2 eps h1 h2 h := by
    obtain ⟨⟨a, rfl⟩, h1⟩ := h1
    obtain ⟨⟨b, rfl⟩, h2⟩ := h2
    have e1 := abs_le.1 (h a)
    have e2 := abs_le.1 (h b)
    have e3 : r2 a ≤ r2 b := h2 ⟨a, rfl⟩
    have e4 : r1 b ≤ r1 a := h1 ⟨b, rfl⟩
    exact abs_le.2 ⟨by linarith, by linarith⟩

/-- The probabilities of a policy that is given by logits. -/
noncomputable def probs (logits : σ → Fin n → ℝ) (s : σ) (a : Fin n) : ℝ := Real.exp (logits s a) / ∑ b, Real.exp (logits s b)

omit [DecidableEq σ] in
theorem sum_ext (F : ℝ → ℝ → ℝ) (θ l : σ → Fin n → ℝ) (s : σ) : ∑ a ∈ Finset.range n, F (ext l s a) (ext θ s a) = ∑ a, F (l s a) (θ s a) := by
  rw [← Fin.sum_univ_eq_sum_range (fun a => F (ext l s a) (ext θ s a)) n]
  simp [ext_apply]

omit [DecidableEq σ] in
theorem rule_expectedSarsa (hn : 0 < n) (type1 : Bool) (logits : σ → Fin n → ℝ) :
    Rule (σ := σ) (n := n) (fun q qTarg => expectedSarsa n (fun S => S.map fun s => (List.finRange n).map (logits s)) q qTarg) type1 (Mean (probs logits)) where
  bootstraps θQ θT b hb := by
    have hl : (fun S : List σ => S.map fun s => (List.finRange n).map (logits s)) = fun S => S.map fun s => (List.range n).map (ext logits s) := by
      funext S
      exact List.map_congr_left fun s _ => ext_row logits s
    have h2 : Bootstraps id id b (fun s x => Mean (probs logits) s (θT s) x) (expectedSarsa n (fun S => S.map fun s => (List.finRange n).map (logits s)) (tabular false θQ) (tabular false θT) b) := by
      rw [hl]
      refine Bootstraps.imp (C46_expectedSarsa_partial (q := tabular false θQ) (qTarg := tabular false θT) (l := ext logits) hb rfl (table_computes false θT) hn) fun s x h => ?_
      rw [h.1]
      unfold Mean probs
      have e : ∑ c ∈ Finset.range n, Real.exp (ext logits s c) = ∑ c, Real.exp (logits s c) := sum_ext (fun x _ => Real.exp x) θT logits s
      rw [e]
      exact sum_ext (fun x y => Real.exp x / (∑ c, Real.exp (logits s c)) * y) θT logits s
    cases type1 with
    | false => exact h2
    | true =>
      have e : expectedSarsa n (fun S => S.map fun s => (List.finRange n).map (logits s)) (tabular true θQ) (tabular true θT) b =
          expectedSarsa n (fun S => S.map fun s => (List.finRange n).map (logits s)) (tabular false θQ) (tabular false θT) b := by
        unfold expectedSarsa tabular
        simp only
        rw [table_types _ _ _ (by simp [TD.softmax]) (by simp)]
      rw [e]; exact h2
  close s r1 r2 x1 x2 eps h1 h2 h := by
    have hpos : 0 < ∑ b, Real.exp (logits s b) := Finset.sum_pos (fun _ _ => Real.exp_pos _) ⟨⟨0, hn⟩, Finset.mem_univ _⟩
    have hone : ∑ a, probs logits s a = 1 := by
      unfold probs
      rw [← Finset.sum_div, div_self hpos.ne']
    rw [h1, h2, ← Finset.sum_sub_distrib]
    calc |∑ a, (probs logits s a * r1 a - probs logits s a * r2 a)| ≤ ∑ a, |probs logits s a * r1 a - probs logits s a * r2 a| := Finset.abs_sum_le_sum_abs _ _
      _ ≤ ∑ a, probs logits s a * eps := Finset.sum_le_sum fun a _ => by
        have hp : 0 ≤ probs logits s a := div_nonneg (Real.exp_pos _).le hpos.le
        rw [← mul_sub, abs_mul, abs_of_nonneg hp]
        exact mul_le_mul_of_nonneg_left (h a) hp
      _ = eps := by rw [← Finset.sum_mul, hone, one_mul]

omit [DecidableEq σ] in
theorem rule_softQLearning (hn : 0 < n) (type1 : Bool) {temp : ℝ} (ht : 0 < temp) : Rule (σ := σ) (n := n) (fun q qTarg => softQLearning n temp q qTarg) type1 (Soft temp) where
  bootstraps θQ θT b hb := by
    refine Bootstraps.imp (C46_softQLearning hn ht (q := tabular type1 θQ) (qTarg := tabular type1 θT) hb (table_computes type1 θT)) fun s x h => ?_
    unfold Soft
    rw [h.1]
    exact sum_ext (fun _ y => Real.exp (y / temp)) θT θT s
  close s r1 r2 x1 x2 eps h1 h2 h := by
    have key : ∀ (p q : Fin n → ℝ) (x y : ℝ), (∀ a, p a ≤ q a + eps) → Real.exp (x / temp) = ∑ a, Real.exp (p a / temp) → Real.exp (y / temp) = ∑ a, Real.exp (q a / temp) → x ≤ y + eps := by
      intro p q x y hpq hx hy
      have : Real.exp (x / temp) ≤ Real.exp ((y + eps) / temp) := by
        rw [add_div, Real.exp_add, hx, hy, Finset.sum_mul]
        refine Finset.sum_le_sum fun a _ => ?_
        rw [← Real.exp_add, ← add_div]
        exact Real.exp_le_exp.2 (div_le_div_of_nonneg_right (hpq a) ht.le)
      exact (div_le_div_iff_of_pos_right ht).1 (Real.exp_le_exp.1 this)
    have e1 := key r1 r2 x1 x2 (fun a => by have := abs_le.1 (h a); linarith) h1 h2
    have e2 := key r2 r1 x2 x1 (fun a => by have := abs_le.1 (h a); linarith) h2 h1
    exact abs_le.2 ⟨by linarith, by linarith⟩

end Coax.Loop
