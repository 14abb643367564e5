import Verif.Loop.OptimalProps
import Verif.Dists.CramerProps
import Verif.TD.StochasticProps
import Verif.TD.DistLossProps

/-!
Property C122: learning the distribution of the return with a discretized interval converges.  (That the projection is a contraction is in `Verif.Dists.CramerProps`.)
-/

namespace Coax.Loop

open Coax.RewardTracing Coax.TD Coax.Core Coax.Values Coax.Pol Coax.Dists Filter Topology MeasureTheory

variable {P σ : Type _} {n m k : Nat}

/-! ### Specification -/

/-- The part of the mass at `x` that goes to the atom `i`: linear interpolation between the neighbours; values outside are moved to the first or last atom. -/
noncomputable def part (k : Nat) (low high x : ℝ) (i : Fin k) : ℝ :=
  max 0 (1 - |min (max x (low + (high - low) / k / 2)) (high - (high - low) / k / 2) - (low + (i.1 + 1 / 2) * ((high - low) / k))| / ((high - low) / k))

/-- Probabilities of the atoms for all states and actions. -/
def Chances (F : σ → Fin n → Fin k → ℝ) : Prop := ∀ s a, (∀ i, 0 ≤ F s a i) ∧ ∑ i, F s a i = 1

/-- The distributional Bellman equation of a policy, with projection to the atoms. -/
def Mdp.Projected (e : Mdp σ n m) (gamma : ℝ) (p : σ → Fin n → ℝ) (low high : ℝ) (F : σ → Fin n → Fin k → ℝ) : Prop :=
  ∀ s a i, F s a i = ∑ j, e.prob s a j * ∑ b, p (e.next s a j) b *
    ∑ l, F (e.next s a j) b l * part k low high (e.reward s a j + (if e.ends s a j then 0 else gamma) * (low + (l.1 + 1 / 2) * ((high - low) / k))) i

/-- A q-function that looks up the logits of the atoms. -/
structure Table (hk : 0 < k) (low high : ℝ) (q : SQFn P σ (List ℝ) (Fin k → ℝ)) (L : σ → Fin n → Fin k → ℝ) : Prop where
  dist : q.dist = intervalDist hk low high
  transform : q.transform = id
  inverse : q.inverse = id
  computes : Computes n (fun s a => if h : a < n then L s ⟨a, h⟩ else 0) (q.forward q.params)

/-- The batch with one transition. -/
def one (e : Mdp σ n m) (gamma : ℝ) (s : σ) (a : Fin n) (j : Fin m) (A : List (List ℝ)) : TBatch σ (List ℝ) where
  Rn := [e.reward s a j]
  In := [if e.ends s a j then 0 else gamma]
  S_next := [e.next s a j]
  A_next := A

/-- The logits `z` have the least expected loss for targets that appear with these weights. -/
def LeastLoss {ι : Type _} [Fintype ι] (w : ι → ℝ) (out : ι → Fin k → ℝ) (z : Fin k → ℝ) : Prop :=
  ∀ y : Fin k → ℝ, ∃ x x' : ι → ℝ, (∀ i, intervalLoss k [List.ofFn (out i)] [List.ofFn z] [1] = .ok (some (x i))) ∧ (∀ i, intervalLoss k [List.ofFn (out i)] [List.ofFn y] [1] = .ok (some (x' i))) ∧
    ∑ i, w i * x i ≤ ∑ i, w i * x' i

/-- The table `L'` has the least expected loss of `Sarsa` with the target table `L`, for each state and action, if actions have the probabilities `p`. -/
def Mdp.SarsaSweep (e : Mdp σ n m) (gamma : ℝ) (p : σ → Fin n → ℝ) (qTarg : SQFn P σ (List ℝ) (Fin k → ℝ)) (L' : σ → Fin n → Fin k → ℝ) : Prop :=
  ∀ s a, ∃ out : Fin m × Fin n → Fin k → ℝ, (∀ i, stochSarsa n qTarg (one e gamma s a i.1 [oneHot n i.2.1]) = .ok [some (out i)]) ∧
    LeastLoss (fun i => e.prob s a i.1 * p (e.next s a i.1) i.2) out (L' s a)

/-- The same for `QLearning`. -/
def Mdp.QSweep (e : Mdp σ n m) (gamma : ℝ) (qTarg : SQFn P σ (List ℝ) (Fin k → ℝ)) (L' : σ → Fin n → Fin k → ℝ) : Prop :=
  ∀ s a, ∃ out : Fin m → Fin k → ℝ, (∀ j, stochQLearning n qTarg (one e gamma s a j []) = .ok [some (out j)]) ∧ LeastLoss (fun j => e.prob s a j) out (L' s a)

/-! ### The loss -/

theorem interval_loss (t y : Fin k → ℝ) (W : List ℝ) : intervalLoss k [List.ofFn t] [List.ofFn y] W = .ok (some (crossEntropyRow t y)) := by
  simp [intervalLoss, Coax.Dists.crossEntropy, batch2, checkShape, Coax.Pol.mean]

theorem gibbs (x y : Fin k → ℝ) : crossEntropyRow x x ≤ crossEntropyRow x y ∧ (crossEntropyRow x x = crossEntropyRow x y ↔ Dists.softmax x = Dists.softmax y) := by
  obtain ⟨h1, h2⟩ := C49_kl_nonneg x y
  have h3 := C49_kl_eq x y
  have h4 := C49_kl_eq x x
  have h5 := (C49_kl_nonneg x x).2.2 rfl
  refine ⟨by linarith, ?_⟩
  rw [show (Dists.softmax x = Dists.softmax y) = (meanRow x = meanRow y) from rfl, ← h2]
  constructor <;> intro h <;> linarith

theorem mixture_pos {ι : Type _} [Fintype ι] {w : ι → ℝ} (hw : ∀ i, 0 ≤ w i) (hw1 : ∑ i, w i = 1) (out : ι → Fin k → ℝ) (l : Fin k) : 0 < ∑ i, w i * Dists.softmax (out i) l := by
  obtain ⟨i, hi⟩ : ∃ i, 0 < w i := by
    by_contra h
    push Not at h
    have : ∑ i, w i ≤ 0 := Finset.sum_nonpos fun i _ => h i
    linarith
  exact Finset.sum_pos' (fun i _ => mul_nonneg (hw i) (softmax_pos _ l).le) ⟨i, Finset.mem_univ _, mul_pos hi (softmax_pos _ l)⟩

/-- The logits of the mixture. -/
theorem mixture_softmax (hk : 0 < k) {ι : Type _} [Fintype ι] {w : ι → ℝ} (hw : ∀ i, 0 ≤ w i) (hw1 : ∑ i, w i = 1) (out : ι → Fin k → ℝ) (l : Fin k) :
    Dists.softmax (fun l => Real.log (∑ i, w i * Dists.softmax (out i) l)) l = ∑ i, w i * Dists.softmax (out i) l := by
  have e : ∀ l, Real.exp (Real.log (∑ i, w i * Dists.softmax (out i) l)) = ∑ i, w i * Dists.softmax (out i) l := fun l => Real.exp_log (mixture_pos hw hw1 out l)
  have s : ∑ l, ∑ i, w i * Dists.softmax (out i) l = 1 := by
    rw [Finset.sum_comm, ← hw1]
    exact Finset.sum_congr rfl fun i _ => by rw [← Finset.mul_sum, softmax_sum hk, mul_one]
  unfold Dists.softmax at *
  simp only [e, s, div_one]

/-- **C122**: the expected loss of a distributional value function is least for the mixture of the targets, and only for the mixture. -/
theorem C122_least_loss (hk : 0 < k) {ι : Type _} [Fintype ι] {w : ι → ℝ} (hw : ∀ i, 0 ≤ w i) (hw1 : ∑ i, w i = 1) (out : ι → Fin k → ℝ) (z : Fin k → ℝ) :
    LeastLoss w out z ↔ ∀ l, Real.exp (z l) / ∑ l', Real.exp (z l') = ∑ i, w i * (Real.exp (out i l) / ∑ l', Real.exp (out i l')) := by
  set x : Fin k → ℝ := fun l => Real.log (∑ i, w i * Dists.softmax (out i) l) with hx
  have hmix := mixture_softmax hk hw hw1 out
  have hce : ∀ y : Fin k → ℝ, ∑ i, w i * crossEntropyRow (out i) y = crossEntropyRow x y := by
    intro y
    unfold crossEntropyRow
    simp only [Finset.mul_sum]
    rw [Finset.sum_comm]
    refine Finset.sum_congr rfl fun l _ => ?_
    rw [hx, hmix l, Finset.sum_mul]
    exact Finset.sum_congr rfl fun i _ => by ring
  have hiff : LeastLoss w out z ↔ ∀ y, crossEntropyRow x z ≤ crossEntropyRow x y := by
    constructor
    · intro h y
      obtain ⟨a, a', h1, h2, h3⟩ := h y
      simp only [interval_loss, Except.ok.injEq, Option.some.injEq] at h1 h2
      rw [← hce z, ← hce y]
      simpa only [h1, h2] using h3
    · intro h y
      exact ⟨_, _, fun i => interval_loss _ _ _, fun i => interval_loss _ _ _, by rw [hce, hce]; exact h y⟩
  rw [hiff]
  have hfin : (∀ l, Real.exp (z l) / ∑ l', Real.exp (z l') = ∑ i, w i * (Real.exp (out i l) / ∑ l', Real.exp (out i l'))) ↔ Dists.softmax x = Dists.softmax z := by
    constructor
    · intro h; funext l; rw [hx, hmix l]; exact (h l).symm
    · intro h l
      have := congrFun h l
      rw [hx, hmix l] at this
      exact this.symm
  rw [hfin, ← (gibbs x z).2]
  constructor
  · intro h; exact le_antisymm (gibbs x z).1 (h x)
  · intro h y; rw [← h]; exact (gibbs x y).1

/-! ### The targets -/

theorem sarsa_one {hk : 0 < k} {low high : ℝ} {q : SQFn P σ (List ℝ) (Fin k → ℝ)} {L : σ → Fin n → Fin k → ℝ} (hq : Table hk low high q L) (e : Mdp σ n m) (gamma : ℝ) (s : σ) (a : Fin n) (j : Fin m) (b : Fin n)
    {out : Fin k → ℝ} (h : stochSarsa n q (one e gamma s a j [oneHot n b.1]) = .ok [some out]) :
    affineTransform hk low high (L (e.next s a j) b) (if e.ends s a j then 0 else gamma) (e.reward s a j) id id = some out := by
  obtain ⟨G, h1, h2, h3⟩ := C70_sarsa (b := one e gamma s a j [oneHot n b.1]) ⟨rfl, rfl⟩ hq.computes (acts := [b.1]) rfl rfl (by simp)
  rw [h] at h1; cases h1
  obtain ⟨p, p1, p2⟩ := h3 0 _ _ _ rfl rfl rfl
  have := p1 b.1 rfl
  rw [dif_pos b.2] at this
  subst this
  rw [hq.dist, hq.transform, hq.inverse] at p2
  have e1 : (intervalDist hk low high).affine (if e.ends s a j then 0 else gamma) (e.reward s a j) id id (L (e.next s a j) b) = some out := by simpa using p2.symm
  exact e1

theorem sarsa_one_ok {hk : 0 < k} {low high : ℝ} {q : SQFn P σ (List ℝ) (Fin k → ℝ)} {L : σ → Fin n → Fin k → ℝ} (hq : Table hk low high q L) (e : Mdp σ n m) (gamma : ℝ) (s : σ) (a : Fin n) (j : Fin m) (b : Fin n)
    {out : Fin k → ℝ} (h : affineTransform hk low high (L (e.next s a j) b) (if e.ends s a j then 0 else gamma) (e.reward s a j) id id = some out) :
    stochSarsa n q (one e gamma s a j [oneHot n b.1]) = .ok [some out] := by
  obtain ⟨G, h1, h2, h3⟩ := C70_sarsa (b := one e gamma s a j [oneHot n b.1]) ⟨rfl, rfl⟩ hq.computes (acts := [b.1]) rfl rfl (by simp)
  obtain ⟨p, p1, p2⟩ := h3 0 _ _ _ rfl rfl rfl
  have := p1 b.1 rfl
  rw [dif_pos b.2] at this
  subst this
  rw [hq.dist, hq.transform, hq.inverse] at p2
  have e1 : (intervalDist hk low high).affine (if e.ends s a j then 0 else gamma) (e.reward s a j) id id (L (e.next s a j) b) = some out := h
  rw [Fin.eta, e1] at p2
  rw [h1]
  congr 1
  match G, h2, p2 with
  | [g], _, p2 => simpa using p2

/-! ### The projection in terms of the specification -/

/-- The projection of masses `p`, where `r + d·` is applied to the atoms. -/
noncomputable def shifted (low high d r : ℝ) (p : Fin k → ℝ) (i : Fin k) : ℝ := ∑ l, p l * part k low high (r + d * (low + (l.1 + 1 / 2) * ((high - low) / k))) i

theorem project_shifted (hk : 2 ≤ k) {low high : ℝ} (hlh : low < high) (p : Fin k → ℝ) (d r : ℝ) :
    project (by omega) (atoms k low high) p d r id id = some (shifted low high d r p) := by
  have hk' : (0 : ℝ) < k := by exact_mod_cast (by omega : 0 < k)
  have hd : 0 < (high - low) / k := div_pos (by linarith) hk'
  obtain ⟨m, hm, he⟩ := project_eq hk hlh p d r id id
  rw [hm]
  congr 1
  funext i
  rw [he]
  unfold shifted
  refine Finset.sum_congr rfl fun l _ => ?_
  congr 1
  obtain ⟨a1, a2, -⟩ := atoms_facts hk low high
  unfold hat part pos target Dists.clip
  rw [a1, a2]
  have e1 : low + 0.5 * (high - low) / k = low + (high - low) / k / 2 := by ring
  have e2 : low + (high - low) / k / 2 + ((k : ℝ) - 1) * ((high - low) / k) = high - (high - low) / k / 2 := by field_simp; ring
  have e3 : id (d * id (atoms k low high l) + r) = r + d * (low + (l.1 + 1 / 2) * ((high - low) / k)) := by
    simp only [id, atoms]; ring
  rw [e1, e2, e3]
  set x := min (max (r + d * (low + (l.1 + 1 / 2) * ((high - low) / k))) (low + (high - low) / k / 2)) (high - (high - low) / k / 2) with hx
  have e4 : (x - (low + (high - low) / k / 2)) / ((high - low) / k) - ((i.1 : Int) : ℝ) = (x - (low + (i.1 + 1 / 2) * ((high - low) / k))) / ((high - low) / k) := by
    rw [Int.cast_natCast]
    have := hd.ne'
    rw [eq_div_iff this, sub_mul, div_mul_cancel₀ _ this]; ring
  rw [e4, abs_div, abs_of_pos hd]

theorem shifted_sum (hk : 2 ≤ k) {low high : ℝ} (hlh : low < high) (p : Fin k → ℝ) (d r : ℝ) : ∑ i, shifted low high d r p i = ∑ i, p i := by
  obtain ⟨m, hm, -, h, -⟩ := C48_projection hk hlh p d r id id
  rw [project_shifted hk hlh] at hm; cases hm
  exact h

theorem shifted_nonneg (hk : 2 ≤ k) {low high : ℝ} (hlh : low < high) {p : Fin k → ℝ} (hp : ∀ i, 0 ≤ p i) (d r : ℝ) (i : Fin k) : 0 ≤ shifted low high d r p i := by
  obtain ⟨m, hm, h, -⟩ := C48_projection hk hlh p d r id id
  rw [project_shifted hk hlh] at hm; cases hm
  exact h hp i

theorem shifted_close (hk : 2 ≤ k) {low high : ℝ} (hlh : low < high) {p p' : Fin k → ℝ} (hp : ∑ i, p i = ∑ i, p' i) {d : ℝ} (hd : 0 ≤ d) (r : ℝ) :
    cramer (atoms k low high) (shifted low high d r p) (shifted low high d r p') ≤ Real.sqrt d * cramer (atoms k low high) p p' := by
  obtain ⟨m, m', h1, h2, h3⟩ := C122_discount hk hlh hp hd r
  rw [project_shifted hk hlh] at h1 h2
  cases h1; cases h2
  exact h3

/-- What `affine_transform` returns is near the projection. -/
theorem affine_near (hk : 2 ≤ k) {low high : ℝ} (hlh : low < high) {l out : Fin k → ℝ} {d r : ℝ} (h : affineTransform (by omega) low high l d r id id = some out) :
    cramer (atoms k low high) (Dists.softmax out) (shifted low high d r (Dists.softmax l)) ≤ 2 * k * 1e-16 * Real.sqrt (high - low) := by
  obtain ⟨m, o, a1, a2, -, a4, -, a6, a7⟩ := C48_output hk hlh l d r id id
  rw [project_shifted hk hlh] at a1; cases a1
  rw [h] at a2; cases a2
  exact cramer_le hk hlh (a6.trans a4.symm) a7

/-! ### The operator -/

/-- The right hand side of the distributional Bellman equation. -/
noncomputable def Mdp.spread (e : Mdp σ n m) (gamma : ℝ) (p : σ → Fin n → ℝ) (low high : ℝ) (F : σ → Fin n → Fin k → ℝ) (s : σ) (a : Fin n) (i : Fin k) : ℝ :=
  ∑ x : Fin m × Fin n, e.prob s a x.1 * p (e.next s a x.1) x.2 * shifted low high (if e.ends s a x.1 then 0 else gamma) (e.reward s a x.1) (F (e.next s a x.1) x.2) i

theorem projected_iff {e : Mdp σ n m} {gamma : ℝ} {p : σ → Fin n → ℝ} {low high : ℝ} {F : σ → Fin n → Fin k → ℝ} : e.Projected gamma p low high F ↔ e.spread gamma p low high F = F := by
  have : ∀ s a i, e.spread gamma p low high F s a i = ∑ j, e.prob s a j * ∑ b, p (e.next s a j) b *
      ∑ l, F (e.next s a j) b l * part k low high (e.reward s a j + (if e.ends s a j then 0 else gamma) * (low + (l.1 + 1 / 2) * ((high - low) / k))) i := by
    intro s a i
    unfold Mdp.spread shifted
    rw [Fintype.sum_prod_type]
    refine Finset.sum_congr rfl fun j _ => ?_
    rw [Finset.mul_sum]
    exact Finset.sum_congr rfl fun b _ => by rw [mul_assoc]
  constructor
  · intro h; funext s a i; rw [this, ← h s a i]
  · intro h s a i; rw [← this, h]

theorem weights_one {e : Mdp σ n m} (he : e.Proper) {p : σ → Fin n → ℝ} (hp : ∀ s, (∀ a, 0 ≤ p s a) ∧ ∑ a, p s a = 1) (s : σ) (a : Fin n) :
    (∀ x : Fin m × Fin n, 0 ≤ e.prob s a x.1 * p (e.next s a x.1) x.2) ∧ ∑ x : Fin m × Fin n, e.prob s a x.1 * p (e.next s a x.1) x.2 = 1 := by
  refine ⟨fun x => mul_nonneg (he.nonneg s a x.1) ((hp _).1 x.2), ?_⟩
  rw [Fintype.sum_prod_type, ← he.total s a]
  exact Finset.sum_congr rfl fun j _ => by simp only; rw [← Finset.mul_sum, (hp _).2, mul_one]

theorem disc_le {gamma : ℝ} (h0 : 0 ≤ gamma) (b : Bool) : 0 ≤ (if b then 0 else gamma) ∧ Real.sqrt (if b then 0 else gamma) ≤ Real.sqrt gamma := by
  cases b
  · exact ⟨h0, le_rfl⟩
  · exact ⟨le_rfl, Real.sqrt_le_sqrt h0⟩

theorem spread_chances (hk : 2 ≤ k) {low high : ℝ} (hlh : low < high) {e : Mdp σ n m} (he : e.Proper) {p : σ → Fin n → ℝ} (hp : ∀ s, (∀ a, 0 ≤ p s a) ∧ ∑ a, p s a = 1) (gamma : ℝ)
    {F : σ → Fin n → Fin k → ℝ} (hF : Chances F) : Chances (e.spread gamma p low high F) := by
  intro s a
  obtain ⟨w0, w1⟩ := weights_one he hp s a
  refine ⟨fun i => Finset.sum_nonneg fun x _ => mul_nonneg (w0 x) (shifted_nonneg hk hlh (hF _ _).1 _ _ i), ?_⟩
  unfold Mdp.spread
  rw [Finset.sum_comm, ← w1]
  exact Finset.sum_congr rfl fun x _ => by rw [← Finset.mul_sum, shifted_sum hk hlh, (hF _ _).2, mul_one]

theorem spread_close (hk : 2 ≤ k) {low high : ℝ} (hlh : low < high) {e : Mdp σ n m} (he : e.Proper) {p : σ → Fin n → ℝ} (hp : ∀ s, (∀ a, 0 ≤ p s a) ∧ ∑ a, p s a = 1) {gamma : ℝ} (h0 : 0 ≤ gamma)
    {F F' : σ → Fin n → Fin k → ℝ} (hF : Chances F) (hF' : Chances F') {D : ℝ} (hD : ∀ s a, cramer (atoms k low high) (F s a) (F' s a) ≤ D) (s : σ) (a : Fin n) :
    cramer (atoms k low high) (e.spread gamma p low high F s a) (e.spread gamma p low high F' s a) ≤ Real.sqrt gamma * D := by
  obtain ⟨w0, w1⟩ := weights_one he hp s a
  refine (C122_mixture hk hlh w0 (fun x => by rw [shifted_sum hk hlh, shifted_sum hk hlh, (hF _ _).2, (hF' _ _).2])).trans ?_
  rw [← one_mul (Real.sqrt gamma * D), ← w1, Finset.sum_mul]
  refine Finset.sum_le_sum fun x _ => mul_le_mul_of_nonneg_left ?_ (w0 x)
  have hd := disc_le h0 (e.ends s a x.1)
  refine (shifted_close hk hlh (by rw [(hF _ _).2, (hF' _ _).2]) hd.1 _).trans ?_
  exact mul_le_mul hd.2 (hD _ _) (Real.sqrt_nonneg _) (Real.sqrt_nonneg _)

theorem chances_far (hk : 2 ≤ k) {low high : ℝ} (hlh : low < high) {p p' : Fin k → ℝ} (hp : (∀ i, 0 ≤ p i) ∧ ∑ i, p i = 1) (hp' : (∀ i, 0 ≤ p' i) ∧ ∑ i, p' i = 1) :
    cramer (atoms k low high) p p' ≤ 2 * Real.sqrt (high - low) := by
  refine cramer_le hk hlh (hp.2.trans hp'.2.symm) ?_
  calc ∑ i, |p i - p' i| ≤ ∑ i, (p i + p' i) := Finset.sum_le_sum fun i _ => by
        have h1 := hp.1 i
        have h2 := hp'.1 i
        rw [abs_le]; constructor <;> linarith
    _ = 2 := by rw [Finset.sum_add_distrib, hp.2, hp'.2]; norm_num

/-- Distributions with converging cumulated masses converge. -/
theorem masses_converge (hk : 2 ≤ k) {x : ℕ → Fin k → ℝ} (hx : ∀ t, ∑ i, x t i = 1) {v : EuclideanSpace ℝ (Fin (k - 1))} (hv : Tendsto (fun t => emb (x t)) atTop (𝓝 v)) (i : Fin k) :
    ∃ y, Tendsto (fun t => x t i) atTop (𝓝 y) := by
  have hc : ∀ j, j ≤ k → ∃ y, Tendsto (fun t => cum (x t) j) atTop (𝓝 y) := by
    intro j hj
    rcases Nat.eq_zero_or_pos j with rfl | h0
    · exact ⟨0, by simp only [cum_zero]; exact tendsto_const_nhds⟩
    rcases Nat.lt_or_ge j k with h1 | h1
    · refine ⟨v ⟨j - 1, by omega⟩, ?_⟩
      have := ((PiLp.continuous_apply 2 (fun _ : Fin (k - 1) => ℝ) ⟨j - 1, by omega⟩).tendsto v).comp hv
      refine this.congr fun t => ?_
      simp only [Function.comp_apply, emb_apply]
      congr 1; omega
    · obtain rfl : j = k := by omega
      exact ⟨1, by simp only [cum_all, hx]; exact tendsto_const_nhds⟩
  obtain ⟨y1, h1⟩ := hc i.1 i.2.le
  obtain ⟨y2, h2⟩ := hc (i.1 + 1) i.2
  refine ⟨y2 - y1, (h2.sub h1).congr fun t => ?_⟩
  rw [cum_succ _ i.2]
  simp

/-- The operator has a fixed point. -/
theorem projected_exists (hk : 2 ≤ k) {low high : ℝ} (hlh : low < high) {e : Mdp σ n m} (he : e.Proper) {p : σ → Fin n → ℝ} (hp : ∀ s, (∀ a, 0 ≤ p s a) ∧ ∑ a, p s a = 1) {gamma : ℝ} (h0 : 0 ≤ gamma) (h1 : gamma < 1) :
    ∃ F : σ → Fin n → Fin k → ℝ, Chances F ∧ e.Projected gamma p low high F := by
  have hk' : (0 : ℝ) < k := by exact_mod_cast (by omega : 0 < k)
  have hdz : 0 < Real.sqrt ((high - low) / k) := Real.sqrt_pos.2 (div_pos (by linarith) hk')
  have hg0 := Real.sqrt_nonneg gamma
  have hg1 : Real.sqrt gamma < 1 := by rw [Real.sqrt_lt' one_pos]; simpa using h1
  let X : ℕ → σ → Fin n → Fin k → ℝ := fun t => (e.spread gamma p low high)^[t] (fun _ _ _ => 1 / k)
  have hX : ∀ t, X (t + 1) = e.spread gamma p low high (X t) := fun t => Function.iterate_succ_apply' _ _ _
  have hC : ∀ t, Chances (X t) := by
    intro t
    induction t with
    | zero =>
      intro s a
      refine ⟨fun i => by simp only [X, Function.iterate_zero, id]; positivity, ?_⟩
      simp only [X, Function.iterate_zero, id, Finset.sum_const, Finset.card_univ, Fintype.card_fin, nsmul_eq_mul]
      field_simp
    | succ t ih => rw [hX]; exact spread_chances hk hlh he hp gamma ih
  have hstep : ∀ t s a, cramer (atoms k low high) (X t s a) (X (t + 1) s a) ≤ 2 * Real.sqrt (high - low) * Real.sqrt gamma ^ t := by
    intro t
    induction t with
    | zero => intro s a; simpa using chances_far hk hlh (hC 0 s a) (hC 1 s a)
    | succ t ih =>
      intro s a
      have := spread_close hk hlh he hp h0 (hC t) (hC (t + 1)) ih s a
      rw [← hX, ← hX] at this
      rw [pow_succ]
      linarith
  have hconv : ∀ s a i, ∃ y, Tendsto (fun t => X t s a i) atTop (𝓝 y) := by
    intro s a
    have hcs : CauchySeq fun t => emb (X t s a) := by
      refine cauchySeq_of_le_geometric (Real.sqrt gamma) (2 * Real.sqrt (high - low) / Real.sqrt ((high - low) / k)) hg1 fun t => ?_
      have := hstep t s a
      rw [cramer_emb hk hlh (by rw [(hC t s a).2, (hC (t + 1) s a).2])] at this
      rw [div_mul_eq_mul_div, le_div_iff₀ hdz]
      linarith
    obtain ⟨v, hv⟩ := cauchySeq_tendsto_of_complete hcs
    exact masses_converge hk (fun t => (hC t s a).2) hv
  choose F hF using hconv
  refine ⟨F, fun s a => ⟨fun i => ge_of_tendsto' (hF s a i) fun t => (hC t s a).1 i, ?_⟩, ?_⟩
  · refine tendsto_nhds_unique (tendsto_finsetSum _ fun i _ => hF s a i) ?_
    simp only [(hC _ s a).2]
    exact tendsto_const_nhds
  · rw [projected_iff]
    funext s a i
    refine tendsto_nhds_unique (f := fun t => X (t + 1) s a i) (l := atTop) ?_ ((tendsto_add_atTop_iff_nat 1).2 (hF s a i))
    simp only [hX]
    unfold Mdp.spread shifted
    exact tendsto_finsetSum _ fun x _ => (tendsto_finsetSum _ fun l _ => (hF _ _ l).mul_const _).const_mul _

theorem sweep_eq (hk : 2 ≤ k) {low high : ℝ} {e : Mdp σ n m} (he : e.Proper) {p : σ → Fin n → ℝ} (hp : ∀ s, (∀ a, 0 ≤ p s a) ∧ ∑ a, p s a = 1) {gamma : ℝ}
    {q : SQFn P σ (List ℝ) (Fin k → ℝ)} {L L' : σ → Fin n → Fin k → ℝ} (hq : Table (by omega) low high q L) (h : e.SarsaSweep gamma p q L') (s : σ) (a : Fin n) :
    ∃ out : Fin m × Fin n → Fin k → ℝ, (∀ x, affineTransform (by omega) low high (L (e.next s a x.1) x.2) (if e.ends s a x.1 then 0 else gamma) (e.reward s a x.1) id id = some (out x)) ∧
      Dists.softmax (L' s a) = fun i => ∑ x, e.prob s a x.1 * p (e.next s a x.1) x.2 * Dists.softmax (out x) i := by
  obtain ⟨out, h1, h2⟩ := h s a
  obtain ⟨w0, w1⟩ := weights_one he hp s a
  refine ⟨out, fun x => sarsa_one hq e gamma s a x.1 x.2 (h1 x), ?_⟩
  funext i
  exact (C122_least_loss (by omega) w0 w1 out _).1 h2 i

theorem softmax_chances (hk : 0 < k) (L : σ → Fin n → Fin k → ℝ) : Chances fun s a => Dists.softmax (L s a) :=
  fun _ _ => ⟨fun i => (softmax_pos _ i).le, softmax_sum hk _⟩

theorem sweep_near (hk : 2 ≤ k) {low high : ℝ} (hlh : low < high) {e : Mdp σ n m} (he : e.Proper) {p : σ → Fin n → ℝ} (hp : ∀ s, (∀ a, 0 ≤ p s a) ∧ ∑ a, p s a = 1) {gamma : ℝ}
    {q : SQFn P σ (List ℝ) (Fin k → ℝ)} {L L' : σ → Fin n → Fin k → ℝ} (hq : Table (by omega) low high q L) (h : e.SarsaSweep gamma p q L') (s : σ) (a : Fin n) :
    cramer (atoms k low high) (Dists.softmax (L' s a)) (e.spread gamma p low high (fun s a => Dists.softmax (L s a)) s a) ≤ 2 * k * 1e-16 * Real.sqrt (high - low) := by
  obtain ⟨out, h1, h2⟩ := sweep_eq hk he hp hq h s a
  obtain ⟨w0, w1⟩ := weights_one he hp s a
  rw [h2]
  refine (C122_mixture hk hlh w0 (fun x => by rw [shifted_sum hk hlh, softmax_sum (by omega), softmax_sum (by omega)])).trans ?_
  rw [← one_mul (2 * k * 1e-16 * Real.sqrt (high - low)), ← w1, Finset.sum_mul]
  exact Finset.sum_le_sum fun x _ => mul_le_mul_of_nonneg_left (affine_near hk hlh (h1 x)) (w0 x)

/-- **C122**, evaluation: there is one solution of the projected distributional Bellman equation.  Let each table of logits have the least expected loss of `Sarsa` with the table before it as target.  Whatever the first table is, the distributions
approach the solution, by the square root of the discount factor each time, up to the floor of `1e-16` in the code. -/
theorem C122_evaluation (hk : 2 ≤ k) {low high : ℝ} (hlh : low < high) {e : Mdp σ n m} (he : e.Proper) {p : σ → Fin n → ℝ} (hp : ∀ s, (∀ a, 0 ≤ p s a) ∧ ∑ a, p s a = 1) {gamma : ℝ} (h0 : 0 ≤ gamma) (h1 : gamma < 1) :
    ∃ F : σ → Fin n → Fin k → ℝ, Chances F ∧ e.Projected gamma p low high F ∧ (∀ F', Chances F' → e.Projected gamma p low high F' → F' = F) ∧
      ∀ (q : ℕ → SQFn P σ (List ℝ) (Fin k → ℝ)) (L : ℕ → σ → Fin n → Fin k → ℝ), (∀ t, Table (by omega) low high (q t) (L t)) → (∀ t, e.SarsaSweep gamma p (q t) (L (t + 1))) →
        ∀ t s a, cramer (atoms k low high) (fun i => Real.exp (L t s a i) / ∑ j, Real.exp (L t s a j)) (F s a) ≤
          (2 * Real.sqrt gamma ^ t + 2 * k * 1e-16 / (1 - Real.sqrt gamma)) * Real.sqrt (high - low) := by
  have hg0 := Real.sqrt_nonneg gamma
  have hg1 : Real.sqrt gamma < 1 := by rw [Real.sqrt_lt' one_pos]; simpa using h1
  have hw := Real.sqrt_nonneg (high - low)
  obtain ⟨F, hF, hpF⟩ := projected_exists hk hlh he hp h0 h1
  refine ⟨F, hF, hpF, fun F' hF' hpF' => ?_, fun q L hq hL t => ?_⟩
  · have key : ∀ t : ℕ, ∀ s a, cramer (atoms k low high) (F' s a) (F s a) ≤ 2 * Real.sqrt (high - low) * Real.sqrt gamma ^ t := by
      intro t
      induction t with
      | zero => intro s a; simpa using chances_far hk hlh (hF' s a) (hF s a)
      | succ t ih =>
        intro s a
        have := spread_close hk hlh he hp h0 hF' hF ih s a
        rw [projected_iff.1 hpF, projected_iff.1 hpF'] at this
        rw [pow_succ]; linarith
    funext s a
    refine (C122_metric hk hlh ((hF' s a).2.trans (hF s a).2.symm) (q := F s a) (r := F s a) rfl).2.2.1 (le_antisymm ?_ (Real.sqrt_nonneg _))
    have hz := (tendsto_pow_atTop_nhds_zero_of_lt_one hg0 hg1).const_mul (2 * Real.sqrt (high - low))
    rw [mul_zero] at hz
    exact ge_of_tendsto' hz fun t => key t s a
  · have hS := fun t => softmax_chances (by omega : 0 < k) (L t)
    induction t with
    | zero =>
      intro s a
      have := chances_far hk hlh (hS 0 s a) (hF s a)
      have h2 : 0 ≤ 2 * k * 1e-16 / (1 - Real.sqrt gamma) * Real.sqrt (high - low) := mul_nonneg (div_nonneg (by positivity) (by linarith)) hw
      rw [pow_zero, add_mul]
      show cramer (atoms k low high) (Dists.softmax (L 0 s a)) (F s a) ≤ _
      linarith
    | succ t ih =>
      intro s a
      have c1 := sweep_near hk hlh he hp (hq t) (hL t) s a
      have c2 := spread_close hk hlh he hp h0 (hS t) hF ih s a
      rw [projected_iff.1 hpF] at c2
      have hsp := spread_chances hk hlh he hp gamma (hS t)
      have c3 := (C122_metric hk hlh ((hS (t + 1) s a).2.trans (hsp s a).2.symm) ((hsp s a).2.trans (hF s a).2.symm)).1
      show cramer (atoms k low high) (Dists.softmax (L (t + 1) s a)) (F s a) ≤ _
      refine (c3.trans (add_le_add c1 c2)).trans (le_of_eq ?_)
      have hne : 1 - Real.sqrt gamma ≠ 0 := by linarith
      rw [pow_succ]
      field_simp
      ring

/-- **C122**: such tables exist. -/
theorem C122_sweep_exists (hk : 2 ≤ k) {low high : ℝ} (hlh : low < high) {e : Mdp σ n m} (he : e.Proper) {p : σ → Fin n → ℝ} (hp : ∀ s, (∀ a, 0 ≤ p s a) ∧ ∑ a, p s a = 1) (gamma : ℝ)
    {q : SQFn P σ (List ℝ) (Fin k → ℝ)} {L : σ → Fin n → Fin k → ℝ} (hq : Table (by omega) low high q L) : ∃ L', e.SarsaSweep gamma p q L' := by
  have hout : ∀ s a (x : Fin m × Fin n), ∃ out, affineTransform (by omega) low high (L (e.next s a x.1) x.2) (if e.ends s a x.1 then 0 else gamma) (e.reward s a x.1) id id = some out := by
    intro s a x
    obtain ⟨m, out, -, h, -⟩ := C48_output hk hlh (L (e.next s a x.1) x.2) (if e.ends s a x.1 then 0 else gamma) (e.reward s a x.1) id id
    exact ⟨out, h⟩
  choose out hout using hout
  refine ⟨fun s a l => Real.log (∑ x, e.prob s a x.1 * p (e.next s a x.1) x.2 * Dists.softmax (out s a x) l), fun s a => ⟨out s a, fun x => sarsa_one_ok hq e gamma s a x.1 x.2 (hout s a x), ?_⟩⟩
  obtain ⟨w0, w1⟩ := weights_one he hp s a
  exact (C122_least_loss (by omega) w0 w1 _ _).2 fun l => mixture_softmax (by omega) w0 w1 (out s a) l

/-! ### Means -/

/-- The mean of the masses at the atoms. -/
noncomputable def center (low high : ℝ) (F : Fin k → ℝ) : ℝ := ∑ i, F i * (low + (i.1 + 1 / 2) * ((high - low) / k))

theorem atoms_center (low high : ℝ) (F : Fin k → ℝ) : ∑ i, F i * atoms k low high i = center low high F := by
  unfold center atoms
  exact Finset.sum_congr rfl fun i _ => by ring

/-- The targets are in the range of the atoms. -/
def Mdp.InRange (e : Mdp σ n m) (gamma : ℝ) (k : Nat) (low high : ℝ) : Prop :=
  ∀ s a j (l : Fin k), low + (high - low) / k / 2 ≤ e.reward s a j + (if e.ends s a j then 0 else gamma) * (low + (l.1 + 1 / 2) * ((high - low) / k)) ∧
    e.reward s a j + (if e.ends s a j then 0 else gamma) * (low + (l.1 + 1 / 2) * ((high - low) / k)) ≤ high - (high - low) / k / 2

theorem inRange_atoms (hk : 2 ≤ k) {e : Mdp σ n m} {gamma low high : ℝ} (hr : e.InRange gamma k low high) (s : σ) (a : Fin n) (j : Fin m) (l : Fin k) :
    atoms k low high ⟨0, by omega⟩ ≤ (if e.ends s a j then 0 else gamma) * atoms k low high l + e.reward s a j ∧
      (if e.ends s a j then 0 else gamma) * atoms k low high l + e.reward s a j ≤ atoms k low high ⟨k - 1, by omega⟩ := by
  have hk' : (0 : ℝ) < k := by exact_mod_cast (by omega : 0 < k)
  obtain ⟨a1, a2, -⟩ := atoms_facts hk low high
  obtain ⟨r1, r2⟩ := hr s a j l
  have e1 : low + 0.5 * (high - low) / k = low + (high - low) / k / 2 := by ring
  have e2 : low + (high - low) / k / 2 + ((k : ℝ) - 1) * ((high - low) / k) = high - (high - low) / k / 2 := by field_simp; ring
  have e3 : atoms k low high l = low + (l.1 + 1 / 2) * ((high - low) / k) := by unfold atoms; ring
  rw [a1, a2, e1, e2, e3]
  constructor <;> linarith

theorem shifted_center (hk : 2 ≤ k) {low high : ℝ} (hlh : low < high) {e : Mdp σ n m} {gamma : ℝ} (hr : e.InRange gamma k low high) (s : σ) (a : Fin n) (j : Fin m) {F : Fin k → ℝ} (hF : ∑ i, F i = 1) :
    center low high (shifted low high (if e.ends s a j then 0 else gamma) (e.reward s a j) F) = e.reward s a j + (if e.ends s a j then 0 else gamma) * center low high F := by
  obtain ⟨m, h1, h2⟩ := C48_mean hk hlh hF (inRange_atoms hk hr s a j)
  rw [project_shifted hk hlh] at h1; cases h1
  rw [← atoms_center, h2, atoms_center]; ring

/-- **C122**, the mean of the solution: if the targets do not leave the range of the atoms, the mean of the solution solves the Bellman equation of the policy, and it gives its expected return. -/
theorem C122_mean [Finite σ] (hk : 2 ≤ k) {low high : ℝ} (hlh : low < high) {e : Mdp σ n m} (he : e.Proper) {p : σ → Fin n → ℝ} (hp : ∀ s, (∀ a, 0 ≤ p s a) ∧ ∑ a, p s a = 1) {gamma : ℝ} (h0 : 0 ≤ gamma) (h1 : gamma < 1)
    (hr : e.InRange gamma k low high) {F : σ → Fin n → Fin k → ℝ} (hF : Chances F) (hpF : e.Projected gamma p low high F) :
    e.Solves gamma (Mean p) (fun s a => center low high (F s a)) ∧ ∀ s, e.Worth gamma 0 (stationary p) s (∑ a, p s a * center low high (F s a)) := by
  have hsol : ∀ s a, center low high (F s a) = ∑ j, e.prob s a j * (e.reward s a j + if e.ends s a j then 0 else gamma * ∑ b, p (e.next s a j) b * center low high (F (e.next s a j) b)) := by
    intro s a
    conv_lhs => rw [← projected_iff.1 hpF]
    have e1 : center low high (e.spread gamma p low high F s a) = ∑ x : Fin m × Fin n, e.prob s a x.1 * p (e.next s a x.1) x.2 *
        center low high (shifted low high (if e.ends s a x.1 then 0 else gamma) (e.reward s a x.1) (F (e.next s a x.1) x.2)) := by
      unfold center Mdp.spread
      simp only [Finset.sum_mul, Finset.mul_sum]
      rw [Finset.sum_comm]
      exact Finset.sum_congr rfl fun x _ => Finset.sum_congr rfl fun i _ => by ring
    rw [e1, Fintype.sum_prod_type]
    refine Finset.sum_congr rfl fun j _ => ?_
    simp only [shifted_center hk hlh hr s a j (hF _ _).2, mul_assoc]
    rw [← Finset.mul_sum]
    congr 1
    simp only [mul_add, Finset.sum_add_distrib]
    rw [← Finset.sum_mul, (hp _).2, one_mul]
    congr 1
    split
    · simp
    · rw [Finset.mul_sum]
      exact Finset.sum_congr rfl fun b _ => by ring
  refine ⟨⟨fun s => ∑ a, p s a * center low high (F s a), fun s => rfl, hsol⟩, fun s => ?_⟩
  refine worth_eq he h0 h1 (fun _ s => hp s) (v := fun s => ∑ a, p s a * center low high (F s a)) (fun h s => ?_) s
  rw [softValue_zero]
  show _ = ∑ a, p s a * e.back gamma _ s a
  exact Finset.sum_congr rfl fun a _ => by rw [hsol s a]; rfl

/-- Means differ by at most the Cramér distance times the root of the width. -/
theorem center_close (hk : 2 ≤ k) {low high : ℝ} (hlh : low < high) {p p' : Fin k → ℝ} (hp : ∑ i, p i = ∑ i, p' i) :
    |center low high p - center low high p'| ≤ Real.sqrt (high - low) * cramer (atoms k low high) p p' := by
  have hk' : (0 : ℝ) < k := by exact_mod_cast (by omega : 0 < k)
  have hd : 0 < (high - low) / k := div_pos (by linarith) hk'
  obtain ⟨N, rfl⟩ : ∃ N, k = N + 1 := ⟨k - 1, by omega⟩
  have hsum : center low high p - center low high p' = -((high - low) / (N + 1 : ℕ) * ∑ j ∈ Finset.range N, (cum p (j + 1) - cum p' (j + 1))) := by
    have hab := Finset.sum_range_by_parts (fun i : ℕ => (i : ℝ)) (fun i => if h : i < N + 1 then p ⟨i, h⟩ - p' ⟨i, h⟩ else 0) (N + 1)
    have hz : ∀ j, ∑ i ∈ Finset.range j, (if h : i < N + 1 then p ⟨i, h⟩ - p' ⟨i, h⟩ else 0) = cum p j - cum p' j := by
      intro j
      unfold cum
      rw [← Finset.sum_sub_distrib]
      refine Finset.sum_congr rfl fun i _ => ?_
      split <;> simp
    simp only [smul_eq_mul, hz, Nat.add_sub_cancel, cum_all, hp, sub_self, mul_zero, zero_sub, Nat.cast_add, Nat.cast_one, add_sub_cancel_left, one_mul] at hab
    rw [Finset.sum_range] at hab
    unfold center
    rw [← Finset.sum_sub_distrib]
    have e : ∀ i : Fin (N + 1), p i * (low + (i.1 + 1 / 2) * ((high - low) / (N + 1 : ℕ))) - p' i * (low + (i.1 + 1 / 2) * ((high - low) / (N + 1 : ℕ))) =
        (p i - p' i) * (low + 1 / 2 * ((high - low) / (N + 1 : ℕ))) + (high - low) / (N + 1 : ℕ) * (i.1 * (p i - p' i)) := fun i => by ring
    rw [Finset.sum_congr rfl fun i _ => e i, Finset.sum_add_distrib, ← Finset.sum_mul, Finset.sum_sub_distrib, hp, sub_self, zero_mul, zero_add, ← Finset.mul_sum, ← mul_neg]
    congr 1
    rw [← hab]
    exact Finset.sum_congr rfl fun i _ => by rw [dif_pos i.2]
  rw [hsum, abs_neg, abs_mul, abs_of_pos hd]
  unfold cramer
  rw [cramerSq_eq hd (atoms_eq low high) hp, ← Real.sqrt_mul (by linarith), Nat.add_sub_cancel]
  refine Real.le_sqrt_of_sq_le ?_
  have cs := Finset.sum_mul_sq_le_sq_mul_sq (Finset.range N) (fun _ => (1 : ℝ)) (fun j => cum p (j + 1) - cum p' (j + 1))
  simp only [one_mul, one_pow, Finset.sum_const, Finset.card_range, nsmul_eq_mul, mul_one] at cs
  rw [mul_pow, sq_abs]
  have hN : (high - low) / (N + 1 : ℕ) * N ≤ high - low := by
    rw [div_mul_eq_mul_div, div_le_iff₀ hk']
    push_cast
    nlinarith
  have hS : 0 ≤ ∑ j ∈ Finset.range N, (cum p (j + 1) - cum p' (j + 1)) ^ 2 := Finset.sum_nonneg fun _ _ => sq_nonneg _
  calc ((high - low) / (N + 1 : ℕ)) ^ 2 * (∑ j ∈ Finset.range N, (cum p (j + 1) - cum p' (j + 1))) ^ 2
      ≤ ((high - low) / (N + 1 : ℕ)) ^ 2 * (N * ∑ j ∈ Finset.range N, (cum p (j + 1) - cum p' (j + 1)) ^ 2) := mul_le_mul_of_nonneg_left cs (sq_nonneg _)
    _ = ((high - low) / (N + 1 : ℕ) * N) * ((high - low) / (N + 1 : ℕ) * ∑ j ∈ Finset.range N, (cum p (j + 1) - cum p' (j + 1)) ^ 2) := by ring
    _ ≤ (high - low) * ((high - low) / (N + 1 : ℕ) * ∑ j ∈ Finset.range N, (cum p (j + 1) - cum p' (j + 1)) ^ 2) := mul_le_mul_of_nonneg_right hN (mul_nonneg hd.le hS)

/-- **C122**, learned means: if the targets do not leave the range of the atoms, the means of the learned distributions approach the values of the policy. -/
theorem C122_learned_mean [Finite σ] (hk : 2 ≤ k) {low high : ℝ} (hlh : low < high) {e : Mdp σ n m} (he : e.Proper) {p : σ → Fin n → ℝ} (hp : ∀ s, (∀ a, 0 ≤ p s a) ∧ ∑ a, p s a = 1) {gamma : ℝ} (h0 : 0 ≤ gamma) (h1 : gamma < 1)
    (hr : e.InRange gamma k low high) : ∃ v : σ → Fin n → ℝ, e.Solves gamma (Mean p) v ∧ (∀ s, e.Worth gamma 0 (stationary p) s (∑ a, p s a * v s a)) ∧
      ∀ (q : ℕ → SQFn P σ (List ℝ) (Fin k → ℝ)) (L : ℕ → σ → Fin n → Fin k → ℝ), (∀ t, Table (by omega) low high (q t) (L t)) → (∀ t, e.SarsaSweep gamma p (q t) (L (t + 1))) →
        ∀ t s a, |intervalMean low high (L t s a) - v s a| ≤ (2 * Real.sqrt gamma ^ t + 2 * k * 1e-16 / (1 - Real.sqrt gamma)) * (high - low) := by
  obtain ⟨F, hF, hpF, -, hconv⟩ := C122_evaluation (P := P) hk hlh he hp h0 h1
  obtain ⟨m1, m2⟩ := C122_mean hk hlh he hp h0 h1 hr hF hpF
  refine ⟨_, m1, m2, fun q L hq hL t s a => ?_⟩
  have hc := hconv q L hq hL t s a
  have hs := softmax_chances (by omega : 0 < k) (L t) s a
  have := center_close hk hlh (hs.2.trans (hF s a).2.symm)
  unfold intervalMean
  rw [atoms_center]
  refine this.trans ((mul_le_mul_of_nonneg_left hc (Real.sqrt_nonneg _)).trans (le_of_eq ?_))
  have := Real.mul_self_sqrt (by linarith : 0 ≤ high - low)
  calc Real.sqrt (high - low) * ((2 * Real.sqrt gamma ^ t + 2 * k * 1e-16 / (1 - Real.sqrt gamma)) * Real.sqrt (high - low))
      = (2 * Real.sqrt gamma ^ t + 2 * k * 1e-16 / (1 - Real.sqrt gamma)) * (Real.sqrt (high - low) * Real.sqrt (high - low)) := by ring
    _ = _ := by rw [this]

/-! ### Control -/

theorem q_one (hn : 0 < n) {hk : 0 < k} {low high : ℝ} {q : SQFn P σ (List ℝ) (Fin k → ℝ)} {L : σ → Fin n → Fin k → ℝ} (hq : Table hk low high q L) (e : Mdp σ n m) (gamma : ℝ) (s : σ) (a : Fin n) (j : Fin m)
    {b : Fin n} (hb : ∀ c, c ≠ b → intervalMean low high (L (e.next s a j) c) < intervalMean low high (L (e.next s a j) b)) :
    stochQLearning n q (one e gamma s a j []) = .ok [affineTransform hk low high (L (e.next s a j) b) (if e.ends s a j then 0 else gamma) (e.reward s a j) id id] := by
  obtain ⟨G, h1, h2, h3⟩ := C70_qLearning hn (b := one e gamma s a j []) ⟨rfl, rfl⟩ hq.computes
  obtain ⟨p, p1, p2⟩ := h3 0 _ _ _ rfl rfl rfl
  have hbest : BestMean n (fun c => q.dist.mean (if h : c < n then L (e.next s a j) ⟨c, h⟩ else 0)) b.1 := by
    refine ⟨b.2, fun c hc hne => ?_⟩
    simp only [dif_pos hc, dif_pos b.2, hq.dist]
    exact hb ⟨c, hc⟩ fun h => hne (congrArg Fin.val h)
  have := p1 b.1 hbest
  rw [dif_pos b.2] at this
  subst this
  rw [hq.dist, hq.transform, hq.inverse] at p2
  rw [h1]
  congr 1
  match G, h2, p2 with
  | [g], _, p2 =>
    have : g = (intervalDist hk low high).affine (if e.ends s a j then 0 else gamma) (e.reward s a j) id id (L (e.next s a j) b) := by simpa [one] using p2
    rw [this]
    rfl

/-- **C122**, control: let each table of logits have the least expected loss of `QLearning` with the table before it as target.  If the targets do not leave the range of the atoms, and the best action is always unique, the means of the learned
distributions approach the optimal values, by the discount factor each time, up to the floor of `1e-16`.  (About the distributions themselves nothing of this kind holds.) -/
theorem C122_control (hn : 0 < n) (hk : 2 ≤ k) {low high : ℝ} (hlh : low < high) {e : Mdp σ n m} (he : e.Proper) {gamma : ℝ} (h0 : 0 ≤ gamma) (h1 : gamma < 1) (hr : e.InRange gamma k low high)
    {v : σ → Fin n → ℝ} (hv : e.Solves gamma Greedy v) {q : ℕ → SQFn P σ (List ℝ) (Fin k → ℝ)} {L : ℕ → σ → Fin n → Fin k → ℝ} (hq : ∀ t, Table (by omega) low high (q t) (L t))
    (hL : ∀ t, e.QSweep gamma (q t) (L (t + 1))) (hbest : ∀ t s, ∃ b, ∀ c, c ≠ b → intervalMean low high (L t s c) < intervalMean low high (L t s b))
    {D : ℝ} (hD : ∀ s a, |intervalMean low high (L 0 s a) - v s a| ≤ D) (t : ℕ) :
    ∀ s a, |intervalMean low high (L t s a) - v s a| ≤ gamma ^ t * D + k * 1e-16 * (high - low) / (1 - gamma) := by
  have hg : 0 < 1 - gamma := by linarith
  have hE : 0 ≤ k * 1e-16 * (high - low) / (1 - gamma) := div_nonneg (mul_nonneg (by positivity) (by linarith)) hg.le
  obtain ⟨top, htop, hsol⟩ := hv
  induction t with
  | zero => intro s a; have := hD s a; simp only [pow_zero, one_mul]; linarith
  | succ t ih =>
    intro s a
    set M := gamma ^ t * D + k * 1e-16 * (high - low) / (1 - gamma) with hM
    have hM0 : 0 ≤ M := (abs_nonneg _).trans (ih s a)
    obtain ⟨out, o1, o2⟩ := hL t s a
    have hmix := (C122_least_loss (by omega) (fun j => he.nonneg s a j) (he.total s a) out _).1 o2
    have hmean : intervalMean low high (L (t + 1) s a) = ∑ j, e.prob s a j * intervalMean low high (out j) := by
      unfold intervalMean
      simp only [Finset.mul_sum]
      rw [Finset.sum_comm]
      refine Finset.sum_congr rfl fun i _ => ?_
      rw [show Dists.softmax (L (t + 1) s a) i = _ from hmix i, Finset.sum_mul]
      exact Finset.sum_congr rfl fun j _ => by unfold Dists.softmax; ring
    have hrow : ∀ j, |intervalMean low high (out j) - (e.reward s a j + if e.ends s a j then 0 else gamma * top (e.next s a j))| ≤ gamma * M + k * 1e-16 * (high - low) := by
      intro j
      obtain ⟨b, hb⟩ := hbest t (e.next s a j)
      have ho := o1 j
      rw [q_one hn (hq t) e gamma s a j hb] at ho
      obtain ⟨out', c1, c2⟩ := C48_output_mean hk hlh (L t (e.next s a j) b) (inRange_atoms hk hr s a j)
      have hoo : out j = out' := by
        simp only [Except.ok.injEq, List.cons.injEq, and_true] at ho
        rw [c1] at ho
        simpa using ho.symm
      rw [← hoo] at c2
      have hmax : |intervalMean low high (L t (e.next s a j) b) - top (e.next s a j)| ≤ M := by
        obtain ⟨c, hc⟩ := (htop (e.next s a j)).1
        have u1 : v (e.next s a j) b ≤ top (e.next s a j) := (htop _).2 ⟨b, rfl⟩
        have u2 := abs_le.1 (ih (e.next s a j) b)
        have u3 := abs_le.1 (ih (e.next s a j) c)
        have u4 : intervalMean low high (L t (e.next s a j) c) ≤ intervalMean low high (L t (e.next s a j) b) := by
          rcases eq_or_ne c b with rfl | hne
          · exact le_rfl
          · exact (hb c hne).le
        rw [abs_le]
        constructor <;> linarith
      refine (abs_sub_le _ ((if e.ends s a j then 0 else gamma) * intervalMean low high (L t (e.next s a j) b) + e.reward s a j) _).trans ?_
      rw [add_comm (gamma * M)]
      refine add_le_add c2 ?_
      split
      · simpa using mul_nonneg h0 hM0
      · rw [show gamma * intervalMean low high (L t (e.next s a j) b) + e.reward s a j - (e.reward s a j + gamma * top (e.next s a j)) = gamma * (intervalMean low high (L t (e.next s a j) b) - top (e.next s a j)) by ring,
          abs_mul, abs_of_nonneg h0]
        exact mul_le_mul_of_nonneg_left hmax h0
    rw [hmean, hsol s a, ← Finset.sum_sub_distrib]
    calc |∑ j, (e.prob s a j * intervalMean low high (out j) - e.prob s a j * (e.reward s a j + if e.ends s a j then 0 else gamma * top (e.next s a j)))|
        ≤ ∑ j, |e.prob s a j * intervalMean low high (out j) - e.prob s a j * (e.reward s a j + if e.ends s a j then 0 else gamma * top (e.next s a j))| := Finset.abs_sum_le_sum_abs _ _
      _ ≤ ∑ j, e.prob s a j * (gamma * M + k * 1e-16 * (high - low)) := Finset.sum_le_sum fun j _ => by
          rw [← mul_sub, abs_mul, abs_of_nonneg (he.nonneg s a j)]
          exact mul_le_mul_of_nonneg_left (hrow j) (he.nonneg s a j)
      _ = gamma * M + k * 1e-16 * (high - low) := by rw [← Finset.sum_mul, he.total, one_mul]
      _ = gamma ^ (t + 1) * D + k * 1e-16 * (high - low) / (1 - gamma) := by rw [hM, pow_succ]; field_simp; ring

/-! ### A case -/

/-- The q-function that looks up these logits. -/
noncomputable def logitTable (hk : 0 < k) (low high : ℝ) (L : σ → Fin n → Fin k → ℝ) : SQFn Unit σ (List ℝ) (Fin k → ℝ) :=
  ⟨fun _ => .type2 fun S => S.map fun s => (List.range n).map fun a => if h : a < n then L s ⟨a, h⟩ else 0, (), intervalDist hk low high, id, id⟩

theorem logitTable_table (hk : 0 < k) (low high : ℝ) (L : σ → Fin n → Fin k → ℝ) : Table hk low high (logitTable hk low high L) L := ⟨rfl, rfl, rfl, .type2 _ fun _ => rfl⟩

theorem gamble_inRange : gamble.InRange (1 / 2) 11 (-0.05) 1.05 := by
  intro s a j l
  have h0 : (0 : ℝ) ≤ l.1 := by positivity
  have h1 : (l.1 : ℝ) ≤ 10 := by exact_mod_cast (by omega : l.1 ≤ 10)
  fin_cases a <;> fin_cases j <;> norm_num [gamble] <;> constructor <;> linarith

/-- The environment `gamble` with the atoms 0, 0.1, …, 1 and the uniform policy: from the table with zeros only, there are tables that minimize the loss again and again, and their means come to the value of the policy. -/
example : ∃ (q : ℕ → SQFn Unit Unit (List ℝ) (Fin 11 → ℝ)) (L : ℕ → Unit → Fin 2 → Fin 11 → ℝ), (∀ t, Table (by omega) (-0.05) 1.05 (q t) (L t)) ∧ (∀ t, gamble.SarsaSweep (1 / 2) (fun _ _ => 1 / 2) (q t) (L (t + 1))) ∧
    ∃ v, gamble.Solves (1 / 2) (Mean fun _ _ => 1 / 2) v ∧ ∀ t a, |intervalMean (-0.05) 1.05 (L t () a) - v () a| ≤ (2 * Real.sqrt (1 / 2) ^ t + 2 * (11 : ℕ) * 1e-16 / (1 - Real.sqrt (1 / 2))) * (1.05 - -0.05) := by
  have hp : ∀ s : Unit, (∀ a : Fin 2, (0 : ℝ) ≤ 1 / 2) ∧ ∑ a : Fin 2, (1 / 2 : ℝ) = 1 := fun _ => ⟨fun _ => by norm_num, by norm_num⟩
  have hlh : (-0.05 : ℝ) < 1.05 := by norm_num
  have step : ∀ L : Unit → Fin 2 → Fin 11 → ℝ, ∃ L', gamble.SarsaSweep (1 / 2) (fun _ _ => 1 / 2) (logitTable (by omega) (-0.05) 1.05 L) L' := fun L =>
    C122_sweep_exists (by omega) hlh gamble_proper hp (1 / 2) (logitTable_table (by omega) _ _ L)
  choose next hnext using step
  obtain ⟨v, hv, -, hc⟩ := C122_learned_mean (P := Unit) (k := 11) (by omega) hlh gamble_proper hp (by norm_num : (0 : ℝ) ≤ 1 / 2) (by norm_num) gamble_inRange
  refine ⟨fun t => logitTable (by omega) (-0.05) 1.05 (next^[t] 0), fun t => next^[t] 0, fun t => logitTable_table _ _ _ _, fun t => ?_, v, hv, fun t a => ?_⟩
  · dsimp only; rw [Function.iterate_succ_apply']; exact hnext _
  · exact hc (fun t => logitTable (by omega) (-0.05) 1.05 (next^[t] 0)) (fun t => next^[t] 0) (fun t => logitTable_table _ _ _ _) (fun t => by rw [Function.iterate_succ_apply']; exact hnext _) t () a

end Coax.Loop
