import Verif.Values.QuantileMinProps
import Verif.Loop.DistributionalProps
import Mathlib.Topology.MetricSpace.Contracting

/-! Property C126: learning the quantiles of the return converges, to quantiles up to the width of the quadratic part of the loss. -/

namespace Coax.Loop

open Coax.RewardTracing Coax.TD Coax.Core Coax.Values Filter Topology

variable {P σ : Type _} {n m k : Nat}

/-! ### Specification -/

/-- A q-function that looks up the values for the fractions `tau`. -/
structure QTable (tau : Fin k → ℝ) (q : SQFn P σ (List ℝ) ((Fin k → ℝ) × (Fin k → ℝ))) (V : σ → Fin n → Fin k → ℝ) : Prop where
  dist : q.dist = quantileDist k
  transform : q.transform = id
  inverse : q.inverse = id
  computes : Computes n (fun s a => if h : a < n then (V s ⟨a, h⟩, tau) else (0, tau)) (q.forward q.params)

/-- The values `z` have the least expected loss for targets that appear with these weights. -/
def LeastQuantile {ι : Type _} [Fintype ι] (tau : Fin k → ℝ) (w : ι → ℝ) (out : ι → Fin k → ℝ) (z : Fin k → ℝ) : Prop :=
  ∀ y : Fin k → ℝ, ∃ x x' : ι → ℝ, (∀ i, quantileLoss [List.ofFn (out i)] [List.ofFn z] [List.ofFn tau] [1] = .ok (some (x i))) ∧
    (∀ i, quantileLoss [List.ofFn (out i)] [List.ofFn y] [List.ofFn tau] [1] = .ok (some (x' i))) ∧ ∑ i, w i * x i ≤ ∑ i, w i * x' i

/-- The table `V'` has the least expected loss of `Sarsa` with the target function `qTarg`, for each state and action, if actions have the probabilities `p`. -/
def Mdp.QuantileSweep (e : Mdp σ n m) (gamma : ℝ) (p : σ → Fin n → ℝ) (tau : Fin k → ℝ) (qTarg : SQFn P σ (List ℝ) ((Fin k → ℝ) × (Fin k → ℝ))) (V' : σ → Fin n → Fin k → ℝ) : Prop :=
  ∀ s a, ∃ out : Fin m × Fin n → (Fin k → ℝ) × (Fin k → ℝ), (∀ i, stochSarsa n qTarg (one e gamma s a i.1 [oneHot n i.2.1]) = .ok [some (out i)]) ∧
    LeastQuantile tau (fun i => e.prob s a i.1 * p (e.next s a i.1) i.2) (fun i => (out i).1) (V' s a)

/-- The equation of the quantiles: each value is in balance with the returns that start with one step and go on with a value of the next state and action. -/
def Mdp.Balanced (e : Mdp σ n m) (gamma : ℝ) (p : σ → Fin n → ℝ) (tau : Fin k → ℝ) (V : σ → Fin n → Fin k → ℝ) : Prop :=
  ∀ s a i, ∑ j, e.prob s a j * ∑ b, p (e.next s a j) b *
    ∑ l, pull (tau i) (e.reward s a j + (if e.ends s a j then 0 else gamma) * V (e.next s a j) b l - V s a i) = 0

/-! ### The loss -/

theorem quantile_loss (hk : 0 < k) (t y tau : Fin k → ℝ) :
    quantileLoss [List.ofFn t] [List.ofFn y] [List.ofFn tau] [1] = .ok (some ((∑ i, ∑ j, quantileHuberElem 1 (t j) (y i) (tau i)) / k)) := by
  have hrow : quantileRows 1 [List.ofFn t] [List.ofFn y] [List.ofFn tau] = [List.ofFn fun i => ∑ j, quantileHuberElem 1 (t j) (y i) (tau i)] := by
    simp only [quantileRows, List.zip_cons_cons, List.zip_nil_right, List.zipWith_cons_cons, List.zipWith_nil_right, List.cons.injEq, and_true]
    refine List.ext_getElem (by simp) fun i h1 h2 => ?_
    simp [List.getElem_zipWith, List.map_ofFn, List.sum_ofFn]
  have hne : (quantileRows 1 [List.ofFn t] [List.ofFn y] [List.ofFn tau]).flatten ≠ [] := by
    rw [hrow]
    intro h
    have := congrArg List.length h
    simp at this
    omega
  have := C69_quantile (target := [List.ofFn t]) (pred := [List.ofFn y]) (fractions := [List.ofFn tau]) (W := [1]) rfl rfl rfl hne
  unfold Weighted at this
  rw [this, hrow]
  norm_num [Coax.Pol.limited, List.sum_ofFn]

/-- The least expected loss, for each fraction on its own. -/
theorem leastQuantile_iff (hk : 0 < k) {ι : Type _} [Fintype ι] {tau : Fin k → ℝ} (ht : ∀ i, 0 < tau i ∧ tau i < 1) {w : ι → ℝ} (hw : ∀ i, 0 ≤ w i) (out : ι → Fin k → ℝ) (z : Fin k → ℝ) :
    LeastQuantile tau w out z ↔ ∀ i, pulls (fun c : ι × Fin k => w c.1) (fun c => out c.1 c.2) (tau i) (z i) = 0 := by
  have hk' : (0 : ℝ) < k := by exact_mod_cast hk
  have hsum : ∀ y : Fin k → ℝ, ∑ c, w c * ((∑ i, ∑ j, quantileHuberElem 1 (out c j) (y i) (tau i)) / k) =
      (∑ i, ∑ c : ι × Fin k, w c.1 * quantileHuberElem 1 (out c.1 c.2) (y i) (tau i)) / k := by
    intro y
    simp only [Fintype.sum_prod_type]
    rw [Finset.sum_comm, Finset.sum_div]
    refine Finset.sum_congr rfl fun c _ => ?_
    simp only [← Finset.mul_sum]
    rw [mul_div_assoc]
  have hiff : LeastQuantile tau w out z ↔ ∀ y : Fin k → ℝ, ∑ i, ∑ c : ι × Fin k, w c.1 * quantileHuberElem 1 (out c.1 c.2) (z i) (tau i) ≤ ∑ i, ∑ c : ι × Fin k, w c.1 * quantileHuberElem 1 (out c.1 c.2) (y i) (tau i) := by
    constructor
    · intro h y
      obtain ⟨x, x', h1, h2, h3⟩ := h y
      simp only [quantile_loss hk, Except.ok.injEq, Option.some.injEq] at h1 h2
      simp only [← h1, ← h2, hsum] at h3
      exact (div_le_div_iff_of_pos_right hk').1 h3
    · intro h y
      refine ⟨_, _, fun i => quantile_loss hk _ _ _, fun i => quantile_loss hk _ _ _, ?_⟩
      rw [hsum, hsum]
      exact (div_le_div_iff_of_pos_right hk').2 (h y)
  rw [hiff]
  have hl := fun i => least_iff (w := fun c : ι × Fin k => w c.1) (t := fun c => out c.1 c.2) (fun c => hw c.1) (ht i).1 (ht i).2 (z i)
  constructor
  · intro h i
    rw [← hl i]
    intro y'
    have := h (Function.update z i y')
    rw [← Finset.add_sum_erase _ _ (Finset.mem_univ i), ← Finset.add_sum_erase _ _ (Finset.mem_univ i), Function.update_self] at this
    have he : ∑ x ∈ Finset.univ.erase i, ∑ c : ι × Fin k, w c.1 * quantileHuberElem 1 (out c.1 c.2) (Function.update z i y' x) (tau x) =
        ∑ x ∈ Finset.univ.erase i, ∑ c : ι × Fin k, w c.1 * quantileHuberElem 1 (out c.1 c.2) (z x) (tau x) :=
      Finset.sum_congr rfl fun x hx => by rw [Function.update_of_ne (Finset.ne_of_mem_erase hx)]
    rw [he] at this
    linarith
  · intro h y
    exact Finset.sum_le_sum fun i _ => (hl i).2 (h i) (y i)

/-! ### The targets -/

theorem qsarsa_one {tau : Fin k → ℝ} {q : SQFn P σ (List ℝ) ((Fin k → ℝ) × (Fin k → ℝ))} {V : σ → Fin n → Fin k → ℝ} (hq : QTable tau q V) (e : Mdp σ n m) (gamma : ℝ) (s : σ) (a : Fin n) (j : Fin m) (b : Fin n) :
    stochSarsa n q (one e gamma s a j [oneHot n b.1]) = .ok [some (fun l => e.reward s a j + (if e.ends s a j then 0 else gamma) * V (e.next s a j) b l, tau)] := by
  obtain ⟨G, h1, h2, h3⟩ := C70_sarsa (b := one e gamma s a j [oneHot n b.1]) ⟨rfl, rfl⟩ hq.computes (acts := [b.1]) rfl rfl (by simp)
  obtain ⟨p, p1, p2⟩ := h3 0 _ _ _ rfl rfl rfl
  have := p1 b.1 rfl
  rw [dif_pos b.2] at this
  subst this
  rw [hq.dist, hq.transform, hq.inverse] at p2
  rw [h1]
  congr 1
  match G, h2, p2 with
  | [g], _, p2 => simpa [quantileDist] using p2

/-- The weights and values of the targets of a state and an action. -/
def Mdp.wt (e : Mdp σ n m) (p : σ → Fin n → ℝ) (s : σ) (a : Fin n) (c : (Fin m × Fin n) × Fin k) : ℝ := e.prob s a c.1.1 * p (e.next s a c.1.1) c.1.2

def Mdp.tg (e : Mdp σ n m) (gamma : ℝ) (V : σ → Fin n → Fin k → ℝ) (s : σ) (a : Fin n) (c : (Fin m × Fin n) × Fin k) : ℝ :=
  e.reward s a c.1.1 + (if e.ends s a c.1.1 then 0 else gamma) * V (e.next s a c.1.1) c.1.2 c.2

theorem sweep_iff (hk : 0 < k) {e : Mdp σ n m} (he : e.Proper) {p : σ → Fin n → ℝ} (hp : ∀ s, (∀ a, 0 ≤ p s a) ∧ ∑ a, p s a = 1) {gamma : ℝ} {tau : Fin k → ℝ} (ht : ∀ i, 0 < tau i ∧ tau i < 1)
    {q : SQFn P σ (List ℝ) ((Fin k → ℝ) × (Fin k → ℝ))} {V V' : σ → Fin n → Fin k → ℝ} (hq : QTable tau q V) :
    e.QuantileSweep gamma p tau q V' ↔ ∀ s a i, pulls (e.wt p s a) (e.tg gamma V s a) (tau i) (V' s a i) = 0 := by
  have hw : ∀ s a (i : Fin m × Fin n), 0 ≤ e.prob s a i.1 * p (e.next s a i.1) i.2 := fun s a i => mul_nonneg (he.nonneg _ _ _) ((hp _).1 _)
  constructor
  · intro h s a
    obtain ⟨out, h1, h2⟩ := h s a
    have e1 : (fun i => (out i).1) = fun (i : Fin m × Fin n) l => e.reward s a i.1 + (if e.ends s a i.1 then 0 else gamma) * V (e.next s a i.1) i.2 l := by
      funext i
      have := h1 i
      rw [qsarsa_one hq] at this
      simp only [Except.ok.injEq, List.cons.injEq, Option.some.injEq, and_true] at this
      rw [← this]
    rw [e1] at h2
    exact (leastQuantile_iff hk ht (hw s a) _ _).1 h2
  · intro h s a
    exact ⟨_, fun i => qsarsa_one hq e gamma s a i.1 i.2, (leastQuantile_iff hk ht (hw s a) _ _).2 (h s a)⟩

theorem balanced_iff {e : Mdp σ n m} {p : σ → Fin n → ℝ} {gamma : ℝ} {tau : Fin k → ℝ} {V : σ → Fin n → Fin k → ℝ} :
    e.Balanced gamma p tau V ↔ ∀ s a i, pulls (e.wt p s a) (e.tg gamma V s a) (tau i) (V s a i) = 0 := by
  unfold Mdp.Balanced pulls Mdp.wt Mdp.tg
  simp only [Fintype.sum_prod_type, Finset.mul_sum, mul_assoc]

/-! ### Contraction -/

theorem wt_facts (hk : 0 < k) {e : Mdp σ n m} (he : e.Proper) {p : σ → Fin n → ℝ} (hp : ∀ s, (∀ a, 0 ≤ p s a) ∧ ∑ a, p s a = 1) (s : σ) (a : Fin n) :
    (∀ c, 0 ≤ e.wt (k := k) p s a c) ∧ (∃ c, 0 < e.wt (k := k) p s a c) ∧ ∑ c, e.wt (k := k) p s a c = k := by
  have h0 : ∀ c, 0 ≤ e.wt (k := k) p s a c := fun c => mul_nonneg (he.nonneg _ _ _) ((hp _).1 _)
  have h1 : ∑ c, e.wt (k := k) p s a c = k := by
    simp only [Mdp.wt, Fintype.sum_prod_type, Finset.sum_const, Finset.card_univ, Fintype.card_fin, nsmul_eq_mul]
    simp only [← Finset.mul_sum, (hp _).2, he.total, mul_one]
  refine ⟨h0, ?_, h1⟩
  by_contra h
  push Not at h
  have : ∑ c, e.wt (k := k) p s a c ≤ 0 := Finset.sum_nonpos fun c _ => h c
  have hk' : (0 : ℝ) < k := by exact_mod_cast hk
  linarith

theorem tg_close {e : Mdp σ n m} {gamma : ℝ} (h0 : 0 ≤ gamma) {V V' : σ → Fin n → Fin k → ℝ} {c : ℝ} (hc : 0 ≤ c) (h : ∀ s a i, V s a i ≤ V' s a i + c) (s : σ) (a : Fin n) (x : (Fin m × Fin n) × Fin k) :
    e.tg gamma V s a x ≤ e.tg gamma V' s a x + gamma * c := by
  unfold Mdp.tg
  split_ifs
  · have := mul_nonneg h0 hc; linarith
  · nlinarith [h (e.next s a x.1.1) x.1.2 x.2]

/-- **C126**: learning quantiles with `Sarsa` converges.  There are a least and a greatest table that are in balance with their own targets; tables that minimize the expected loss again and again come to lie between these, at
the rate of the discount factor. -/
theorem C126_evaluation [Finite σ] (hk : 0 < k) {e : Mdp σ n m} (he : e.Proper) {p : σ → Fin n → ℝ} (hp : ∀ s, (∀ a, 0 ≤ p s a) ∧ ∑ a, p s a = 1) {gamma : ℝ} (h0 : 0 ≤ gamma) (h1 : gamma < 1) {tau : Fin k → ℝ}
    (ht : ∀ i, 0 < tau i ∧ tau i < 1) :
    ∃ lo hi : σ → Fin n → Fin k → ℝ, e.Balanced gamma p tau lo ∧ e.Balanced gamma p tau hi ∧ (∀ V, e.Balanced gamma p tau V → ∀ s a i, lo s a i ≤ V s a i ∧ V s a i ≤ hi s a i) ∧
      ∀ (q : ℕ → SQFn P σ (List ℝ) ((Fin k → ℝ) × (Fin k → ℝ))) (V : ℕ → σ → Fin n → Fin k → ℝ), (∀ t, QTable tau (q t) (V t)) → (∀ t, e.QuantileSweep gamma p tau (q t) (V (t + 1))) →
        ∀ c, 0 ≤ c → (∀ s a i, lo s a i - c ≤ V 0 s a i ∧ V 0 s a i ≤ hi s a i + c) → ∀ t s a i, lo s a i - gamma ^ t * c ≤ V t s a i ∧ V t s a i ≤ hi s a i + gamma ^ t * c := by
  have := Fintype.ofFinite σ
  have wf := fun s a => wt_facts hk he hp s a
  have hb : ∀ (V : σ → Fin n → Fin k → ℝ) s a i, ∃ lo hi, pulls (e.wt p s a) (e.tg gamma V s a) (tau i) lo = 0 ∧ pulls (e.wt p s a) (e.tg gamma V s a) (tau i) hi = 0 ∧
      (∀ y, pulls (e.wt p s a) (e.tg gamma V s a) (tau i) y ≤ 0 → lo ≤ y) ∧ ∀ y, 0 ≤ pulls (e.wt p s a) (e.tg gamma V s a) (tau i) y → y ≤ hi :=
    fun V s a i => balance (wf s a).1 (wf s a).2.1 (ht i).1 (ht i).2
  choose L H hL hH hLl hHg using hb
  have Hstep : ∀ (V V' : σ → Fin n → Fin k → ℝ) (c : ℝ), 0 ≤ c → (∀ s a i, V s a i ≤ V' s a i + c) → ∀ s a i y, pulls (e.wt p s a) (e.tg gamma V s a) (tau i) y = 0 → y ≤ H V' s a i + gamma * c := by
    intro V V' c hc h s a i y hy
    have h2 := pulls_shift (wf s a).1 (ht i).1 (ht i).2 (tg_close (e := e) h0 hc h s a) y
    rw [hy] at h2
    linarith [hHg V' s a i _ h2]
  have Lstep : ∀ (V V' : σ → Fin n → Fin k → ℝ) (c : ℝ), 0 ≤ c → (∀ s a i, V' s a i ≤ V s a i + c) → ∀ s a i y, pulls (e.wt p s a) (e.tg gamma V s a) (tau i) y = 0 → L V' s a i - gamma * c ≤ y := by
    intro V V' c hc h s a i y hy
    have h2 := pulls_shift (wf s a).1 (ht i).1 (ht i).2 (tg_close (e := e) h0 hc h s a) (y + gamma * c)
    rw [add_sub_cancel_right, hy] at h2
    linarith [hLl V' s a i _ h2]
  have hg : ‖gamma‖₊ < 1 := by
    rw [← NNReal.coe_lt_coe]; simpa [abs_of_nonneg h0] using h1
  have contr : ∀ T : (σ → Fin n → Fin k → ℝ) → σ → Fin n → Fin k → ℝ, (∀ V V' c, 0 ≤ c → (∀ s a i, V s a i ≤ V' s a i + c) → ∀ s a i, T V s a i ≤ T V' s a i + gamma * c) → ContractingWith ‖gamma‖₊ T := by
    intro T hT
    refine ⟨hg, LipschitzWith.of_dist_le_mul fun V V' => ?_⟩
    have hd : ∀ s a i, |V s a i - V' s a i| ≤ dist V V' := fun s a i => by
      rw [← Real.dist_eq]
      exact (dist_le_pi_dist _ _ i).trans ((dist_le_pi_dist _ _ a).trans (dist_le_pi_dist _ _ s))
    have a1 := hT V V' (dist V V') dist_nonneg (fun s a i => by linarith [(abs_le.1 (hd s a i)).2])
    have a2 := hT V' V (dist V V') dist_nonneg (fun s a i => by linarith [(abs_le.1 (hd s a i)).1])
    have hc : ((‖gamma‖₊ : NNReal) : ℝ) = gamma := by simp [abs_of_nonneg h0]
    rw [hc]
    have hgd : 0 ≤ gamma * dist V V' := mul_nonneg h0 dist_nonneg
    refine (dist_pi_le_iff hgd).2 fun s => (dist_pi_le_iff hgd).2 fun a => (dist_pi_le_iff hgd).2 fun i => ?_
    rw [Real.dist_eq, abs_le]
    constructor <;> linarith [a1 s a i, a2 s a i]
  have cH := contr H fun V V' c hc h s a i => Hstep V V' c hc h s a i _ (hH V s a i)
  have cL := contr L fun V V' c hc h s a i => by linarith [Lstep V' V c hc h s a i _ (hL V' s a i)]
  set lo := cL.fixedPoint L with hlo
  set hi := cH.fixedPoint H with hhi
  have flo : L lo = lo := cL.fixedPoint_isFixedPt
  have fhi : H hi = hi := cH.fixedPoint_isFixedPt
  have step : ∀ (V V' : σ → Fin n → Fin k → ℝ) (c : ℝ), 0 ≤ c → (∀ s a i, lo s a i - c ≤ V s a i ∧ V s a i ≤ hi s a i + c) → (∀ s a i, pulls (e.wt p s a) (e.tg gamma V s a) (tau i) (V' s a i) = 0) →
      ∀ s a i, lo s a i - gamma * c ≤ V' s a i ∧ V' s a i ≤ hi s a i + gamma * c := by
    intro V V' c hc h hV s a i
    have a1 := Lstep V lo c hc (fun s a i => by linarith [(h s a i).1]) s a i _ (hV s a i)
    have a2 := Hstep V hi c hc (fun s a i => by linarith [(h s a i).2]) s a i _ (hV s a i)
    rw [flo] at a1; rw [fhi] at a2
    exact ⟨a1, a2⟩
  refine ⟨lo, hi, balanced_iff.2 fun s a i => ?_, balanced_iff.2 fun s a i => ?_, ?_, ?_⟩
  · have := hL lo s a i; rwa [flo] at this
  · have := hH hi s a i; rwa [fhi] at this
  · intro V hV s a i
    rw [balanced_iff] at hV
    obtain ⟨c, hc0, hc⟩ : ∃ c, 0 ≤ c ∧ ∀ s a i, lo s a i - c ≤ V s a i ∧ V s a i ≤ hi s a i + c := by
      refine ⟨dist lo V + dist hi V, add_nonneg dist_nonneg dist_nonneg, fun s a i => ?_⟩
      have d1 : |lo s a i - V s a i| ≤ dist lo V := by
        rw [← Real.dist_eq]
        exact (dist_le_pi_dist _ _ i).trans ((dist_le_pi_dist _ _ a).trans (dist_le_pi_dist _ _ s))
      have d2 : |hi s a i - V s a i| ≤ dist hi V := by
        rw [← Real.dist_eq]
        exact (dist_le_pi_dist _ _ i).trans ((dist_le_pi_dist _ _ a).trans (dist_le_pi_dist _ _ s))
      have e1 : 0 ≤ dist lo V := dist_nonneg
      have e2 : 0 ≤ dist hi V := dist_nonneg
      constructor <;> linarith [(abs_le.1 d1).2, (abs_le.1 d2).1]
    have hall : ∀ t : ℕ, ∀ s a i, lo s a i - gamma ^ t * c ≤ V s a i ∧ V s a i ≤ hi s a i + gamma ^ t * c := by
      intro t
      induction t with
      | zero => simpa using hc
      | succ t ih =>
        have := step V V (gamma ^ t * c) (mul_nonneg (pow_nonneg h0 t) hc0) ih hV
        intro s a i
        rw [pow_succ']
        simpa only [mul_assoc] using this s a i
    have lim : Tendsto (fun t : ℕ => gamma ^ t * c) atTop (𝓝 0) := by
      simpa using (tendsto_pow_atTop_nhds_zero_of_lt_one h0 h1).mul_const c
    constructor
    · refine ge_of_tendsto' (x := atTop) (f := fun t : ℕ => V s a i + gamma ^ t * c) ?_ (fun t => by linarith [(hall t s a i).1])
      simpa using lim.const_add (V s a i)
    · refine ge_of_tendsto' (x := atTop) (f := fun t : ℕ => hi s a i + gamma ^ t * c) ?_ (fun t => (hall t s a i).2)
      simpa using lim.const_add (hi s a i)
  · intro q V hq hs c hc0 hc t
    induction t with
    | zero => simpa using hc
    | succ t ih =>
      intro s a i
      have := step (V t) (V (t + 1)) (gamma ^ t * c) (mul_nonneg (pow_nonneg h0 t) hc0) ih ((sweep_iff hk he hp ht (hq t)).1 (hs t)) s a i
      rw [pow_succ']
      simpa only [mul_assoc] using this

/-- **C126**: there always is a table with the least expected loss. -/
theorem C126_sweep_exists (hk : 0 < k) {e : Mdp σ n m} (he : e.Proper) {p : σ → Fin n → ℝ} (hp : ∀ s, (∀ a, 0 ≤ p s a) ∧ ∑ a, p s a = 1) (gamma : ℝ) {tau : Fin k → ℝ} (ht : ∀ i, 0 < tau i ∧ tau i < 1)
    {q : SQFn P σ (List ℝ) ((Fin k → ℝ) × (Fin k → ℝ))} {V : σ → Fin n → Fin k → ℝ} (hq : QTable tau q V) : ∃ V', e.QuantileSweep gamma p tau q V' := by
  have : ∀ s a i, ∃ y, pulls (e.wt p s a) (e.tg gamma V s a) (tau i) y = 0 := fun s a i =>
    let ⟨lo, _, h, _⟩ := balance (t := e.tg gamma V s a) (wt_facts hk he hp s a).1 (wt_facts hk he hp s a).2.1 (ht i).1 (ht i).2
    ⟨lo, h⟩
  choose V' hV' using this
  exact ⟨V', (sweep_iff hk he hp ht hq).2 hV'⟩

/-- **C126**: predictions with the least expected loss are quantiles of the targets, up to the width 1 of the quadratic part of the loss: targets that are smaller by more have together at most the weight of the fraction, and
targets that are greater by more at most the rest. -/
theorem C126_quantile (hk : 0 < k) {ι : Type _} [Fintype ι] {tau : Fin k → ℝ} (ht : ∀ i, 0 < tau i ∧ tau i < 1) {w : ι → ℝ} (hw : ∀ i, 0 ≤ w i) (hw1 : ∑ i, w i = 1) {out : ι → Fin k → ℝ} {z : Fin k → ℝ}
    (h : LeastQuantile tau w out z) (i : Fin k) :
    (∑ c, w c * ∑ l, if out c l < z i - 1 then 1 / (k : ℝ) else 0) ≤ tau i ∧ (∑ c, w c * ∑ l, if z i + 1 < out c l then 1 / (k : ℝ) else 0) ≤ 1 - tau i := by
  have hk' : (0 : ℝ) < k := by exact_mod_cast hk
  have hb := (leastQuantile_iff hk ht hw out z).1 h i
  have hb' : pulls (fun c : ι × Fin k => w c.1 * (1 / k)) (fun c => out c.1 c.2) (tau i) (z i) = 0 := by
    have : pulls (fun c : ι × Fin k => w c.1 * (1 / k)) (fun c => out c.1 c.2) (tau i) (z i) = (1 / k) * pulls (fun c : ι × Fin k => w c.1) (fun c => out c.1 c.2) (tau i) (z i) := by
      unfold pulls
      rw [Finset.mul_sum]
      exact Finset.sum_congr rfl fun c _ => by ring
    rw [this, hb, mul_zero]
  have hsum : ∑ c : ι × Fin k, w c.1 * (1 / (k : ℝ)) = 1 := by
    rw [Fintype.sum_prod_type]
    simp only [Finset.sum_const, Finset.card_univ, Fintype.card_fin, nsmul_eq_mul]
    refine Eq.trans (Finset.sum_congr rfl fun c _ => ?_) hw1
    field_simp
  have := balanced_quantile (fun c : ι × Fin k => mul_nonneg (hw c.1) (by positivity)) hsum (ht i).1 (ht i).2 hb'
  simpa only [Fintype.sum_prod_type, Finset.mul_sum, mul_ite, mul_zero] using this

/-- **C126**: if nothing is random, so that the return is a number for each state and action, then the values for all fractions converge to it, whatever the fractions are. -/
theorem C126_certain (hk : 0 < k) {e : Mdp σ n m} (he : e.Proper) {p : σ → Fin n → ℝ} (hp : ∀ s, (∀ a, 0 ≤ p s a) ∧ ∑ a, p s a = 1) {gamma : ℝ} (h0 : 0 ≤ gamma) {tau : Fin k → ℝ}
    (ht : ∀ i, 0 < tau i ∧ tau i < 1) {v : σ → Fin n → ℝ} (hv : ∀ s a j b, 0 < e.prob s a j → 0 < p (e.next s a j) b → v s a = e.reward s a j + if e.ends s a j then 0 else gamma * v (e.next s a j) b)
    {q : ℕ → SQFn P σ (List ℝ) ((Fin k → ℝ) × (Fin k → ℝ))} {V : ℕ → σ → Fin n → Fin k → ℝ} (hq : ∀ t, QTable tau (q t) (V t)) (hs : ∀ t, e.QuantileSweep gamma p tau (q t) (V (t + 1)))
    {c : ℝ} (hc : ∀ s a i, |V 0 s a i - v s a| ≤ c) (t : ℕ) (s : σ) (a : Fin n) (i : Fin k) : |V t s a i - v s a| ≤ gamma ^ t * c := by
  induction t generalizing s a i with
  | zero => simpa using hc s a i
  | succ t ih =>
    have hc0 : 0 ≤ gamma ^ t * c := (abs_nonneg _).trans (ih s a i)
    have hz := (sweep_iff hk he hp ht (hq t)).1 (hs t) s a i
    have wf := wt_facts hk he hp s a
    have near : ∀ x : (Fin m × Fin n) × Fin k, 0 < e.wt p s a x → |e.tg gamma (V t) s a x - v s a| ≤ gamma * (gamma ^ t * c) := by
      intro x hx
      have h1 : 0 < e.prob s a x.1.1 := by
        rcases (he.nonneg s a x.1.1).eq_or_lt with h | h
        · unfold Mdp.wt at hx; rw [← h, zero_mul] at hx; exact absurd hx (lt_irrefl 0)
        · exact h
      have h2 : 0 < p (e.next s a x.1.1) x.1.2 := by
        rcases ((hp (e.next s a x.1.1)).1 x.1.2).eq_or_lt with h | h
        · unfold Mdp.wt at hx; rw [← h, mul_zero] at hx; exact absurd hx (lt_irrefl 0)
        · exact h
      rw [hv s a x.1.1 x.1.2 h1 h2]
      unfold Mdp.tg
      split_ifs
      · simpa using mul_nonneg h0 hc0
      · rw [show e.reward s a x.1.1 + gamma * V t (e.next s a x.1.1) x.1.2 x.2 - (e.reward s a x.1.1 + gamma * v (e.next s a x.1.1) x.1.2) = gamma * (V t (e.next s a x.1.1) x.1.2 x.2 - v (e.next s a x.1.1) x.1.2) by ring,
          abs_mul, abs_of_nonneg h0]
        exact mul_le_mul_of_nonneg_left (ih _ _ _) h0
    rw [pow_succ', mul_assoc, abs_le]
    constructor
    · by_contra h
      have := pulls_pos (t := e.tg gamma (V t) s a) wf.1 wf.2.1 (ht i).1 (y := V (t + 1) s a i) fun x hx => by linarith [(abs_le.1 (near x hx)).1]
      linarith
    · by_contra h
      have := pulls_neg (t := e.tg gamma (V t) s a) wf.1 wf.2.1 (ht i).2 (y := V (t + 1) s a i) fun x hx => by linarith [(abs_le.1 (near x hx)).2]
      linarith

/-! ### An example -/

/-- One step with reward 0 or 1, each with probability 1/2. -/
noncomputable def coin : Mdp Unit 1 2 where
  prob _ _ _ := 1 / 2
  reward _ _ j := j.1
  next _ _ _ := ()
  ends _ _ _ := true

theorem coin_proper : coin.Proper := ⟨fun _ _ _ => by norm_num [coin], fun _ _ => by norm_num [coin]⟩

theorem coin_policy : ∀ _ : Unit, (∀ _ : Fin 1, (0 : ℝ) ≤ 1) ∧ ∑ _ : Fin 1, (1 : ℝ) = 1 := fun _ => ⟨fun _ => by norm_num, by norm_num⟩

/-- A table of values. -/
noncomputable def valueTable (tau : Fin k → ℝ) (V : σ → Fin n → Fin k → ℝ) : SQFn Unit σ (List ℝ) ((Fin k → ℝ) × (Fin k → ℝ)) :=
  ⟨fun _ => .type2 fun S => S.map fun s => (List.range n).map fun a => if h : a < n then (V s ⟨a, h⟩, tau) else (0, tau), (), quantileDist k, id, id⟩

theorem valueTable_table (tau : Fin k → ℝ) (V : σ → Fin n → Fin k → ℝ) : QTable tau (valueTable tau V) V := ⟨rfl, rfl, rfl, .type2 _ fun _ => rfl⟩

/-- **C126**, failing: what is learned are not the quantiles.  The return of `coin` is 0 or 1, each with probability 1/2, so its quantiles for 1/4 and 3/4 are 0 and 1; but the values that are in balance are 1/4 and 3/4, and all
tables that are learned have them from the first sweep on.  (The value 1/4 is not a quantile for 1/4: the return is smaller with probability 1/2.) -/
theorem C126_counterexample (gamma : ℝ) {q : SQFn P Unit (List ℝ) ((Fin 2 → ℝ) × (Fin 2 → ℝ))} {V V' : Unit → Fin 1 → Fin 2 → ℝ} (hq : QTable ![1 / 4, 3 / 4] q V) (h : coin.QuantileSweep gamma (fun _ _ => 1) ![1 / 4, 3 / 4] q V') :
    V' () 0 0 = 1 / 4 ∧ V' () 0 1 = 3 / 4 ∧ (∑ j, if coin.reward () 0 j < V' () 0 0 then coin.prob () 0 j else 0) = 1 / 2 := by
  have ht : ∀ i : Fin 2, 0 < (![1 / 4, 3 / 4] : Fin 2 → ℝ) i ∧ (![1 / 4, 3 / 4] : Fin 2 → ℝ) i < 1 := by
    intro i; fin_cases i <;> norm_num
  have hz := (sweep_iff (by omega) coin_proper coin_policy ht hq).1 h () 0
  have key : ∀ tau y : ℝ, 0 < tau → tau < 1 → pulls (coin.wt (fun _ _ => 1) () 0) (coin.tg gamma V () 0) tau y = 0 → y = tau := by
    intro tau y h0 h1 hy
    have wf := wt_facts (k := 2) (by omega) coin_proper coin_policy () 0
    have hy0 : 0 ≤ y := by
      by_contra hc
      have := pulls_pos (t := coin.tg gamma V () 0) wf.1 wf.2.1 h0 (y := y) fun x _ => by
        have : (0 : ℝ) ≤ (x.1.1.1 : ℝ) := by positivity
        simp only [Mdp.tg, coin, if_true, zero_mul, add_zero]
        linarith
      linarith
    have hy1 : y ≤ 1 := by
      by_contra hc
      have := pulls_neg (t := coin.tg gamma V () 0) wf.1 wf.2.1 h1 (y := y) fun x _ => by
        have : (x.1.1.1 : ℝ) ≤ 1 := by exact_mod_cast (by omega : x.1.1.1 ≤ 1)
        simp only [Mdp.tg, coin, if_true, zero_mul, add_zero]
        linarith
      linarith
    have e0 : pull tau (0 - y) = -((1 - tau) * y) := by
      unfold pull
      rw [max_eq_right (by linarith), max_eq_left (by linarith : (0 : ℝ) ≤ -(0 - y)), min_eq_right (by linarith : -(0 - y) ≤ 1)]
      simp
    have e1 : pull tau (1 - y) = tau * (1 - y) := by
      unfold pull
      rw [max_eq_left (by linarith : (0 : ℝ) ≤ 1 - y), max_eq_right (by linarith : -(1 - y) ≤ 0), min_eq_right (by linarith : 1 - y ≤ 1)]
      simp
    have : pulls (coin.wt (fun _ _ => 1) () 0) (coin.tg gamma V () 0) tau y = pull tau (0 - y) + pull tau (1 - y) := by
      simp only [pulls, Mdp.wt, Mdp.tg, coin, Fintype.sum_prod_type, Fin.sum_univ_two, Fin.sum_univ_one, if_true, zero_mul, add_zero]
      norm_num
      ring
    rw [this, e0, e1] at hy
    linarith
  have v0 := key _ _ (ht 0).1 (ht 0).2 (hz 0)
  have v1 := key _ _ (ht 1).1 (ht 1).2 (hz 1)
  simp only [Matrix.cons_val_zero, Matrix.cons_val_one] at v0 v1
  refine ⟨v0, v1, ?_⟩
  rw [v0]
  simp only [Fin.sum_univ_two, coin]
  norm_num

/-- Tables that are learned again and again. -/
example : ∃ (q : ℕ → SQFn Unit Unit (List ℝ) ((Fin 2 → ℝ) × (Fin 2 → ℝ))) (V : ℕ → Unit → Fin 1 → Fin 2 → ℝ), (∀ t, QTable ![1 / 4, 3 / 4] (q t) (V t)) ∧
    (∀ t, coin.QuantileSweep (1 / 2) (fun _ _ => 1) ![1 / 4, 3 / 4] (q t) (V (t + 1))) ∧ V 0 () 0 0 = 0 ∧ V 5 () 0 0 = 1 / 4 := by
  have ht : ∀ i : Fin 2, 0 < (![1 / 4, 3 / 4] : Fin 2 → ℝ) i ∧ (![1 / 4, 3 / 4] : Fin 2 → ℝ) i < 1 := by
    intro i; fin_cases i <;> norm_num
  have step := fun V : Unit → Fin 1 → Fin 2 → ℝ => C126_sweep_exists (by omega) coin_proper coin_policy (1 / 2) ht (valueTable_table ![1 / 4, 3 / 4] V)
  choose next hnext using step
  have hn : ∀ t, coin.QuantileSweep (1 / 2) (fun _ _ => 1) ![1 / 4, 3 / 4] (valueTable ![1 / 4, 3 / 4] (next^[t] 0)) (next^[t + 1] 0) := fun t => by rw [Function.iterate_succ_apply']; exact hnext _
  exact ⟨fun t => valueTable ![1 / 4, 3 / 4] (next^[t] 0), fun t => next^[t] 0, fun t => valueTable_table _ _, hn, rfl, (C126_counterexample _ (valueTable_table _ _) (hn 4)).1⟩

end Coax.Loop
