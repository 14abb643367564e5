import Verif.RewardTracing.PropensityProps
import Verif.Dists.CompositeSampleProps
import Verif.Dists.SquashedProps

/-! Property C100 for nested action spaces and for squashed normal distributions. -/

namespace Coax.RewardTracing

open Coax.Dists Coax.Core MeasureTheory ProbabilityTheory Filter Topology

variable {σ : Type _} {d : Nat}

/-- The largest log-propensity that a part can contribute: the log-probability of a most likely integer, or the log-density at the mean of the normal distribution. -/
noncomputable def roof : Leaf → LeafParams → ℝ
  | .cat n, .logits z => ⨆ k : Fin n, Real.log (catProb n z k)
  | .normal d c, .normal _ logvar => -(1 / 2) * ∑ i : Fin d, (Real.log (2 * Real.pi) + min (max (logvar.getD i 0) c.clipLogvar.1) c.clipLogvar.2)
  | _, _ => 0

/-- The random numbers are as `jax.random.uniform` returns them. -/
def UnitKeys (keys : Keys) : Prop := ∀ path k, 0 < (keys path).uniform k ∧ (keys path).uniform k < 1

theorem logSoftmax_eq {n : Nat} (z : List ℝ) (k : Fin n) : logSoftmax (fun k : Fin n => z.getD k 0) k = Real.log (catProb n z k) := by
  have : Nonempty (Fin n) := ⟨k⟩
  have hpos : 0 < ∑ j : Fin n, Real.exp (z.getD j 0) := Finset.sum_pos (fun j _ => Real.exp_pos _) Finset.univ_nonempty
  rw [catProb, Real.log_div (Real.exp_pos _).ne' hpos.ne', Real.log_exp]
  rfl

theorem simplex_sampleRow {n : Nat} (hn : 0 < n) (tau : ℝ) (u z : Fin n → ℝ) : (∀ k, 0 ≤ sampleRow tau u z k) ∧ ∑ k, sampleRow tau u z k = 1 := by
  obtain ⟨h1, h2⟩ := C49_probabilities (fun k => (-Real.log (-Real.log (u k)) + logSoftmax z k) / tau)
  exact ⟨fun k => (h1 k).le, h2 hn⟩

theorem leaf_le_roof {l : Leaf} {p : LeafParams} (h : LeafFits l p) (tau : ℝ) (u : (Nat → ℝ) × (Nat → ℝ)) : leafLP (Real.log (2 * Real.pi)) l p (rawLeaf tau l p u) ≤ roof l p := by
  match l, p, h with
  | .cat n, .logits z, h =>
    simp only [leafLP, rawLeaf, roof, logProbaRow, logSoftmax_eq]
    obtain ⟨h1, h2⟩ := simplex_sampleRow h.1 tau (fun k : Fin n => u.1 k) (fun k => z.getD k 0)
    have hb : ∀ k : Fin n, Real.log (catProb n z k) ≤ ⨆ k : Fin n, Real.log (catProb n z k) := fun k => le_ciSup (f := fun k : Fin n => Real.log (catProb n z k)) (Set.finite_range _).bddAbove k
    calc _ ≤ ∑ k, sampleRow tau (fun k : Fin n => u.1 k) (fun k => z.getD k 0) k * ⨆ k : Fin n, Real.log (catProb n z k) :=
          Finset.sum_le_sum fun k _ => mul_le_mul_of_nonneg_left (hb k) (h1 k)
      _ = _ := by rw [← Finset.sum_mul, h2, one_mul]
  | .normal d c, .normal mu logvar, h =>
    simp only [leafLP, rawLeaf, roof, normalLogProba]
    rw [Finset.sum_add_distrib]
    have hq : 0 ≤ ∑ i : Fin d, (normalSample c ⟨fun i => mu.getD i 0, fun i => logvar.getD i 0⟩ (fun i : Fin d => u.2 i) i - mu.getD i 0) ^ 2 *
        Real.exp (-lv c ⟨fun i => mu.getD i 0, fun i => logvar.getD i 0⟩ i) := Finset.sum_nonneg fun i _ => by positivity
    simp only [Finset.sum_const, Finset.card_univ, Fintype.card_fin, nsmul_eq_mul]
    have e : ∑ i : Fin d, min (max (logvar.getD i 0) c.clipLogvar.1) c.clipLogvar.2 = ∑ i, lv c ⟨fun i => mu.getD i 0, fun i => logvar.getD i 0⟩ i := rfl
    rw [e]
    linarith

/-- Gumbel noise that makes one coordinate win clearly. -/
noncomputable def favour {n : Nat} (k : Fin n) (M : ℝ) : Fin n → ℝ := fun j => Real.exp (-Real.exp (-(if j = k then M else 0)))

theorem favour_mem {n : Nat} (k : Fin n) (M : ℝ) (j : Fin n) : 0 < favour k M j ∧ favour k M j < 1 :=
  ⟨Real.exp_pos _, Real.exp_lt_one_iff.2 (by have := Real.exp_pos (-(if j = k then M else 0)); linarith)⟩

theorem tendsto_favour {n : Nat} {tau : ℝ} (htau : 0 < tau) (z : Fin n → ℝ) (k : Fin n) : Tendsto (fun M => logProbaRow z (sampleRow tau (favour k M) z)) atTop (𝓝 (logSoftmax z k)) := by
  have hn : 0 < n := k.pos
  have hz : ∀ j, j ≠ k → Tendsto (fun M => sampleRow tau (favour k M) z j) atTop (𝓝 0) := by
    intro j hj
    have hub : ∀ M, sampleRow tau (favour k M) z j ≤ Real.exp ((logSoftmax z j - logSoftmax z k - M) / tau) := by
      intro M
      simp only [sampleRow, Dists.softmax, favour, Real.log_exp, neg_neg, if_neg hj, neg_zero, Real.exp_zero, Real.log_one, zero_add]
      have hle : Real.exp ((M + logSoftmax z k) / tau) ≤ ∑ i, Real.exp (((if i = k then M else 0) + logSoftmax z i) / tau) := by
        refine le_trans (le_of_eq ?_) (Finset.single_le_sum (f := fun i => Real.exp (((if i = k then M else 0) + logSoftmax z i) / tau)) (fun i _ => (Real.exp_pos _).le) (Finset.mem_univ k))
        simp
      refine le_trans (div_le_div_of_nonneg_left (Real.exp_pos _).le (Real.exp_pos _) hle) (le_of_eq ?_)
      rw [← Real.exp_sub]
      congr 1
      ring
    refine squeeze_zero (fun M => (simplex_sampleRow hn tau (favour k M) z).1 j) hub ?_
    refine Real.tendsto_exp_atBot.comp (Tendsto.atBot_div_const htau ?_)
    exact tendsto_atBot_add_const_left _ _ tendsto_neg_atTop_atBot
  have he : ∀ M, logProbaRow z (sampleRow tau (favour k M) z) = logSoftmax z k + ∑ j, sampleRow tau (favour k M) z j * (logSoftmax z j - logSoftmax z k) := by
    intro M
    simp only [logProbaRow, mul_sub, Finset.sum_sub_distrib, ← Finset.sum_mul, (simplex_sampleRow hn tau (favour k M) z).2]
    ring
  simp only [he]
  have : Tendsto (fun M => ∑ j, sampleRow tau (favour k M) z j * (logSoftmax z j - logSoftmax z k)) atTop (𝓝 (∑ _j : Fin n, 0)) := by
    refine tendsto_finsetSum _ fun j _ => ?_
    by_cases hj : j = k
    · subst hj; simp
    · simpa using (hz j hj).mul_const (logSoftmax z j - logSoftmax z k)
  simpa using this.const_add (logSoftmax z k)

theorem near_roof_cat {n : Nat} (hn : 0 < n) {tau : ℝ} (htau : 0 < tau) (z : List ℝ) {e : ℝ} (he : 0 < e) :
    ∃ u : Fin n → ℝ, (∀ j, 0 < u j ∧ u j < 1) ∧ roof (.cat n) (.logits z) - e < logProbaRow (fun k : Fin n => z.getD k 0) (sampleRow tau u (fun k => z.getD k 0)) := by
  have : Nonempty (Fin n) := ⟨⟨0, hn⟩⟩
  obtain ⟨k, hk⟩ := Finite.exists_max (fun k : Fin n => Real.log (catProb n z k))
  have hr : roof (.cat n) (.logits z) ≤ logSoftmax (fun k : Fin n => z.getD k 0) k := by
    rw [logSoftmax_eq]
    exact ciSup_le hk
  obtain ⟨M, hM⟩ := ((tendsto_favour htau (fun k : Fin n => z.getD k 0) k).eventually (lt_mem_nhds (show roof (.cat n) (.logits z) - e < _ by linarith))).exists
  exact ⟨favour k M, favour_mem k M, hM⟩

/-- The log-propensity of a part is within `e` of the largest one with positive probability. -/
theorem near_roof {Ω : Type _} [MeasurableSpace Ω] {P : Measure Ω} {keys : Ω → Keys} (hk : GoodKeys P keys) (path : List Nat) {tau : ℝ} (htau : 0 < tau) {l : Leaf} {p : LeafParams} (h : LeafFits l p)
    {e : ℝ} (he : 0 < e) : 0 < P {ω | rawLeaf tau l p ((keys ω path).uniform, (keys ω path).normal) ∈ {x | roof l p - e < leafLP (Real.log (2 * Real.pi)) l p x}} := by
  match l, p, h with
  | .cat n, .logits z, h =>
    have hm : MeasurableSet {u : Fin n → ℝ | roof (.cat n) (.logits z) - e < logProbaRow (fun k : Fin n => z.getD k 0) (sampleRow tau u (fun k => z.getD k 0))} := by
      have h1 := measurable_sampleRow tau (fun k : Fin n => z.getD k 0)
      refine measurableSet_lt measurable_const ?_
      unfold logProbaRow
      exact Finset.measurable_sum _ fun k _ => ((measurable_pi_apply k).comp h1).mul_const _
    have e1 : P {ω | rawLeaf tau (.cat n) (.logits z) ((keys ω path).uniform, (keys ω path).normal) ∈ {x | roof (.cat n) (.logits z) - e < leafLP (Real.log (2 * Real.pi)) (.cat n) (.logits z) x}} =
        uniforms n {u | roof (.cat n) (.logits z) - e < logProbaRow (fun k : Fin n => z.getD k 0) (sampleRow tau u (fun k => z.getD k 0))} := by
      rw [← hk.uniform path n, Measure.map_apply (measurable_pi_lambda (fun ω (k : Fin n) => (keys ω path).uniform k) fun k => hk.measurable_uniform path k) hm]
      rfl
    rw [e1]
    obtain ⟨u, hu, hlt⟩ := near_roof_cat h.1 htau z he
    have hopen : IsOpen (Set.pi Set.univ (fun _ : Fin n => Set.Ioo (0 : ℝ) 1) ∩ {u | roof (.cat n) (.logits z) - e < logProbaRow (fun k : Fin n => z.getD k 0) (sampleRow tau u (fun k => z.getD k 0))}) := by
      have hc : ContinuousOn (fun u : Fin n → ℝ => logProbaRow (fun k : Fin n => z.getD k 0) (sampleRow tau u (fun k => z.getD k 0))) (Set.pi Set.univ (fun _ : Fin n => Set.Ioo (0 : ℝ) 1)) := by
        have hg : ∀ k : Fin n, ContinuousOn (fun u : Fin n → ℝ => Real.exp ((-Real.log (-Real.log (u k)) + logSoftmax (fun k : Fin n => z.getD k 0) k) / tau)) (Set.pi Set.univ (fun _ : Fin n => Set.Ioo (0 : ℝ) 1)) := by
          intro k
          refine Real.continuous_exp.comp_continuousOn (ContinuousOn.div_const (ContinuousOn.add (ContinuousOn.neg ?_) continuousOn_const) _)
          refine ContinuousOn.log (ContinuousOn.neg (ContinuousOn.log (continuous_apply k).continuousOn fun u hu => (hu k trivial).1.ne')) fun u hu => ?_
          have := Real.log_neg (hu k trivial).1 (hu k trivial).2
          exact (neg_pos.2 this).ne'
        unfold logProbaRow sampleRow Dists.softmax
        refine continuousOn_finsetSum _ fun k _ => ContinuousOn.mul_const (ContinuousOn.div (hg k) (continuousOn_finsetSum _ fun j _ => hg j) fun u _ => ?_) _
        exact (Finset.sum_pos (fun j _ => Real.exp_pos _) ⟨k, Finset.mem_univ k⟩).ne'
      exact hc.isOpen_inter_preimage (isOpen_set_pi Set.finite_univ fun _ _ => isOpen_Ioo) isOpen_Ioi
    have hpos := hopen.measure_pos volume ⟨u, fun j _ => hu j, hlt⟩
    unfold uniforms
    rw [← Measure.restrict_pi_pi, Measure.restrict_apply hm, Set.inter_comm]
    exact hpos
  | .normal d c, .normal mu logvar, h =>
    have hcont : Continuous (normalLogProba (Real.log (2 * Real.pi)) c (⟨fun i => mu.getD i 0, fun i => logvar.getD i 0⟩ : NormalParams d)) := by
      unfold normalLogProba; fun_prop
    have hopen : IsOpen {x : Fin d → ℝ | roof (.normal d c) (.normal mu logvar) - e < normalLogProba (Real.log (2 * Real.pi)) c ⟨fun i => mu.getD i 0, fun i => logvar.getD i 0⟩ x} := isOpen_lt continuous_const hcont
    have hn : Measurable (normalSample c (⟨fun i => mu.getD i 0, fun i => logvar.getD i 0⟩ : NormalParams d)) := measurable_pi_lambda _ (fun i => by unfold normalSample; fun_prop)
    have e1 : P {ω | rawLeaf tau (.normal d c) (.normal mu logvar) ((keys ω path).uniform, (keys ω path).normal) ∈
          {x | roof (.normal d c) (.normal mu logvar) - e < leafLP (Real.log (2 * Real.pi)) (.normal d c) (.normal mu logvar) x}} =
        law c ⟨fun i => mu.getD i 0, fun i => logvar.getD i 0⟩
          {x | roof (.normal d c) (.normal mu logvar) - e < normalLogProba (Real.log (2 * Real.pi)) c ⟨fun i => mu.getD i 0, fun i => logvar.getD i 0⟩ x} := by
      rw [← C50_sample_law, Measure.map_apply hn hopen.measurableSet, ← hk.normal path d, Measure.map_apply (measurable_pi_lambda (fun ω (k : Fin d) => (keys ω path).normal k) fun k => hk.measurable_normal path k) (hn hopen.measurableSet)]
      rfl
    rw [e1]
    refine law_pos_of_open c _ hopen ⟨fun i => mu.getD i 0, ?_⟩
    have : normalLogProba (Real.log (2 * Real.pi)) c (⟨fun i => mu.getD i 0, fun i => logvar.getD i 0⟩ : NormalParams d) (fun i => mu.getD i 0) = roof (.normal d c) (.normal mu logvar) := by
      simp only [normalLogProba, roof, sub_self, Finset.sum_add_distrib, Finset.sum_const, Finset.card_univ, Fintype.card_fin, nsmul_eq_mul, lv, clip]
      ring_nf
      simp
    rw [Set.mem_ofPred_eq, this]
    linarith

theorem measurable_leafLP' {k : ℝ} {l : Leaf} {p : LeafParams} (a : ℝ) : MeasurableSet {x | a < leafLP k l p x} := measurableSet_lt measurable_const (measurable_leafLP _)

theorem near_roof_noise {tau : ℝ} (htau : 0 < tau) {l : Leaf} {p : LeafParams} (h : LeafFits l p) {e : ℝ} (he : 0 < e) :
    ∃ u : Noise, (∀ k, 0 < u.uniform k ∧ u.uniform k < 1) ∧ roof l p - e < leafLP (Real.log (2 * Real.pi)) l p (rawLeaf tau l p (u.uniform, u.normal)) := by
  match l, p, h with
  | .cat n, .logits z, h =>
    obtain ⟨u, hu, hlt⟩ := near_roof_cat h.1 htau z he
    refine ⟨⟨fun k => if hk : k < n then u ⟨k, hk⟩ else 1 / 2, fun _ => 0⟩, fun k => ?_, ?_⟩
    · simp only
      split
      · exact hu _
      · norm_num
    · simpa [leafLP, rawLeaf] using hlt
  | .normal d c, .normal mu logvar, h =>
    refine ⟨⟨fun _ => 1 / 2, fun _ => 0⟩, fun k => by norm_num, ?_⟩
    have : leafLP (Real.log (2 * Real.pi)) (.normal d c) (.normal mu logvar) (rawLeaf tau (.normal d c) (.normal mu logvar) (fun _ => 1 / 2, fun _ => 0)) = roof (.normal d c) (.normal mu logvar) := by
      simp only [leafLP, rawLeaf, normalSample, normalLogProba, roof, mul_zero, add_zero, sub_self, Finset.sum_add_distrib, Finset.sum_const, Finset.card_univ, Fintype.card_fin, nsmul_eq_mul, lv, clip]
      ring_nf
      simp
    rw [this]
    linarith

/-- C100, nested action spaces.  The log-propensities that a policy returns are non-positive, whatever it samples, exactly if the largest log-propensities of the parts have a non-positive sum. -/
theorem C100_composite_partial {s : Space} {d : Dist} (h : mkDist s = .ok d) (hw : WF s) {t : Dists.Tree LeafParams} {ps : List LeafParams} (hp : Fits d t ps) {tau : ℝ} (htau : 0 < tau)
    {draw : Draw} (hd : DrawsAll draw) :
    (∀ keys, UnitKeys keys → ∃ y logp, callSample tau (Real.log (2 * Real.pi)) draw keys s d t = .ok (y, logp) ∧ logp ≤ 0) ↔
      ∑ i, roof ((leaves d).get i) (ps.getD i (.logits [])) ≤ 0 := by
  constructor
  · intro hall
    by_contra hneg
    push Not at hneg
    set S := ∑ i, roof ((leaves d).get i) (ps.getD i (.logits [])) with hS
    have hL : 0 < ((leaves d).length : ℝ) := by
      rcases Nat.eq_zero_or_pos (leaves d).length with h0 | h0
      · exfalso
        have : IsEmpty (Fin (leaves d).length) := by rw [h0]; infer_instance
        rw [hS, Finset.univ_eq_empty, Finset.sum_empty] at hneg
        exact lt_irrefl _ hneg
      · exact_mod_cast h0
    choose N hN1 hN2 using fun i : Fin (leaves d).length => near_roof_noise htau (hp.leaf i) (div_pos hneg hL)
    classical
    let keys : Keys := fun path => if hx : ∃ i, place d i = path then N hx.choose else ⟨fun _ => 1 / 2, fun _ => 0⟩
    have hkeys : ∀ i, keys (place d i) = N i := fun i => by
      have hx : ∃ j, place d j = place d i := ⟨i, rfl⟩
      simp only [keys, dif_pos hx]
      rw [place_injective d hx.choose_spec]
    obtain ⟨y, logp, hc, hle⟩ := hall keys (fun path k => by
      simp only [keys]
      split
      · exact hN1 _ k
      · norm_num)
    obtain ⟨y', ys, hc', -⟩ := callSample_ok h hw hp tau (Real.log (2 * Real.pi)) hd keys
    rw [hc', Except.ok.injEq, Prod.mk.injEq] at hc
    rw [← hc.2] at hle
    have hlt : S - (leaves d).length * (S / (leaves d).length) < lpSum (Real.log (2 * Real.pi)) (leaves d) ps (rawAll tau d ps keys) := by
      unfold lpSum rawAll
      have : ∑ i : Fin (leaves d).length, (roof ((leaves d).get i) (ps.getD i (.logits [])) - S / (leaves d).length) <
          ∑ i, leafLP (Real.log (2 * Real.pi)) ((leaves d).get i) (ps.getD i (.logits [])) (rawLeaf tau ((leaves d).get i) (ps.getD i (.logits [])) ((keys (place d i)).uniform, (keys (place d i)).normal)) := by
        refine Finset.sum_lt_sum_of_nonempty ⟨⟨0, by exact_mod_cast hL⟩, Finset.mem_univ _⟩ fun i _ => ?_
        rw [hkeys i]
        exact hN2 i
      simp only [Finset.sum_sub_distrib, ← hS, Finset.sum_const, Finset.card_univ, Fintype.card_fin, nsmul_eq_mul] at this
      exact this
    rw [mul_div_cancel₀ _ hL.ne', sub_self] at hlt
    linarith
  · intro hsum keys _
    obtain ⟨y, ys, hc, -⟩ := callSample_ok h hw hp tau (Real.log (2 * Real.pi)) hd keys
    exact ⟨y, _, hc, (Finset.sum_le_sum fun i _ => leaf_le_roof (hp.leaf i) tau _).trans hsum⟩

/-- C100, nested action spaces without Boxes: the tracers accept all log-propensities. -/
theorem C100_composite_discrete {s : Space} {d : Dist} (h : mkDist s = .ok d) (hw : WF s) {t : Dists.Tree LeafParams} {ps : List LeafParams} (hp : Fits d t ps) {tau : ℝ} (htau : 0 < tau)
    {draw : Draw} (hd : DrawsAll draw) (hcat : ∀ l ∈ leaves d, ∃ n, l = .cat n) {keys : Keys} (hkeys : UnitKeys keys) (x : σ) (r : ℝ) :
    ∃ y logp, callSample tau (Real.log (2 * Real.pi)) draw keys s d t = .ok (y, logp) ∧ (⟨x, y, r, logp, 1⟩ : Step σ Value ℝ).Valid := by
  have hsum : ∑ i, roof ((leaves d).get i) (ps.getD i (.logits [])) ≤ 0 := by
    refine Finset.sum_nonpos fun i _ => ?_
    have hl := hp.leaf i
    obtain ⟨n, hn⟩ := hcat _ ((leaves d).get_mem i)
    rw [hn] at hl ⊢
    match ps.getD i (.logits []), hl with
    | .logits z, hl =>
      simp only [roof]
      have : Nonempty (Fin n) := ⟨⟨0, hl.1⟩⟩
      refine ciSup_le fun k => Real.log_nonpos ?_ ?_
      · unfold catProb; positivity
      · unfold catProb
        exact div_le_one_of_le₀ (Finset.single_le_sum (f := fun j : Fin n => Real.exp (z.getD j 0)) (fun j _ => (Real.exp_pos _).le) (Finset.mem_univ k)) (Finset.sum_nonneg fun j _ => (Real.exp_pos _).le)
  obtain ⟨y, logp, hc, hle⟩ := (C100_composite_partial h hw hp htau hd).2 hsum keys hkeys
  exact ⟨y, logp, hc, hle, one_pos⟩

/-- C100, the negation for nested action spaces: otherwise the tracers raise `TypeError` with positive probability, and the step is lost. -/
theorem C100_composite_raises {s : Space} {d : Dist} (h : mkDist s = .ok d) (hw : WF s) {t : Dists.Tree LeafParams} {ps : List LeafParams} (hp : Fits d t ps) {tau : ℝ} (htau : 0 < tau)
    {draw : Draw} (hd : DrawsAll draw) (hpos : 0 < ∑ i, roof ((leaves d).get i) (ps.getD i (.logits [])))
    {Ω : Type _} [MeasurableSpace Ω] {P : Measure Ω} {keys : Ω → Keys} (hk : GoodKeys P keys)
    {n : Nat} (hn : 0 < n) {gamma : ℝ} (hg : 0 ≤ gamma ∧ gamma ≤ 1) (x : σ) (r : ℝ) :
    0 < P {ω | ∃ y logp, callSample tau (Real.log (2 * Real.pi)) draw (keys ω) s d t = .ok (y, logp) ∧
      (((NStep.init n gamma false).add ⟨x, y, r, logp, 1⟩ true).1.pop).2 = .error .typeError ∧
      (((NStep.init n gamma false).add ⟨x, y, r, logp, 1⟩ true).1.pop).1.len = 0 ∧
      (((MonteCarlo.init gamma).add ⟨x, y, r, logp, 1⟩ true).1.pop).2 = .error .typeError ∧
      (((MonteCarlo.init gamma).add ⟨x, y, r, logp, 1⟩ true).1.pop).1.len = 0} := by
  set S := ∑ i, roof ((leaves d).get i) (ps.getD i (.logits [])) with hS
  have hL : 0 < ((leaves d).length : ℝ) := by
    rcases Nat.eq_zero_or_pos (leaves d).length with h0 | h0
    · exfalso
      have : IsEmpty (Fin (leaves d).length) := by rw [h0]; infer_instance
      rw [hS, Finset.univ_eq_empty, Finset.sum_empty] at hpos
      exact lt_irrefl _ hpos
    · exact_mod_cast h0
  have hprod := raw_independent hk tau d ps (E := fun i => {x | roof ((leaves d).get i) (ps.getD i (.logits [])) - S / (leaves d).length < leafLP (Real.log (2 * Real.pi)) ((leaves d).get i) (ps.getD i (.logits [])) x})
    (fun i => measurable_leafLP' _)
  have hp0 : 0 < P {ω | ∀ i, rawAll tau d ps (keys ω) i ∈ {x | roof ((leaves d).get i) (ps.getD i (.logits [])) - S / (leaves d).length <
      leafLP (Real.log (2 * Real.pi)) ((leaves d).get i) (ps.getD i (.logits [])) x}} := by
    rw [hprod]
    exact pos_iff_ne_zero.2 (Finset.prod_ne_zero_iff.2 fun i _ => (near_roof hk (place d i) htau (hp.leaf i) (div_pos hpos hL)).ne')
  refine lt_of_lt_of_le hp0 (measure_mono fun ω hω => ?_)
  obtain ⟨y, ys, hc, -⟩ := callSample_ok h hw hp tau (Real.log (2 * Real.pi)) hd (keys ω)
  have hlt : 0 < lpSum (Real.log (2 * Real.pi)) (leaves d) ps (rawAll tau d ps (keys ω)) := by
    have : ∑ i : Fin (leaves d).length, (roof ((leaves d).get i) (ps.getD i (.logits [])) - S / (leaves d).length) < lpSum (Real.log (2 * Real.pi)) (leaves d) ps (rawAll tau d ps (keys ω)) :=
      Finset.sum_lt_sum_of_nonempty ⟨⟨0, by exact_mod_cast hL⟩, Finset.mem_univ _⟩ fun i _ => hω i
    simp only [Finset.sum_sub_distrib, ← hS, Finset.sum_const, Finset.card_univ, Fintype.card_fin, nsmul_eq_mul, mul_div_cancel₀ _ hL.ne', sub_self] at this
    exact this
  refine ⟨y, _, hc, (nstep_pop_rejects hn hg _ _ _ _).2 hlt, ?_, (montecarlo_pop_rejects _ _ _ _ _).2 fun h' => absurd h'.1 (not_le.2 hlt), ?_⟩
  · simp [NStep.init, NStep.reset, NStep.add, NStep.pop, NStep.bool, NStep.len, hn.ne']
  · simp [MonteCarlo.init, MonteCarlo.reset, MonteCarlo.add, MonteCarlo.pop, MonteCarlo.bool, MonteCarlo.len]

theorem continuous_squash {f : (Fin d → ℝ) → ℝ} (hf : Continuous f) : Continuous (fun e => arctanh (clip (f e) (-1 + 1e-7) (1 - 1e-7))) := by
  unfold arctanh clip
  have hlo : ∀ e, -1 + 1e-7 ≤ min (max (f e) (-1 + 1e-7)) (1 - 1e-7) := fun e => le_min (le_max_right _ _) (by norm_num)
  have hhi : ∀ e, min (max (f e) (-1 + 1e-7)) (1 - 1e-7) ≤ (1 - 1e-7 : ℝ) := fun e => min_le_right _ _
  have hc : Continuous fun e => min (max (f e) (-1 + 1e-7)) (1 - 1e-7 : ℝ) := (hf.max continuous_const).min continuous_const
  have h1 : ∀ e, (0 : ℝ) < 1 - min (max (f e) (-1 + 1e-7)) (1 - 1e-7) := fun e => by
    have := hhi e
    have h9 : (0 : ℝ) < 1e-7 := by norm_num
    linarith
  have h2 : ∀ e, (0 : ℝ) < 1 + min (max (f e) (-1 + 1e-7)) (1 - 1e-7) := fun e => by
    have := hlo e
    have h9 : (0 : ℝ) < 1e-7 := by norm_num
    linarith
  refine continuous_const.mul (Continuous.log ((continuous_const.add hc).div (continuous_const.sub hc) fun e => (h1 e).ne') fun e => (div_pos (h2 e) (h1 e)).ne')

theorem continuous_tanh : Continuous Real.tanh := by
  have : Real.tanh = fun x => Real.sinh x / Real.cosh x := by funext x; exact Real.tanh_eq_sinh_div_cosh x
  rw [this]
  exact Real.continuous_sinh.div Real.continuous_cosh fun x => (Real.cosh_pos x).ne'

/-- C100, the negation for squashed normal distributions over the Box [-1, 1]^d: if the density at the tanh of the mean exceeds one, then the tracers raise `TypeError` with positive
probability.  With `mu = 0` that is the condition of `C100_normal_raises`; means far from 0 make it true for any variances. -/
theorem C100_squashed_raises {s : SquashedConfig d} {cl : ℝ × ℝ} (hcl : s.clipLogvar = some cl) (hbox : ∀ i, s.low i = -1 ∧ s.high i = 1) (p : NormalParams d)
    (hmu : ∀ i, -1 + 1e-7 ≤ Real.tanh (p.mu i) ∧ Real.tanh (p.mu i) ≤ 1 - 1e-7)
    (h : ∑ i, (Real.log (2 * Real.pi) + min (max (p.logvar i) cl.1) cl.2) < 4 * ∑ i, Real.log (Real.cosh (p.mu i)))
    {n : Nat} (hn : 0 < n) {gamma : ℝ} (hg : 0 ≤ gamma ∧ gamma ≤ 1) (x : σ) (r : ℝ) :
    0 < Measure.pi (fun _ : Fin d => gaussianReal 0 1) {eps | ∃ X logp, squashedSample s p eps = .ok X ∧ squashedLogProba (Real.log (2 * Real.pi)) s p X = .ok logp ∧
      (((NStep.init n gamma false).add ⟨x, X, r, logp, 1⟩ true).1.pop).2 = .error .typeError ∧
      (((MonteCarlo.init gamma).add ⟨x, X, r, logp, 1⟩ true).1.pop).2 = .error .typeError} := by
  let X : (Fin d → ℝ) → (Fin d → ℝ) := fun eps i => Real.tanh (normalSample (s.normal cl) p eps i) * ((s.high i - s.low i) / 2) + (s.high i + s.low i) / 2
  have hX : ∀ eps i, X eps i = Real.tanh (normalSample (s.normal cl) p eps i) := fun eps i => by simp only [X, (hbox i).1, (hbox i).2]; ring
  let Y : (Fin d → ℝ) → (Fin d → ℝ) := fun eps i => arctanh (clip (X eps i) (-1 + 1e-7) (1 - 1e-7))
  let L : (Fin d → ℝ) → ℝ := fun eps => normalLogProba (Real.log (2 * Real.pi)) (s.normal cl) p (Y eps) - ∑ i, 2 * (Real.log 2 - Y eps i - Real.log (1 + Real.exp (-2 * Y eps i)))
  have hY : ∀ i, Continuous fun eps => Y eps i := fun i => by
    refine continuous_squash ?_
    simp only [hX]
    exact continuous_tanh.comp (by unfold normalSample; fun_prop)
  have hcont : Continuous L := by
    have h1 : Continuous fun eps => normalLogProba (Real.log (2 * Real.pi)) (s.normal cl) p (Y eps) := by
      unfold normalLogProba; fun_prop
    refine h1.sub (continuous_finsetSum _ fun i _ => continuous_const.mul ((continuous_const.sub (hY i)).sub (Continuous.log ?_ fun eps => ?_)))
    · have := hY i; fun_prop
    · positivity
  have h0 : 0 < L 0 := by
    have hn0 : ∀ i, normalSample (s.normal cl) p 0 i = p.mu i := fun i => by simp [normalSample]
    have hcl0 : ∀ i, clip (X 0 i) (-1 + 1e-7) (1 - 1e-7) = Real.tanh (p.mu i) := fun i => by rw [hX, hn0]; exact clip_id (hmu i).1 (hmu i).2
    have hmem : ∀ i, Real.tanh (p.mu i) ∈ Set.Ioo (-1 : ℝ) 1 := fun i => unclipped_sub (hmu i)
    have hY0 : ∀ i, Y 0 i = p.mu i := fun i => by simp only [Y, hcl0]; rw [arctanh_eq (hmem i), Real.artanh_tanh]
    have hj : ∀ i, 2 * (Real.log 2 - Y 0 i - Real.log (1 + Real.exp (-2 * Y 0 i))) = -(2 * Real.log (Real.cosh (p.mu i))) := fun i => by
      have e := log_deriv_tanh (hmem i)
      have e2 : arctanh (Real.tanh (p.mu i)) = p.mu i := by rw [arctanh_eq (hmem i), Real.artanh_tanh]
      rw [e2] at e
      rw [hY0, e]
      have hc := Real.cosh_pos (p.mu i)
      have : 1 - Real.tanh (p.mu i) ^ 2 = (Real.cosh (p.mu i) ^ 2)⁻¹ := by
        rw [Real.tanh_eq_sinh_div_cosh, div_pow]
        field_simp
        have := Real.cosh_sq (p.mu i)
        linarith
      rw [this, Real.log_inv, Real.log_pow]
      push_cast
      ring
    have hYf : Y 0 = p.mu := funext hY0
    have hs : ∑ i, (Real.log (2 * Real.pi) + min (max (p.logvar i) cl.1) cl.2) = d * Real.log (2 * Real.pi) + ∑ i, lv (s.normal cl) p i := by
      rw [Finset.sum_add_distrib]; simp [lv, clip, SquashedConfig.normal]
    rw [hs] at h
    simp only [L, hj]
    rw [hYf]
    simp only [normalLogProba, sub_self, Finset.sum_neg_distrib, ← Finset.mul_sum]
    simp
    linarith
  have : (Measure.pi fun _ : Fin d => gaussianReal 0 1).IsOpenPosMeasure := by
    have : (gaussianReal 0 1).IsOpenPosMeasure := (gaussianReal_absolutelyContinuous' _ one_ne_zero).isOpenPosMeasure
    infer_instance
  refine lt_of_lt_of_le ((isOpen_lt continuous_const hcont).measure_pos _ ⟨0, h0⟩) (measure_mono fun eps heps => ?_)
  refine ⟨X eps, L eps, by simp only [squashedSample, hcl]; rfl, by simp only [squashedLogProba, hcl]; rfl, (nstep_pop_rejects hn hg _ _ _ _).2 heps,
    (montecarlo_pop_rejects _ _ _ _ _).2 fun h' => absurd h'.1 (not_le.2 heps)⟩

/-- Three switches: nothing is ever rejected. -/
example {draw : Draw} (hd : DrawsAll draw) {keys : Keys} (hk : UnitKeys keys) (r : ℝ) :
    ∃ y logp, callSample 0.2 (Real.log (2 * Real.pi)) draw keys (.multiBinary 3) (.list (List.replicate 3 (.leaf (.cat 2)))) (.list [.leaf (.logits [0, 1]), .leaf (.logits [3, 1]), .leaf (.logits [0, 0])]) =
      .ok (y, logp) ∧ (⟨(), y, r, logp, 1⟩ : Step Unit Value ℝ).Valid := by
  refine C100_composite_discrete (ps := [.logits [0, 1], .logits [3, 1], .logits [0, 0]]) (by simp only [mkDist]) (by simp [WF]) ⟨by rfl, ?_⟩ (by norm_num) hd ?_ hk () r
  · intro i l q hl hq
    match i with
    | 0 => cases hl; cases hq; exact ⟨by norm_num, rfl⟩
    | 1 => cases hl; cases hq; exact ⟨by norm_num, rfl⟩
    | 2 => cases hl; cases hq; exact ⟨by norm_num, rfl⟩
    | i + 3 => cases hq
  · intro l hl
    simp [leaves, leavesList, List.replicate] at hl
    exact ⟨2, hl⟩

/-- The hypothesis of `C100_composite_raises`: a fair three-way choice together with a Box whose standard deviation is below one percent. -/
example (c : NormalConfig 1) (hc : c.clipLogvar = (-20, 20)) : 0 < roof (.cat 3) (.logits [0, 0, 0]) + roof (.normal 1 c) (.normal [0.5] [-10]) := by
  have h1 : Real.log (2 * Real.pi) < 2 := by
    rw [Real.log_lt_iff_lt_exp (by positivity)]
    have h2 := Real.pi_lt_d2
    have h3 := Real.exp_one_gt_d9
    have h4 : Real.exp 2 = Real.exp 1 * Real.exp 1 := by rw [← Real.exp_add]; norm_num
    rw [h4]; nlinarith
  have h2 : -2 ≤ roof (.cat 3) (.logits [0, 0, 0]) := by
    refine le_trans ?_ (le_ciSup (f := fun k : Fin 3 => Real.log (catProb 3 [0, 0, 0] k)) (Set.finite_range _).bddAbove 0)
    have : catProb 3 [0, 0, 0] 0 = 1 / 3 := by norm_num [catProb, Fin.sum_univ_three]
    rw [this, Real.le_log_iff_exp_le (by norm_num), Real.exp_neg, one_div]
    refine inv_anti₀ (by norm_num) ?_
    have := Real.add_one_le_exp (2 : ℝ)
    linarith
  have h3 : roof (.normal 1 c) (.normal [0.5] [-10]) = -(1 / 2) * (Real.log (2 * Real.pi) - 10) := by
    simp only [roof, hc]
    norm_num
    ring
  rw [h3]
  linarith

/-- The hypotheses of `C100_squashed_raises`: the mean 2 and variance 1. -/
example : Real.log (2 * Real.pi) + min (max 0 (-20)) 20 < 4 * Real.log (Real.cosh 2) ∧ -1 + 1e-7 ≤ Real.tanh 2 ∧ Real.tanh 2 ≤ 1 - 1e-7 := by
  have h3 := Real.exp_one_gt_d9
  have h3' := Real.exp_one_lt_d9
  have h4 : Real.exp 2 = Real.exp 1 * Real.exp 1 := by rw [← Real.exp_add]; norm_num
  have hlo : 7 < Real.exp 2 := by rw [h4]; nlinarith
  have hhi : Real.exp 2 < 9 := by rw [h4]; nlinarith
  have hinv : 1 / 9 ≤ Real.exp (-2) := by rw [Real.exp_neg, one_div]; exact inv_anti₀ (Real.exp_pos _) hhi.le
  have hinv' : Real.exp (-2) ≤ 1 := by rw [Real.exp_le_one_iff]; norm_num
  have hc : Real.cosh 2 = (Real.exp 2 + Real.exp (-2)) / 2 := Real.cosh_eq 2
  have hs : Real.sinh 2 = (Real.exp 2 - Real.exp (-2)) / 2 := Real.sinh_eq 2
  have hpos := Real.cosh_pos 2
  refine ⟨?_, ?_, ?_⟩
  · have h1 : Real.log (2 * Real.pi) < 2 := by
      rw [Real.log_lt_iff_lt_exp (by positivity)]
      have h2 := Real.pi_lt_d2
      nlinarith
    have h5 : 1 ≤ Real.log (Real.cosh 2) := by
      rw [Real.le_log_iff_exp_le hpos, hc]
      linarith
    norm_num
    linarith
  · rw [Real.tanh_eq_sinh_div_cosh, le_div_iff₀ hpos, hs, hc]
    norm_num
    linarith
  · rw [Real.tanh_eq_sinh_div_cosh, div_le_iff₀ hpos, hs, hc]
    norm_num
    linarith

end Coax.RewardTracing
