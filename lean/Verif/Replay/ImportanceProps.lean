import Verif.Replay.PrioritizedProps
import Mathlib.MeasureTheory.Integral.Bochner.Set

/-! Property C87: whether the importance weights of `PrioritizedReplayBuffer` undo the bias of prioritized sampling. -/

namespace Coax.Replay

open MeasureTheory

variable {σ : Type _} {cap : Nat} {s : PSys σ} {sp : PSpec σ}

/-- The identifiers of the stored transitions. -/
def PSpec.stored (cap : Nat) (sp : PSpec σ) : Finset Nat := Finset.Ico (sp.log.length - cap) sp.log.length

theorem mem_stored {i : Nat} : i ∈ sp.stored cap ↔ i < sp.log.length ∧ sp.log.length ≤ i + cap := by
  unfold PSpec.stored
  rw [Finset.mem_Ico]
  omega

/-- The random numbers for which a single draw gives the identifier `i`. -/
def PSys.drawSet (s : PSys σ) (cap i : Nat) : Set ℝ := {u | u ∈ Set.Ico 0 1 ∧ s.buf.tree.inverseCdf [u] = .ok [i % cap]}

theorem volume_drawSet (h : PHistory cap s sp) {i : Nat} (hi : i ∈ sp.stored cap) : (volume (s.drawSet cap i)).toReal = sp.prob cap i := by
  have hh := h.holds
  obtain ⟨h1, h2⟩ := mem_stored.1 hi
  obtain ⟨x, e1, _⟩ := hh.vals i h1 h2
  unfold PSys.drawSet
  rw [C11_sampling_probability h h1 h2 e1]
  unfold PSpec.prob
  rw [e1, ENNReal.toReal_ofReal]
  · rfl
  · exact div_nonneg (Real.rpow_pos_of_pos (hh.base_pos x (List.mem_of_getElem? e1)) _).le (total_pos hh (by omega)).le

theorem prob_pos (h : PHistory cap s sp) {i : Nat} (hi : i ∈ sp.stored cap) : 0 < sp.prob cap i := by
  have hh := h.holds
  obtain ⟨h1, h2⟩ := mem_stored.1 hi
  obtain ⟨x, e1, _⟩ := hh.vals i h1 h2
  unfold PSpec.prob
  rw [e1]
  exact div_pos (Real.rpow_pos_of_pos (hh.base_pos x (List.mem_of_getElem? e1)) _) (total_pos hh (by omega))

/-- C87, what holds: with `beta = 1` the weights `(N p_i)^(-beta)`, before they are divided by the largest one of the batch, undo the bias: averaged over the draws, any quantity has its mean over the stored transitions. -/
theorem C87_unnormalised_partial (h : PHistory cap s sp) (hb : sp.beta = 1) (f : Nat → ℝ) :
    ∑ i ∈ sp.stored cap, (volume {u : ℝ | u ∈ Set.Ico 0 1 ∧ s.buf.tree.inverseCdf [u] = .ok [i % cap]}).toReal * (sp.ipw cap i * f i) =
      (∑ i ∈ sp.stored cap, f i) / (min cap sp.log.length : Nat) := by
  rw [Finset.sum_div]
  refine Finset.sum_congr rfl fun i hi => ?_
  have hv := volume_drawSet h hi
  unfold PSys.drawSet at hv
  rw [hv]
  have hp := prob_pos h hi
  have hN : (0 : ℝ) < (min cap sp.log.length : Nat) := by
    have := (mem_stored.1 hi).1
    have := h.holds.cap_pos
    exact_mod_cast (show 0 < min cap sp.log.length by omega)
  unfold PSpec.ipw
  rw [hb, Real.rpow_neg_one]
  field_simp

/-- C87: a batch of one is the stored transition itself: its weight is not changed, whatever its probability. -/
theorem C87_batch_of_one (h : PHistory cap s sp) (hL : 0 < sp.log.length) {u : ℝ} (hu : u ∈ Set.Ico 0 1) :
    ∃ i row, i ∈ sp.stored cap ∧ sp.log[i]? = some row ∧ s.buf.tree.inverseCdf [u] = .ok [i % cap] ∧ s.sample 1 (fun n => List.replicate n u) = .ok ⟨[row], [i]⟩ := by
  obtain ⟨ids, rows, M, h1, h2, h3, h4, h5, h6⟩ := C13_importance_weights h hL (fun n => List.replicate n u) (by simp) (by
    intro n v hv
    rw [(List.mem_replicate.1 hv).2]
    exact hu) (n := 1) one_pos
  obtain ⟨i, rfl⟩ := List.length_eq_one_iff.1 h1
  cases h2 with
  | @cons _ row _ rows' hr hnil =>
    cases hnil
    have hlive : i ∈ sp.stored cap := mem_stored.2 ⟨hr.1, hr.2.1⟩
    obtain ⟨-, ⟨j, hj, hone⟩, -⟩ := C13_factors h (ids := [i]) (by
      intro j hj
      rw [List.mem_singleton.1 hj]
      exact ⟨hr.1, hr.2.1⟩) h4 h5
    rw [List.mem_singleton.1 hj] at hone
    refine ⟨i, row, hlive, hr.2.2, ?_, ?_⟩
    · cases h3 with
      | cons hd _ => exact hd
    · have h7 : s.sample 1 (fun n => List.replicate n u) = .ok ⟨List.zipWith (fun row i => { row with W := row.W * (sp.ipw cap i / M) }) [row] [i], [i]⟩ := h6
      rw [h7]
      simp [hone]

/-- The weighted value of a batch, where a transition with identifier `i` contributes `f i`. -/
def weightedSum (f : Nat → ℝ) : Except Err (Obj (Row σ)) → ℝ
  | .ok o => (List.zipWith (fun row i => row.W * f i) o.rows o.idx).sum
  | .error _ => 0

theorem drawSet_measurable (h : PHistory cap s sp) (hL : 0 < sp.log.length) (i : Nat) : MeasurableSet (s.drawSet cap i) := by
  have hh := h.holds
  have hts : 0 < s.buf.tree.values.sum := by rw [values_sum hh]; exact total_pos hh hL
  have e : s.drawSet cap i = Set.Ico 0 1 ∩ Set.Ico (SegmentTree.cumsum s.buf.tree.values (i % cap) / s.buf.tree.values.sum) (SegmentTree.cumsum s.buf.tree.values (i % cap + 1) / s.buf.tree.values.sum) := by
    ext u
    unfold PSys.drawSet
    constructor
    · rintro ⟨hu, e⟩
      exact ⟨hu, (SegmentTree.C06_sample_interval hh.cap_pos hh.reach (values_nonneg hh) hts hu _).1 e⟩
    · rintro ⟨hu, e⟩
      exact ⟨hu, (SegmentTree.C06_sample_interval hh.cap_pos hh.reach (values_nonneg hh) hts hu _).2 e⟩
  rw [e]
  exact measurableSet_Ico.inter measurableSet_Ico

theorem mod_inj (h : PHistory cap s sp) {i j : Nat} (hi : i ∈ sp.stored cap) (hj : j ∈ sp.stored cap) (e : i % cap = j % cap) : i = j := by
  have hc := h.holds.cap_pos
  obtain ⟨a1, a2⟩ := mem_stored.1 hi
  obtain ⟨b1, b2⟩ := mem_stored.1 hj
  have d1 := Nat.div_add_mod i cap
  have d2 := Nat.div_add_mod j cap
  rw [e] at d1
  rcases Nat.lt_trichotomy (i / cap) (j / cap) with hlt | heq | hlt
  · have : cap * (i / cap + 1) ≤ cap * (j / cap) := Nat.mul_le_mul_left cap hlt
    rw [Nat.mul_add] at this
    omega
  · rw [heq] at d1; omega
  · have : cap * (j / cap + 1) ≤ cap * (i / cap) := Nat.mul_le_mul_left cap hlt
    rw [Nat.mul_add] at this
    omega

/-- C87: the expected weighted value of a batch of one is the expectation under the prioritized distribution; nothing of the bias is undone, whatever `beta` is. -/
theorem C87_batch_of_one_biased (h : PHistory cap s sp) (hL : 0 < sp.log.length) (f : Nat → ℝ) :
    ∫ u in Set.Ico (0 : ℝ) 1, weightedSum f (s.sample 1 fun n => List.replicate n u) = ∑ i ∈ sp.stored cap, sp.prob cap i * ((sp.log[i]?.elim 0 (·.W)) * f i) := by
  have e : ∀ u ∈ Set.Ico (0 : ℝ) 1, weightedSum f (s.sample 1 fun n => List.replicate n u) =
      ∑ i ∈ sp.stored cap, (s.drawSet cap i).indicator (fun _ => (sp.log[i]?.elim 0 (·.W)) * f i) u := by
    intro u hu
    obtain ⟨i, row, hi, hrow, hd, hs⟩ := C87_batch_of_one h hL hu
    rw [hs, Finset.sum_eq_single i]
    · rw [Set.indicator_of_mem (show u ∈ s.drawSet cap i from ⟨hu, hd⟩), hrow]
      simp [weightedSum]
    · intro j hj hne
      refine Set.indicator_of_notMem (fun hmem => hne ?_) _
      have h2 := hmem.2
      rw [hd] at h2
      simp only [Except.ok.injEq, List.cons.injEq, and_true] at h2
      exact (mod_inj h hi hj h2).symm
    · intro hni
      exact absurd hi hni
  rw [setIntegral_congr_fun measurableSet_Ico e]
  have hsub : ∀ i, Set.Ico (0 : ℝ) 1 ∩ s.drawSet cap i = s.drawSet cap i := fun i => Set.inter_eq_right.2 fun u hu => hu.1
  have hfin : ∀ i, volume (s.drawSet cap i) ≠ ⊤ := fun i => ne_top_of_le_ne_top (by simp) (measure_mono (fun u hu => hu.1 : s.drawSet cap i ⊆ Set.Ico 0 1))
  rw [integral_finsetSum]
  · refine Finset.sum_congr rfl fun i hi => ?_
    rw [setIntegral_indicator (drawSet_measurable h hL i), hsub, setIntegral_const, smul_eq_mul, Measure.real, volume_drawSet h hi]
  · intro i _
    refine Integrable.indicator ?_ (drawSet_measurable h hL i)
    exact integrable_const _

/-- C87, what fails: a buffer with two transitions of weight 1 and `beta = 1` for which no factor makes the expected weighted value of a batch proportional to the mean over the stored transitions. -/
theorem C87_counterexample : ∃ (s : PSys Unit) (sp : PSpec Unit), PHistory 2 s sp ∧ sp.beta = 1 ∧ sp.log = [⟨(), 1⟩, ⟨(), 1⟩] ∧
    ¬ ∃ c : ℝ, ∀ f : Nat → ℝ, ∫ u in Set.Ico (0 : ℝ) 1, weightedSum f (s.sample 1 fun n => List.replicate n u) = c * ((f 0 + f 1) / 2) := by
  have h0 := oneStored_history (cap := 2) (by norm_num) (eps := 1) (by norm_num)
  have h1 := PHistory.add (PHistory.new [⟨(), 1⟩] h0) (r := (oneStored 2 1).heap.length) (o := Obj.new [⟨(), 1⟩])
    (Adv := [1]) (by simp) (fun _ hr => by
      obtain ⟨_, _, e⟩ := h0.holds.ref hr
      rw [List.getElem?_eq_none le_rfl] at e
      cases e) rfl
  refine ⟨_, _, h1, rfl, rfl, ?_⟩
  rintro ⟨c, hc⟩
  have a := hc fun i => if i = 0 then 1 else 0
  have b := hc fun i => if i = 1 then 1 else 0
  rw [C87_batch_of_one_biased h1 (by simp [Obj.new])] at a b
  norm_num [PSpec.stored, PSpec.prob, PSpec.total, lastN, Obj.new, Finset.sum_Ico_succ_top] at a b
  linarith

end Coax.Replay
