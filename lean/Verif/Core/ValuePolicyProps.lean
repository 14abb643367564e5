import Verif.Core.ValuePolicy
import Verif.Dists.GumbelProps

/-! Properties C52, C53 and C63: epsilon-greedy and Boltzmann policies, and the log-propensity a policy reports. -/

namespace Coax.Core

open Coax.Dists MeasureTheory

variable {n : Nat}

/-! ### C52 -/

open Classical in
/-- The greedy actions. -/
noncomputable def greedy (Q : Fin n → ℝ) : Finset (Fin n) := Finset.univ.filter (fun a => ∀ j, Q j ≤ Q a)

open Classical in
/-- The epsilon-greedy rule: with probability ε a uniformly random action, otherwise a uniformly random greedy action. -/
noncomputable def epsilonGreedy (ε : ℝ) (Q : Fin n → ℝ) (a : Fin n) : ℝ :=
  ε * (1 / n) + (1 - ε) * (if a ∈ greedy Q then 1 / ((greedy Q).card : ℝ) else 0)

theorem isMax_eq (Q : Fin n → ℝ) (a : Fin n) : isMax Q a = if a ∈ greedy Q then 1 else 0 := by
  unfold isMax greedy; simp

theorem sum_isMax (Q : Fin n → ℝ) : ∑ j, isMax Q j = ((greedy Q).card : ℝ) := by
  simp only [isMax_eq, Finset.sum_ite_mem, Finset.univ_inter, Finset.sum_const, nsmul_eq_mul, mul_one]

theorem greedy_card_pos (hn : 0 < n) (Q : Fin n → ℝ) : 0 < ((greedy Q).card : ℝ) := by
  have : Nonempty (Fin n) := ⟨⟨0, hn⟩⟩
  obtain ⟨m, hm⟩ := Finite.exists_max Q
  have : 0 < (greedy Q).card := Finset.card_pos.2 ⟨m, by simpa [greedy] using hm⟩
  exact_mod_cast this

/-- The rule is a probability distribution. -/
theorem C52_rule {ε : ℝ} (h0 : 0 ≤ ε) (h1 : ε ≤ 1) (hn : 0 < n) (Q : Fin n → ℝ) :
    (∀ a, 0 ≤ epsilonGreedy ε Q a) ∧ ∑ a, epsilonGreedy ε Q a = 1 := by
  have hc := greedy_card_pos hn Q
  have hn' : (n : ℝ) ≠ 0 := by exact_mod_cast hn.ne'
  constructor
  · intro a
    unfold epsilonGreedy
    have : 0 ≤ 1 - ε := by linarith
    refine add_nonneg (by positivity) (mul_nonneg this ?_)
    split
    · positivity
    · exact le_rfl
  · unfold epsilonGreedy
    rw [Finset.sum_add_distrib, ← Finset.mul_sum, ← Finset.mul_sum]
    simp only [Finset.sum_ite_mem, Finset.univ_inter, Finset.sum_const, nsmul_eq_mul, Finset.card_univ, Fintype.card_fin]
    rw [mul_one_div_cancel hn', mul_one_div_cancel hc.ne']
    ring

/-- C52.  The probabilities of the policy are those of the rule, with 1e-15 added to each before they are normalised. -/
theorem C52_probabilities {ε : ℝ} (h0 : 0 ≤ ε) (h1 : ε ≤ 1) (Q : Fin n → ℝ) (a : Fin n) :
    meanRow (epsilonGreedyLogits ε Q) a = (epsilonGreedy ε Q a + 1e-15) / (1 + n * 1e-15) := by
  have hn := a.pos
  obtain ⟨hnn, hsum⟩ := C52_rule h0 h1 hn Q
  have hexp : ∀ b, Real.exp (epsilonGreedyLogits ε Q b) = epsilonGreedy ε Q b + 1e-15 := by
    intro b
    unfold epsilonGreedyLogits
    have e2 : isMax Q b / (∑ j, isMax Q j) * (1 - ε) + ε / n = epsilonGreedy ε Q b := by
      rw [sum_isMax, isMax_eq]
      unfold epsilonGreedy
      split <;> ring
    simp only [e2]
    exact Real.exp_log (by have := hnn b; norm_num; linarith)
  unfold meanRow softmax
  simp only [hexp]
  rw [Finset.sum_add_distrib, hsum]
  simp

/-- C52.  They differ from the rule by at most `n·1e-15`. -/
theorem C52_close {ε : ℝ} (h0 : 0 ≤ ε) (h1 : ε ≤ 1) (Q : Fin n → ℝ) (a : Fin n) :
    |meanRow (epsilonGreedyLogits ε Q) a - epsilonGreedy ε Q a| ≤ n * 1e-15 := by
  have hn := a.pos
  obtain ⟨hnn, hsum⟩ := C52_rule h0 h1 hn Q
  have hle : epsilonGreedy ε Q a ≤ 1 := hsum ▸ Finset.single_le_sum (fun b _ => hnn b) (Finset.mem_univ a)
  have hn1 : (1 : ℝ) ≤ n := by exact_mod_cast hn
  rw [C52_probabilities h0 h1]
  set x := epsilonGreedy ε Q a
  have hx : 0 ≤ x := hnn a
  have hpos : (0 : ℝ) < 1 + n * 1e-15 := by positivity
  have e : (x + 1e-15) / (1 + n * 1e-15) - x = 1e-15 * (1 - n * x) / (1 + n * 1e-15) := by
    field_simp; ring
  rw [e, abs_div, abs_of_pos hpos, div_le_iff₀ hpos, abs_mul, abs_of_pos (by norm_num : (0 : ℝ) < 1e-15)]
  have hb : |1 - n * x| ≤ n := by
    rw [abs_le]
    constructor
    · nlinarith
    · nlinarith [mul_nonneg (by linarith : (0:ℝ) ≤ n) hx]
  have : (n : ℝ) * 1e-15 * (1 + n * 1e-15) ≥ n * 1e-15 := by
    have : (0 : ℝ) ≤ n * 1e-15 * (n * 1e-15) := by positivity
    linarith
  nlinarith

/-- C52.  The action that a call of the policy returns has these probabilities. -/
theorem C52_sampled {draw : List (Fin n) → Option (Fin n)} (hd : Draws draw) {tau : ℝ} (htau : 0 < tau) {ε : ℝ} (h0 : 0 ≤ ε) (h1 : ε ≤ 1)
    (Q : Fin n → ℝ) (a : Fin n) :
    uniforms n {u | (policyCall draw tau u (epsilonGreedyLogits ε Q)).1 = some a} =
      ENNReal.ofReal ((epsilonGreedy ε Q a + 1e-15) / (1 + n * 1e-15)) := by
  rw [← C52_probabilities h0 h1]
  exact C62_sample_distribution hd htau _ a

/-- C52.  The mode of the policy is a greedy action, for every ε < 1. -/
theorem C52_mode {draw : List (Fin n) → Option (Fin n)} (hd : Draws draw) (hn : 0 < n) {tau : ℝ} (htau : 0 < tau) {ε : ℝ} (h0 : 0 ≤ ε) (h1 : ε < 1)
    (Q : Fin n → ℝ) : ∃ a, policyMode draw tau (epsilonGreedyLogits ε Q) = some a ∧ ∀ j, Q j ≤ Q a := by
  obtain ⟨a, ha, hmax⟩ := C49_mode hd hn htau (epsilonGreedyLogits ε Q)
  refine ⟨a, ha, ?_⟩
  by_contra hcon
  have : Nonempty (Fin n) := ⟨⟨0, hn⟩⟩
  obtain ⟨m, hm⟩ := Finite.exists_max Q
  have hlt := hmax m
  rw [C52_probabilities h0 h1.le, C52_probabilities h0 h1.le, div_le_div_iff_of_pos_right (by positivity)] at hlt
  have hma : m ∈ greedy Q := by simpa [greedy] using hm
  have haa : a ∉ greedy Q := by simpa [greedy] using hcon
  unfold epsilonGreedy at hlt
  rw [if_pos hma, if_neg haa] at hlt
  have := greedy_card_pos hn Q
  have : 0 < (1 - ε) * (1 / ((greedy Q).card : ℝ)) := mul_pos (by linarith) (by positivity)
  linarith

/-- Two actions tied for the maximum, one not. -/
example : epsilonGreedy (n := 3) 0.3 ![5, 5, 1] 0 = 0.45 ∧ epsilonGreedy (n := 3) 0.3 ![5, 5, 1] 2 = 0.1 := by
  have h : greedy (n := 3) ![5, 5, 1] = {0, 1} := by
    ext a
    fin_cases a <;> simp [greedy, Fin.forall_fin_succ]
  constructor
  · unfold epsilonGreedy; rw [h]; norm_num
  · unfold epsilonGreedy; rw [h, if_neg (by decide)]; norm_num

/-! ### C53 -/

/-- C53.  The probabilities are positive and sum to one; they are ordered as the q-values; their ratios are the exponentials of
the differences divided by the temperature. -/
theorem C53_boltzmann {τ : ℝ} (hτ : 0 < τ) (Q : Fin n → ℝ) :
    (∀ a, 0 < meanRow (boltzmannLogits τ Q) a) ∧ (0 < n → ∑ a, meanRow (boltzmannLogits τ Q) a = 1) ∧
    (∀ a b, meanRow (boltzmannLogits τ Q) a ≤ meanRow (boltzmannLogits τ Q) b ↔ Q a ≤ Q b) ∧
    (∀ a b, meanRow (boltzmannLogits τ Q) a / meanRow (boltzmannLogits τ Q) b = Real.exp ((Q a - Q b) / τ)) := by
  refine ⟨(C49_probabilities _).1, (C49_probabilities _).2, ?_, ?_⟩
  · intro a b
    unfold meanRow
    rw [softmax_le_iff]
    exact div_le_div_iff_of_pos_right hτ
  · intro a b
    unfold meanRow softmax boltzmannLogits
    rw [div_div_div_cancel_right₀ (sumExp_pos _ a).ne', ← Real.exp_sub, sub_div]

/-- C53.  Adding a constant to all q-values changes nothing. -/
theorem C53_shift (τ : ℝ) (Q : Fin n → ℝ) (c : ℝ) :
    meanRow (boltzmannLogits τ (fun a => Q a + c)) = meanRow (boltzmannLogits τ Q) := by
  symm
  rw [C49_shift]
  exact ⟨c / τ, fun k => by unfold boltzmannLogits; ring⟩

/-- C53.  A low temperature is greedy: the probability of an action falls exponentially with its gap to the best one, divided by the temperature.  A high temperature is
uniform: every probability is at least `1/n` times the exponential of minus the range over the temperature. -/
theorem C53_limits {τ : ℝ} (hτ : 0 < τ) (Q : Fin n → ℝ) (a : Fin n) :
    (∀ b, meanRow (boltzmannLogits τ Q) a ≤ Real.exp (-((Q b - Q a) / τ))) ∧
    (∀ w, (∀ b, Q b - Q a ≤ w) → 1 / n * Real.exp (-(w / τ)) ≤ meanRow (boltzmannLogits τ Q) a) := by
  have hn := a.pos
  obtain ⟨hpos, hsum, _, hr⟩ := C53_boltzmann hτ Q
  constructor
  · intro b
    have h1 : meanRow (boltzmannLogits τ Q) b ≤ 1 := hsum hn ▸ Finset.single_le_sum (fun c _ => (hpos c).le) (Finset.mem_univ b)
    have := hr a b
    rw [div_eq_iff (hpos b).ne'] at this
    rw [this, ← neg_div, neg_sub]
    have := Real.exp_pos ((Q a - Q b) / τ)
    nlinarith
  · intro w hw
    have hn' : (0 : ℝ) < n := by exact_mod_cast hn
    have hle : ∀ b, meanRow (boltzmannLogits τ Q) b ≤ meanRow (boltzmannLogits τ Q) a * Real.exp (w / τ) := by
      intro b
      have := hr b a
      rw [div_eq_iff (hpos a).ne'] at this
      rw [this, mul_comm]
      refine mul_le_mul_of_nonneg_left (Real.exp_le_exp.2 ?_) (hpos a).le
      exact (div_le_div_iff_of_pos_right hτ).2 (hw b)
    have h2 : 1 ≤ n * (meanRow (boltzmannLogits τ Q) a * Real.exp (w / τ)) := by
      rw [← hsum hn]
      calc _ ≤ ∑ _b : Fin n, meanRow (boltzmannLogits τ Q) a * Real.exp (w / τ) := Finset.sum_le_sum (fun b _ => hle b)
        _ = _ := by simp
    rw [Real.exp_neg, ← div_eq_mul_inv, div_div, div_le_iff₀ (by positivity)]
    linarith

/-- C53.  The action that a call of the policy returns has these probabilities. -/
theorem C53_sampled {draw : List (Fin n) → Option (Fin n)} (hd : Draws draw) {tau : ℝ} (htau : 0 < tau) (τ : ℝ) (Q : Fin n → ℝ) (a : Fin n) :
    uniforms n {u | (policyCall draw tau u (boltzmannLogits τ Q)).1 = some a} =
      ENNReal.ofReal (Real.exp (Q a / τ) / ∑ b, Real.exp (Q b / τ)) :=
  C62_sample_distribution hd htau _ a

/-- C53.  The mode of the policy is an action of maximal q-value. -/
theorem C53_mode {draw : List (Fin n) → Option (Fin n)} (hd : Draws draw) (hn : 0 < n) {tau τ : ℝ} (htau : 0 < tau) (hτ : 0 < τ) (Q : Fin n → ℝ) :
    ∃ a, policyMode draw tau (boltzmannLogits τ Q) = some a ∧ ∀ j, Q j ≤ Q a := by
  obtain ⟨a, ha, hmax⟩ := C49_mode hd hn htau (boltzmannLogits τ Q)
  exact ⟨a, ha, fun j => ((C53_boltzmann hτ Q).2.2.1 j a).1 (hmax j)⟩

/-- A tie breaker as the theorems assume. -/
example : Draws (n := n) List.head? := by
  intro l hl
  cases l with
  | nil => exact absurd rfl hl
  | cons a l => exact ⟨a, by simp, rfl⟩

/-! ### C63 -/

/-- C63 (partial).  The log-propensity that comes with a sampled action is a weighted mean of the log-probabilities of all actions, with positive
weights of which that of the returned action is the largest.  It is the log-probability of the returned action if all actions are equally likely.
What is missing is the claim for other distributions, which is false (`C63_counterexample`). -/
theorem C63_log_propensity_partial {draw : List (Fin n) → Option (Fin n)} (hd : Draws draw) (hn : 0 < n) {tau : ℝ} (htau : 0 < tau) (u z : Fin n → ℝ) :
    ∃ (a : Fin n) (w : Fin n → ℝ), (policyCall draw tau u z).1 = some a ∧ (∀ k, 0 < w k) ∧ ∑ k, w k = 1 ∧ (∀ k, w k ≤ w a) ∧
      (policyCall draw tau u z).2 = ∑ k, w k * Real.log (meanRow z k) ∧
      ((∀ k, meanRow z k = 1 / n) → (policyCall draw tau u z).2 = Real.log (meanRow z a)) := by
  obtain ⟨hpos, hsum, _⟩ := C49_sample hd hn htau u z
  obtain ⟨a, ha, hmax⟩ := argmax_spec hd hn (sampleRow tau u z)
  have hv : (policyCall draw tau u z).2 = ∑ k, sampleRow tau u z k * Real.log (meanRow z k) := by
    unfold policyCall logProbaRow meanRow
    dsimp only
    exact Finset.sum_congr rfl (fun k _ => by rw [logSoftmax_eq])
  refine ⟨a, sampleRow tau u z, ha, hpos, hsum, hmax, hv, ?_⟩
  intro hu
  rw [hv]
  simp only [hu]
  rw [← Finset.sum_mul, hsum, one_mul]

/-- C63 is false.  For two actions that are not equally likely the reported log-propensity is never the log-probability of the returned action (nor of the other one),
whatever the random numbers and the sharpness of the Gumbel-softmax are. -/
theorem C63_counterexample {draw : List (Fin 2) → Option (Fin 2)} (hd : Draws draw) {tau : ℝ} (htau : 0 < tau) (u z : Fin 2 → ℝ)
    (hz : meanRow z 0 ≠ meanRow z 1) (b : Fin 2) : (policyCall draw tau u z).2 ≠ Real.log (meanRow z b) := by
  obtain ⟨_, w, _, hw, hs, _, hv, _⟩ := C63_log_propensity_partial hd (by norm_num) htau u z
  have hp := (C49_probabilities z).1
  have hne : Real.log (meanRow z 0) ≠ Real.log (meanRow z 1) := fun h => hz (Real.log_injOn_pos (hp 0) (hp 1) h)
  rw [hv]
  rw [Fin.sum_univ_two] at hs ⊢
  have h0 := hw 0
  have h1 := hw 1
  intro h
  have hb : b = 0 ∨ b = 1 := by omega
  rcases hb with rfl | rfl
  · have : w 1 * (Real.log (meanRow z 1) - Real.log (meanRow z 0)) = 0 := by
      have : w 0 = 1 - w 1 := by linarith
      rw [this] at h; linarith
    rcases mul_eq_zero.1 this with h | h
    · linarith
    · exact hne (by linarith)
  · have : w 0 * (Real.log (meanRow z 0) - Real.log (meanRow z 1)) = 0 := by
      have : w 1 = 1 - w 0 := by linarith
      rw [this] at h; linarith
    rcases mul_eq_zero.1 this with h | h
    · linarith
    · exact hne (by linarith)

/-- Logits as in `C63_counterexample`. -/
example : meanRow (n := 2) ![0, 1] 0 ≠ meanRow ![0, 1] 1 := by
  intro h
  have := (C53_boltzmann (n := 2) one_pos ![0, 1]).2.2.1 1 0
  have e : boltzmannLogits (n := 2) 1 ![0, 1] = ![0, 1] := by funext a; simp [boltzmannLogits]
  rw [e, h] at this
  have := this.1 le_rfl
  norm_num at this

end Coax.Core
