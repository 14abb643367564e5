import Verif.TD.TargetsProps
import Verif.Core.ValuePolicyProps
import Mathlib.Algebra.BigOperators.Fin
import Mathlib.Analysis.SpecialFunctions.Log.NegMulLog

/-! Property C85: the soft maximum of SoftQLearning is the value of the Boltzmann policy plus its entropy, and no policy does better. -/

namespace Coax.TD

open Coax.Core Coax.Dists

variable {P σ : Type _} {n : Nat}

/-- A policy for one state. -/
structure IsPolicy (p : Fin n → ℝ) : Prop where
  nonneg : ∀ a, 0 ≤ p a
  total : ∑ a, p a = 1

/-- Expected value plus `tau` times the entropy (with `0 log 0 = 0`). -/
noncomputable def softValue (tau : ℝ) (q p : Fin n → ℝ) : ℝ := ∑ a, p a * q a + tau * ∑ a, -(p a * Real.log (p a))

theorem gibbs_term' {p q : ℝ} (hp : 0 ≤ p) (hq : 0 < q) : p - q ≤ p * Real.log p - p * Real.log q ∧ (p * Real.log p - p * Real.log q = p - q → p = q) := by
  rcases hp.eq_or_lt with rfl | hp
  · constructor
    · simp [hq.le]
    · intro h; simp at h; exact absurd h hq.ne'
  · have h := gibbs_term hp hq
    rw [Real.log_div hp.ne' hq.ne', mul_sub] at h
    exact h

theorem softValue_eq {tau : ℝ} (htau : 0 < tau) (q : Fin n → ℝ) {p : Fin n → ℝ} (hp : IsPolicy p) :
    softValue tau q p = tau * Real.log (∑ a, Real.exp (q a / tau)) - tau * ∑ a, (p a * Real.log (p a) - p a * Real.log (meanRow (boltzmannLogits tau q) a)) := by
  have hl : ∀ a, Real.log (meanRow (boltzmannLogits tau q) a) = q a / tau - Real.log (∑ c, Real.exp (q c / tau)) := by
    intro a
    unfold meanRow
    rw [← logSoftmax_eq]
    rfl
  simp only [hl]
  unfold softValue
  have e : ∑ a, (p a * Real.log (p a) - p a * (q a / tau - Real.log (∑ c, Real.exp (q c / tau)))) =
      ∑ a, p a * Real.log (p a) - (∑ a, p a * q a) / tau + Real.log (∑ c, Real.exp (q c / tau)) := by
    rw [Finset.sum_div]
    conv_rhs => rw [← one_mul (Real.log (∑ c, Real.exp (q c / tau))), ← hp.total, Finset.sum_mul]
    rw [← Finset.sum_sub_distrib, ← Finset.sum_add_distrib]
    exact Finset.sum_congr rfl fun a _ => by ring
  rw [e, Finset.sum_neg_distrib]
  field_simp
  ring

theorem boltzmann_isPolicy (hn : 0 < n) (tau : ℝ) (q : Fin n → ℝ) : IsPolicy (meanRow (boltzmannLogits tau q)) :=
  ⟨fun a => ((C49_probabilities _).1 a).le, (C49_probabilities _).2 hn⟩

/-- The Boltzmann policy attains the soft maximum, no policy exceeds it, no other policy attains it. -/
theorem softValue_max (hn : 0 < n) {tau : ℝ} (htau : 0 < tau) (q : Fin n → ℝ) :
    softValue tau q (meanRow (boltzmannLogits tau q)) = tau * Real.log (∑ a, Real.exp (q a / tau)) ∧
      ∀ p, IsPolicy p → softValue tau q p ≤ tau * Real.log (∑ a, Real.exp (q a / tau)) ∧
        (softValue tau q p = tau * Real.log (∑ a, Real.exp (q a / tau)) → p = meanRow (boltzmannLogits tau q)) := by
  have hB := boltzmann_isPolicy hn tau q
  refine ⟨by rw [softValue_eq htau q hB]; simp, fun p hp => ?_⟩
  have h0 : ∑ a, (p a - meanRow (boltzmannLogits tau q) a) = 0 := by rw [Finset.sum_sub_distrib, hp.total, hB.total, sub_self]
  have hterm : ∀ a ∈ Finset.univ, p a - meanRow (boltzmannLogits tau q) a ≤ p a * Real.log (p a) - p a * Real.log (meanRow (boltzmannLogits tau q) a) :=
    fun a _ => (gibbs_term' (hp.nonneg a) ((C49_probabilities _).1 a)).1
  have hle := Finset.sum_le_sum hterm
  rw [h0] at hle
  rw [softValue_eq htau q hp]
  constructor
  · have := mul_nonneg htau.le hle
    linarith
  · intro h
    have h1 : ∑ a, (p a * Real.log (p a) - p a * Real.log (meanRow (boltzmannLogits tau q) a)) = 0 := by
      have : tau * ∑ a, (p a * Real.log (p a) - p a * Real.log (meanRow (boltzmannLogits tau q) a)) = 0 := by linarith
      exact (mul_eq_zero.1 this).resolve_left htau.ne'
    rw [← h0] at h1
    have h2 := (Finset.sum_eq_sum_iff_of_le hterm).1 h1.symm
    funext a
    exact (gibbs_term' (hp.nonneg a) ((C49_probabilities _).1 a)).2 (h2 a (Finset.mem_univ a)).symm

/-- C85: SoftQLearning bootstraps with the greatest value of expected q-value plus `tau` times entropy over all policies; it is attained by the policy `BoltzmannPolicy(q_targ, tau)`, and by no other. -/
theorem C85_softQLearning (hn : 0 < n) {tau : ℝ} (htau : 0 < tau) {q qTarg : QFn P σ (List ℝ)} {b : TBatch σ (List ℝ)} (hb : WellFormed b) {t : σ → Nat → ℝ}
    (ht : Computes n t (qTarg.forward qTarg.params)) :
    Bootstraps q.transform qTarg.inverse b
      (fun s x => softValue tau (fun a : Fin n => t s a) (meanRow (boltzmannLogits tau fun a : Fin n => t s a)) = x ∧
        ∀ p : Fin n → ℝ, IsPolicy p → softValue tau (fun a => t s a) p ≤ x ∧ (softValue tau (fun a => t s a) p = x → p = meanRow (boltzmannLogits tau fun a : Fin n => t s a)))
      (softQLearning n tau q qTarg b) := by
  obtain ⟨G, e, l, g⟩ := C46_softQLearning (q := q) hn htau hb ht
  refine ⟨G, e, l, fun i r d s hr hd hs => ?_⟩
  obtain ⟨x, ⟨hx, -⟩, hG⟩ := g i r d s hr hd hs
  have hxe : x = tau * Real.log (∑ a : Fin n, Real.exp (t s a / tau)) := by
    rw [← Finset.sum_range (fun a => Real.exp (t s a / tau)), ← hx, Real.log_exp]
    field_simp
  refine ⟨x, ?_, hG⟩
  rw [hxe]
  exact softValue_max hn htau fun a : Fin n => t s a

/-- C85: the target of SoftQLearning exceeds that of ExpectedSarsa with the Boltzmann policy of the same temperature by `In` times `tau` times the entropy that `CategoricalDist.entropy` reports for this policy. -/
theorem C85_expectedSarsa (hn : 0 < n) {tau : ℝ} (htau : 0 < tau) {q qTarg : QFn P σ (List ℝ)} {b : TBatch σ (List ℝ)} (hb : WellFormed b) {t : σ → Nat → ℝ}
    {f : List σ → List (List ℝ)} (hf : qTarg.forward qTarg.params = .type2 f) (ht : Computes n t (.type2 f)) (i1 : q.transform = id) (i2 : qTarg.inverse = id) :
    ∃ G G', softQLearning n tau q qTarg b = .ok G ∧ expectedSarsa n (fun S => S.map fun s => (List.range n).map fun a => t s a / tau) q qTarg b = .ok G' ∧
      G.length = b.S_next.length ∧ G'.length = b.S_next.length ∧
      ∀ (i : Nat) (d x y : ℝ) (s : σ), b.In[i]? = some d → b.S_next[i]? = some s → G[i]? = some x → G'[i]? = some y →
        x = y + d * (tau * entropyRow (boltzmannLogits tau fun a : Fin n => t s a)) := by
  obtain ⟨G, e, l, g⟩ := C85_softQLearning (q := q) hn htau hb (t := t) (by rw [hf]; exact ht)
  obtain ⟨G', e', l', g'⟩ := C46_expectedSarsa_partial (q := q) (l := fun s a => t s a / tau) hb hf ht hn
  rw [i1, i2] at g g'
  refine ⟨G, G', e, e', l, l', fun i d x y s hd hs hx hy => ?_⟩
  have hi : i < b.S_next.length := by rw [← l]; exact (List.getElem?_eq_some_iff.1 hx).1
  obtain ⟨r, hr⟩ : ∃ r, b.Rn[i]? = some r := ⟨_, List.getElem?_eq_getElem (by rw [hb.rn]; exact hi)⟩
  obtain ⟨u, ⟨hu, -⟩, hu'⟩ := g i r d s hr hd hs
  obtain ⟨v, ⟨hv, -⟩, hv'⟩ := g' i r d s hr hd hs
  rw [hx] at hu'
  rw [hy] at hv'
  cases hu'
  cases hv'
  have hval : v = ∑ a : Fin n, meanRow (boltzmannLogits tau fun a : Fin n => t s a) a * t s a := by
    rw [hv, Finset.sum_range]
    refine Finset.sum_congr rfl fun a _ => ?_
    unfold meanRow Dists.softmax boltzmannLogits
    rw [Finset.sum_range]
  have hent : entropyRow (boltzmannLogits tau fun a : Fin n => t s a) =
      ∑ a : Fin n, -(meanRow (boltzmannLogits tau fun a : Fin n => t s a) a * Real.log (meanRow (boltzmannLogits tau fun a : Fin n => t s a) a)) := by
    rw [(C49_formulas _ (boltzmannLogits tau fun a : Fin n => t s a)).1, Finset.sum_neg_distrib]
  rw [← hu, hval, hent]
  simp only [id, softValue]
  ring

/-- A deterministic policy meets `IsPolicy`, and its value is the q-value of its action. -/
example (tau : ℝ) (q : Fin n → ℝ) (a : Fin n) : IsPolicy (fun c => if c = a then (1 : ℝ) else 0) ∧ softValue tau q (fun c => if c = a then (1 : ℝ) else 0) = q a := by
  refine ⟨⟨fun c => by split <;> norm_num, by simp⟩, ?_⟩
  unfold softValue
  simp

end Coax.TD
