import Verif.Loop.LinearBatchProps
import Mathlib.Probability.ProductMeasure
import Mathlib.Probability.Independence.InfinitePi
import Mathlib.Probability.Distributions.Uniform

/-! Property C149: mini-batches drawn with replacement. -/

namespace Coax.Loop

open Coax.RewardTracing Coax.TD Coax.Core Coax.Values Coax.Pol Filter Topology MeasureTheory

/-- Claim C149, such mini-batches exist, for all sizes: independent draws with replacement. -/
theorem C149_draws {N B : ℕ} (hN : 0 < N) :
    ∃ (Ω : Type) (m0 : MeasurableSpace Ω) (μ : Measure Ω) (_ : IsProbabilityMeasure μ) (ℱ : Filtration ℕ m0) (I : ℕ → Ω → Fin B → Fin N), Uniform μ ℱ I := by
  have : Nonempty (Fin N) := ⟨⟨0, hN⟩⟩
  let ν1 : Measure (Fin N) := (PMF.uniformOfFintype (Fin N)).toMeasure
  let ν : Measure (Fin B → Fin N) := Measure.pi fun _ => ν1
  let Ω := ℕ → Fin B → Fin N
  let μ : Measure Ω := Measure.infinitePi fun _ : ℕ => ν
  let coord : ℕ → MeasurableSpace Ω := fun i => MeasurableSpace.comap (fun ω => ω i) inferInstance
  have hle : ∀ i, coord i ≤ MeasurableSpace.pi := fun i => (measurable_pi_apply i).comap_le
  let ℱ : Filtration ℕ (MeasurableSpace.pi : MeasurableSpace Ω) := ⟨fun k => ⨆ i ∈ {i | i < k}, coord i, fun a b h => biSup_mono fun i (hi : i < a) => lt_of_lt_of_le hi h, fun k => iSup₂_le fun i _ => hle i⟩
  have hind : ProbabilityTheory.iIndep coord μ := ProbabilityTheory.iIndepFun_infinitePi (P := fun _ : ℕ => ν) (X := fun _ x => x) fun _ => measurable_id
  have hnew : ∀ t, ProbabilityTheory.Indep (coord t) (ℱ t) μ := by
    intro t
    have := ProbabilityTheory.indep_iSup_of_disjoint hle hind (S := {t}) (T := {i | i < t}) (by rw [Set.disjoint_singleton_left]; exact lt_irrefl t)
    rwa [iSup_singleton] at this
  have hmap : ∀ t, μ.map (fun ω : Ω => ω t) = ν := fun t => Measure.infinitePi_map_eval (fun _ : ℕ => ν) t
  have hset : ∀ j i, MeasurableSet {f : Fin B → Fin N | f j = i} := fun j i => measurableSet_preimage (f := fun f : Fin B → Fin N => f j) (measurable_pi_apply j) (MeasurableSet.singleton i)
  refine ⟨Ω, MeasurableSpace.pi, μ, inferInstance, ℱ, fun t ω => ω t, ⟨fun t j i => ?_, fun t j i => ?_⟩⟩
  · have h1 : Measurable[ℱ (t + 1)] fun ω : Ω => ω t := Measurable.of_comap_le (le_biSup coord (show t ∈ {i | i < t + 1} from Nat.lt_succ_self t))
    exact h1 (hset j i)
  · have h2 : μ[Set.indicator {ω : Ω | ω t j = i} (fun _ => (1 : ℝ)) | ℱ t] =ᵐ[μ] fun _ => ∫ ω, Set.indicator {ω : Ω | ω t j = i} (fun _ => (1 : ℝ)) ω ∂μ :=
      condExp_indep_eq (hle t) (ℱ.le t) (stronglyMeasurable_const.indicator ⟨{f : Fin B → Fin N | f j = i}, hset j i, rfl⟩) (hnew t)
    refine h2.trans (Eventually.of_forall fun _ => ?_)
    have h3 : μ {ω : Ω | ω t j = i} = 1 / N := by
      have e1 : μ {ω : Ω | ω t j = i} = ν {f | f j = i} := by
        rw [← hmap t, Measure.map_apply (measurable_pi_apply t) (hset j i)]
        rfl
      have e2 : ν {f | f j = i} = ν1 {i} := by
        rw [← (measurePreserving_eval (fun _ : Fin B => ν1) j).map_eq, Measure.map_apply (measurable_pi_apply j) (MeasurableSet.singleton i)]
        rfl
      rw [e1, e2, PMF.toMeasure_apply_singleton _ _ (MeasurableSet.singleton i)]
      simp
    show ∫ ω, Set.indicator {ω : Ω | ω t j = i} (fun _ => (1 : ℝ)) ω ∂μ = 1 / N
    have h4 : MeasurableSet {ω : Ω | ω t j = i} := measurableSet_preimage (f := fun ω : Ω => ω t) (measurable_pi_apply t) (hset j i)
    rw [integral_indicator_const _ h4, smul_eq_mul, mul_one, Measure.real, h3]
    simp

/-- Two steps of an episode, and mini-batches of three transitions. -/
example : ∃ (rows : List (Out Bool (Fin 1) ℝ)) (Ω : Type) (m0 : MeasurableSpace Ω) (μ : Measure Ω) (_ : IsProbabilityMeasure μ) (I : ℕ → Ω → Fin 3 → Fin rows.length) (best : Fin 1 → ℝ) (θ : ℕ → Ω → Fin 1 → ℝ),
    rows.map (·.S) = [false, true] ∧ Projected (fun _ => 0) double rows best ∧
    (∀ t ω, affineLearn (fun t : ℕ => 1 / ((t : ℝ) + 1)) mse1 (fun _ => 0) double 0 0 ((List.range t).map fun k => List.ofFn fun j => rows[I k ω j]) = .ok (θ t ω)) ∧ ∀ᵐ ω ∂μ, Tendsto (fun t => θ t ω) atTop (𝓝 best) := by
  obtain ⟨_, rows, _, -, hS, -, hp⟩ := C149_episodes (gamma := 9 / 10) (by norm_num) (by norm_num) (N := 1) one_pos (steps := [(⟨false, 0, 1, 0, 1⟩, false), (⟨true, 0, 2, 0, 1⟩, true)]) (x := (⟨true, 0, 2, 0, 1⟩ : Step Bool (Fin 1) ℝ)) rfl
    (by simp) (by simp)
  have hlen : 0 < rows.length := by
    have := congrArg List.length hS
    simp at this
    omega
  obtain ⟨Ω, m0, μ, hμ, ℱ, I, hI⟩ := C149_draws (B := 3) hlen
  have hdiv : ¬ Summable fun t : ℕ => 1 / ((t : ℝ) + 1) := by
    have := (summable_nat_add_iff (f := fun t : ℕ => 1 / (t : ℝ)) 1).not.2 Real.not_summable_one_div_natCast
    simpa using this
  have hsq : Summable fun t : ℕ => (1 / ((t : ℝ) + 1)) ^ 2 := by
    have := (summable_nat_add_iff (f := fun t : ℕ => 1 / (t : ℝ) ^ 2) 1).2 (Real.summable_one_div_nat_pow.2 (by norm_num))
    simpa [div_pow] using this
  obtain ⟨best, hb, θ, hθ, hlim⟩ := C149_minibatches (by norm_num) (by norm_num) hp (fun _ => 0) double (fun t => by positivity) hsq hdiv (by norm_num) hI 0
  exact ⟨rows, Ω, m0, μ, hμ, I, best, θ, hS, hb, hθ, hlim⟩

end Coax.Loop
