import Verif.Dists.NormalProps
import Mathlib.Analysis.SpecialFunctions.Artanh
import Mathlib.MeasureTheory.Function.JacobianOneDim

/-! Property C61: the squashed normal distribution. -/

namespace Coax.Dists

open MeasureTheory ProbabilityTheory NNReal Set

variable {d : Nat}

/-- The law of `sample` when its random numbers are independent standard normals. -/
def SampleLaw (s : SquashedConfig d) (p : NormalParams d) (μ : Measure (Fin d → ℝ)) : Prop :=
  ∃ X : (Fin d → ℝ) → (Fin d → ℝ), (∀ eps, squashedSample s p eps = .ok (X eps)) ∧ μ = (Measure.pi (fun _ : Fin d => gaussianReal 0 1)).map X

/-- `f` is the logarithm of a density of `μ` on the box `K`: the probability of every measurable product set inside `K` is
the integral of `exp f` over it. -/
def LogDensityOn (K : Set ℝ) (μ : Measure (Fin d → ℝ)) (f : (Fin d → ℝ) → ℝ) : Prop :=
  ∀ S : Fin d → Set ℝ, (∀ i, MeasurableSet (S i)) → (∀ i, S i ⊆ K) → (μ (Set.pi univ S)).toReal = ∫ x in Set.pi univ S, Real.exp (f x)

/-- C61: samples and means lie inside the Box. -/
theorem C61_in_box {s : SquashedConfig d} (h : ∀ i, s.low i < s.high i) (p : NormalParams d) :
    (∀ eps X, squashedSample s p eps = .ok X → ∀ i, s.low i < X i ∧ X i < s.high i) ∧
    (∀ i, s.low i < squashedMean s p i ∧ squashedMean s p i < s.high i) := by
  have key : ∀ i (t : ℝ), s.low i < Real.tanh t * ((s.high i - s.low i) / 2) + (s.high i + s.low i) / 2 ∧
      Real.tanh t * ((s.high i - s.low i) / 2) + (s.high i + s.low i) / 2 < s.high i := by
    intro i t
    have h1 := Real.neg_one_lt_tanh t
    have h2 := Real.tanh_lt_one t
    have hi : 0 < (s.high i - s.low i) / 2 := by linarith [h i]
    constructor <;> nlinarith
  refine ⟨?_, fun i => key i _⟩
  intro eps X hX i
  unfold squashedSample at hX
  split at hX
  · cases hX
  · cases hX; exact key i _

/-- C61: with the default `clip_logvar=None` neither `sample` nor `log_proba` works. -/
theorem C61_default_raises {s : SquashedConfig d} (h : s.clipLogvar = none) (k : ℝ) (p : NormalParams d) (x : Fin d → ℝ) :
    squashedSample s p x = .error .typeError ∧ squashedLogProba k s p x = .error .typeError := by
  simp [squashedSample, squashedLogProba, h]

theorem arctanh_eq {x : ℝ} (hx : x ∈ Ioo (-1 : ℝ) 1) : arctanh x = Real.artanh x := by
  rw [Real.artanh_eq_half_log ⟨hx.1.le, hx.2.le⟩]; unfold arctanh; norm_num

theorem arctanh_deriv {x : ℝ} (hx : x ∈ Ioo (-1 : ℝ) 1) : HasDerivAt arctanh (1 / (1 - x ^ 2)) x := by
  have h1 : (0 : ℝ) < 1 + x := by linarith [hx.1]
  have h2 : (0 : ℝ) < 1 - x := by linarith [hx.2]
  have ha : HasDerivAt (fun y : ℝ => 1 + y) 1 x := by simpa using (hasDerivAt_id x).const_add 1
  have hb : HasDerivAt (fun y : ℝ => 1 - y) (-1) x := by simpa using (hasDerivAt_id x).const_sub 1
  have hc := ((ha.div hb h2.ne').log (div_pos h1 h2).ne').const_mul (0.5 : ℝ)
  refine HasDerivAt.congr_deriv hc ?_
  have : (1 - x ^ 2) = (1 - x) * (1 + x) := by ring
  rw [this]
  simp only [Pi.div_apply]
  field_simp
  ring

/-- The logarithm of the derivative of `tanh`, as the source writes it. -/
theorem log_deriv_tanh {x : ℝ} (hx : x ∈ Ioo (-1 : ℝ) 1) :
    2 * (Real.log 2 - arctanh x - Real.log (1 + Real.exp (-2 * arctanh x))) = Real.log (1 - x ^ 2) := by
  have h1 : (0 : ℝ) < 1 + x := by linarith [hx.1]
  have h2 : (0 : ℝ) < 1 - x := by linarith [hx.2]
  have e : Real.exp (-2 * arctanh x) = (1 - x) / (1 + x) := by
    unfold arctanh
    rw [show (-2 * (0.5 * Real.log ((1 + x) / (1 - x))) : ℝ) = -Real.log ((1 + x) / (1 - x)) by ring, Real.exp_neg,
      Real.exp_log (div_pos h1 h2), inv_div]
  have e2 : 1 + (1 - x) / (1 + x) = 2 / (1 + x) := by field_simp; ring
  rw [e, e2, Real.log_div (by norm_num) h1.ne']
  unfold arctanh
  rw [Real.log_div h1.ne' h2.ne', show (1 - x ^ 2) = (1 - x) * (1 + x) by ring, Real.log_mul h2.ne' h1.ne']
  ring

/-- The density of `tanh` of a normal variable, on the line. -/
noncomputable def dens1 (m : ℝ) (w : ℝ≥0) (y : ℝ) : ℝ := 1 / (1 - y ^ 2) * gaussianPDFReal m w (arctanh y)

theorem tanh_measurable : Measurable Real.tanh := by
  have : Real.tanh = fun x => Real.sinh x / Real.cosh x := by funext x; exact Real.tanh_eq_sinh_div_cosh x
  rw [this]
  exact Real.measurable_sinh.div Real.measurable_cosh

theorem tanh_law {m : ℝ} {w : ℝ≥0} (hw : w ≠ 0) {S : Set ℝ} (hS : MeasurableSet S) (hK : S ⊆ Ioo (-1) 1) :
    (gaussianReal m w (Real.tanh ⁻¹' S)).toReal = ∫ y in S, dens1 m w y := by
  have himg : arctanh '' S = Real.tanh ⁻¹' S := by
    ext z
    constructor
    · rintro ⟨y, hy, rfl⟩
      rw [mem_preimage, arctanh_eq (hK hy), Real.tanh_artanh (hK hy)]; exact hy
    · intro hz
      exact ⟨Real.tanh z, hz, by rw [arctanh_eq (hK hz), Real.artanh_tanh]⟩
  have hinj : InjOn arctanh S := by
    intro a ha b hb h
    rw [arctanh_eq (hK ha), arctanh_eq (hK hb)] at h
    exact Real.artanh_injOn (hK ha) (hK hb) h
  rw [gaussianReal_apply_eq_integral _ hw, ENNReal.toReal_ofReal
    (setIntegral_nonneg (tanh_measurable hS) (fun x _ => gaussianPDFReal_nonneg _ _ _)), ← himg,
    integral_image_eq_integral_abs_deriv_smul hS (fun y hy => (arctanh_deriv (hK hy)).hasDerivWithinAt) hinj]
  refine setIntegral_congr_fun hS ?_
  intro y hy
  have h1 : 0 < 1 - y ^ 2 := by nlinarith [(hK hy).1, (hK hy).2]
  simp only [dens1, smul_eq_mul]
  rw [abs_of_pos (by positivity)]

/-- The interval on which the clipping inside `log_proba` does nothing. -/
def unclipped : Set ℝ := Icc (-1 + 1e-7) (1 - 1e-7)

theorem unclipped_sub : unclipped ⊆ Ioo (-1) 1 := by
  intro x hx
  constructor
  · have := hx.1; norm_num at this; linarith
  · have := hx.2; norm_num at this; linarith

theorem exp_squashed {s : SquashedConfig d} {cl : ℝ × ℝ} (p : NormalParams d) {x : Fin d → ℝ} (hx : ∀ i, x i ∈ unclipped) :
    Real.exp (normalLogProba (Real.log (2 * Real.pi)) (s.normal cl) p (fun i => arctanh (clip (x i) (-1 + 1e-7) (1 - 1e-7))) -
      ∑ i, 2 * (Real.log 2 - arctanh (clip (x i) (-1 + 1e-7) (1 - 1e-7)) -
        Real.log (1 + Real.exp (-2 * arctanh (clip (x i) (-1 + 1e-7) (1 - 1e-7)))))) =
    ∏ i, dens1 (p.mu i) (Real.toNNReal (Real.exp (lv (s.normal cl) p i))) (x i) := by
  have hcl : ∀ i, clip (x i) (-1 + 1e-7) (1 - 1e-7) = x i := fun i => clip_id (hx i).1 (hx i).2
  simp only [hcl]
  have hl : ∀ i, 2 * (Real.log 2 - arctanh (x i) - Real.log (1 + Real.exp (-2 * arctanh (x i)))) = Real.log (1 - x i ^ 2) :=
    fun i => log_deriv_tanh (unclipped_sub (hx i))
  simp only [hl]
  have hpos : ∀ i, 0 < 1 - x i ^ 2 := fun i => by nlinarith [(unclipped_sub (hx i)).1, (unclipped_sub (hx i)).2]
  have hp2 : ∀ y, 0 < density (s.normal cl) p y := fun y => Finset.prod_pos (fun i _ => gaussianPDFReal_pos _ _ _ (by simpa using Real.exp_pos _))
  rw [C50_log_proba, Real.exp_sub, Real.exp_log (hp2 _), Real.exp_sum]
  simp only [Real.exp_log (hpos _)]
  unfold density dens1
  rw [← Finset.prod_div_distrib]
  apply Finset.prod_congr rfl
  intro i _
  rw [one_div, mul_comm, ← div_eq_mul_inv]
  rfl

/-- The law of `tanh` of the normal variates, and its density: what `log_proba` computes, whatever the Box is. -/
theorem C61_log_proba_of_tanh {s : SquashedConfig d} {cl : ℝ × ℝ} (hcl : s.clipLogvar = some cl) (p : NormalParams d) :
    ∃ f : (Fin d → ℝ) → ℝ, (∀ x, squashedLogProba (Real.log (2 * Real.pi)) s p x = .ok (f x)) ∧
      LogDensityOn unclipped ((law (s.normal cl) p).map (fun x i => Real.tanh (x i))) f := by
  refine ⟨_, fun x => by simp only [squashedLogProba, hcl]; rfl, ?_⟩
  intro S hS hK
  have h1 : ∫ x in Set.pi univ S, Real.exp (normalLogProba (Real.log (2 * Real.pi)) (s.normal cl) p (fun i => arctanh (clip (x i) (-1 + 1e-7) (1 - 1e-7))) -
      ∑ i, 2 * (Real.log 2 - arctanh (clip (x i) (-1 + 1e-7) (1 - 1e-7)) -
        Real.log (1 + Real.exp (-2 * arctanh (clip (x i) (-1 + 1e-7) (1 - 1e-7)))))) =
      ∫ x in Set.pi univ S, ∏ i, dens1 (p.mu i) (Real.toNNReal (Real.exp (lv (s.normal cl) p i))) (x i) := by
    refine setIntegral_congr_fun (MeasurableSet.univ_pi hS) ?_
    intro x hx
    exact exp_squashed p (fun i => hK i (hx i (mem_univ i)))
  refine Eq.trans ?_ h1.symm
  have hm : Measurable (fun (x : Fin d → ℝ) i => Real.tanh (x i)) :=
    measurable_pi_lambda _ (fun i => tanh_measurable.comp (measurable_pi_apply i))
  have hpre : (fun (x : Fin d → ℝ) i => Real.tanh (x i)) ⁻¹' Set.pi univ S = Set.pi univ (fun i => Real.tanh ⁻¹' S i) := by
    ext x; simp [Set.mem_pi]
  rw [Measure.map_apply hm (MeasurableSet.univ_pi hS), hpre]
  unfold law
  rw [Measure.pi_pi, ENNReal.toReal_prod]
  rw [volume_pi, Measure.restrict_pi_pi, integral_fintype_prod_eq_prod]
  apply Finset.prod_congr rfl
  intro i _
  exact tanh_law (by simpa using Real.exp_pos _) (hS i) ((hK i).trans unclipped_sub)

/-- C61 (partial).  Over the Box [-1, 1]^d, and for actions at least 1e-7 inside it, `log_proba` is the logarithm of the
density of `sample`.  What is missing is any other Box: there it is false (`C61_counterexample`). -/
theorem C61_log_proba_partial {s : SquashedConfig d} {cl : ℝ × ℝ} (hcl : s.clipLogvar = some cl)
    (hbox : ∀ i, s.low i = -1 ∧ s.high i = 1) (p : NormalParams d) :
    ∃ (f : (Fin d → ℝ) → ℝ) (μ : Measure (Fin d → ℝ)), SampleLaw s p μ ∧
      (∀ x, squashedLogProba (Real.log (2 * Real.pi)) s p x = .ok (f x)) ∧ LogDensityOn unclipped μ f := by
  obtain ⟨f, hf, hd⟩ := C61_log_proba_of_tanh hcl p
  refine ⟨f, _, ⟨_, fun eps => by simp only [squashedSample, hcl]; rfl, rfl⟩, hf, ?_⟩
  have hm : Measurable (fun (x : Fin d → ℝ) i => Real.tanh (x i)) :=
    measurable_pi_lambda _ (fun i => tanh_measurable.comp (measurable_pi_apply i))
  have hn : Measurable (normalSample (s.normal cl) p) :=
    measurable_pi_lambda _ (fun i => by unfold normalSample; fun_prop)
  have e : (fun (eps : Fin d → ℝ) i => Real.tanh (normalSample (s.normal cl) p eps i) * ((s.high i - s.low i) / 2) + (s.high i + s.low i) / 2) =
      (fun (x : Fin d → ℝ) i => Real.tanh (x i)) ∘ normalSample (s.normal cl) p := by
    funext eps i
    simp only [(hbox i).1, (hbox i).2, Function.comp]
    ring
  rw [e, ← Measure.map_map hm hn, C50_sample_law]
  exact hd

/-- C61 is false for other boxes.  Over the Box [-2, 2] the samples are twice the hyperbolic tangent, but `log_proba` is
the density of the hyperbolic tangent itself. -/
theorem C61_counterexample : ∃ (s : SquashedConfig 1) (p : NormalParams 1) (f : (Fin 1 → ℝ) → ℝ) (μ : Measure (Fin 1 → ℝ)),
    (∀ i, s.low i < s.high i) ∧ SampleLaw s p μ ∧ (∀ x, squashedLogProba (Real.log (2 * Real.pi)) s p x = .ok (f x)) ∧
    ¬ LogDensityOn unclipped μ f := by
  obtain ⟨f, hf, hd⟩ := C61_log_proba_of_tanh (s := ⟨fun _ : Fin 1 => -2, fun _ => 2, some (-20, 20)⟩) rfl ⟨fun _ => 0, fun _ => 0⟩
  refine ⟨⟨fun _ => -2, fun _ => 2, some (-20, 20)⟩, ⟨fun _ => 0, fun _ => 0⟩, f, _, by intro i; norm_num,
    ⟨_, fun eps => by simp only [squashedSample]; rfl, rfl⟩, hf, ?_⟩
  intro hbad
  set s : SquashedConfig 1 := ⟨fun _ => -2, fun _ => 2, some (-20, 20)⟩
  set p : NormalParams 1 := ⟨fun _ => 0, fun _ => 0⟩
  have hm : Measurable (fun (x : Fin 1 → ℝ) i => Real.tanh (x i)) :=
    measurable_pi_lambda _ (fun i => tanh_measurable.comp (measurable_pi_apply i))
  have hm2 : Measurable (fun (x : Fin 1 → ℝ) i => 2 * Real.tanh (x i)) :=
    measurable_pi_lambda _ (fun i => (tanh_measurable.comp (measurable_pi_apply i)).const_mul 2)
  have hn : Measurable (normalSample (s.normal (-20, 20)) p) :=
    measurable_pi_lambda _ (fun i => by unfold normalSample; fun_prop)
  have e : (fun (eps : Fin 1 → ℝ) i => Real.tanh (normalSample (s.normal (-20, 20)) p eps i) * ((s.high i - s.low i) / 2) + (s.high i + s.low i) / 2) =
      (fun (x : Fin 1 → ℝ) i => 2 * Real.tanh (x i)) ∘ normalSample (s.normal (-20, 20)) p := by
    funext eps i
    simp only [s, Function.comp]
    ring
  have hS : MeasurableSet (Icc (-(1/2) : ℝ) (1/2)) := measurableSet_Icc
  have hK : Icc (-(1/2) : ℝ) (1/2) ⊆ unclipped := Icc_subset_Icc (by norm_num) (by norm_num)
  have h1 := hd (fun _ => Icc (-(1/2) : ℝ) (1/2)) (fun _ => hS) (fun _ => hK)
  have h2 := hbad (fun _ => Icc (-(1/2) : ℝ) (1/2)) (fun _ => hS) (fun _ => hK)
  rw [e, ← Measure.map_map hm2 hn, C50_sample_law] at h2
  rw [← h1, ENNReal.toReal_eq_toReal_iff' (measure_ne_top _ _) (measure_ne_top _ _),
    Measure.map_apply hm (MeasurableSet.univ_pi (fun _ => hS)), Measure.map_apply hm2 (MeasurableSet.univ_pi (fun _ => hS))] at h2
  have q1 : (fun (x : Fin 1 → ℝ) i => Real.tanh (x i)) ⁻¹' Set.pi univ (fun _ => Icc (-(1/2) : ℝ) (1/2)) =
      Set.pi univ (fun _ => Real.tanh ⁻¹' Icc (-(1/2) : ℝ) (1/2)) := by
    ext x; simp only [Set.mem_pi, mem_preimage]
  have q2 : (fun (x : Fin 1 → ℝ) i => 2 * Real.tanh (x i)) ⁻¹' Set.pi univ (fun _ => Icc (-(1/2) : ℝ) (1/2)) =
      Set.pi univ (fun _ => Real.tanh ⁻¹' Icc (-(1/4) : ℝ) (1/4)) := by
    ext x
    simp only [Set.mem_pi, mem_preimage, mem_Icc, mem_univ, forall_const]
    refine forall_congr' (fun i => ?_)
    constructor <;> rintro ⟨a, b⟩ <;> constructor <;> linarith
  rw [q1, q2] at h2
  unfold law at h2
  rw [Measure.pi_pi, Measure.pi_pi] at h2
  simp only [Finset.univ_unique, Finset.prod_singleton] at h2
  -- the two events differ by a set of positive probability
  set g := gaussianReal (p.mu default) (Real.toNNReal (Real.exp (min (max (p.logvar default) (s.normal (-20, 20)).clipLogvar.1) (s.normal (-20, 20)).clipLogvar.2)))
  have hsub : Real.tanh ⁻¹' Icc (-(1/4) : ℝ) (1/4) ⊆ Real.tanh ⁻¹' Icc (-(1/2) : ℝ) (1/2) :=
    preimage_mono (Icc_subset_Icc (by norm_num) (by norm_num))
  have hdiff : g (Real.tanh ⁻¹' Icc (-(1/2) : ℝ) (1/2) \ Real.tanh ⁻¹' Icc (-(1/4) : ℝ) (1/4)) = 0 := by
    rw [measure_sdiff hsub (tanh_measurable measurableSet_Icc).nullMeasurableSet (measure_ne_top _ _), h2, tsub_self]
  have hvol : volume (Real.tanh ⁻¹' Icc (-(1/2) : ℝ) (1/2) \ Real.tanh ⁻¹' Icc (-(1/4) : ℝ) (1/4)) = 0 :=
    gaussianReal_absolutelyContinuous' _ (by simpa using Real.exp_pos _) hdiff
  have hopen : Real.tanh ⁻¹' Ioo (1/4 : ℝ) (1/2) ⊆ Real.tanh ⁻¹' Icc (-(1/2) : ℝ) (1/2) \ Real.tanh ⁻¹' Icc (-(1/4) : ℝ) (1/4) := by
    intro z hz
    have hz' : 1/4 < Real.tanh z ∧ Real.tanh z < 1/2 := hz
    refine ⟨⟨by linarith [hz'.1], hz'.2.le⟩, fun h => ?_⟩
    have : Real.tanh z ≤ 1/4 := h.2
    linarith [hz'.1]
  have hcont : Continuous Real.tanh := by
    have : Real.tanh = fun x => Real.sinh x / Real.cosh x := by funext x; exact Real.tanh_eq_sinh_div_cosh x
    rw [this]
    exact Real.continuous_sinh.div Real.continuous_cosh (fun x => (Real.cosh_pos x).ne')
  have ho : IsOpen (Real.tanh ⁻¹' Ioo (1/4 : ℝ) (1/2)) := isOpen_Ioo.preimage hcont
  have hne : (Real.tanh ⁻¹' Ioo (1/4 : ℝ) (1/2)).Nonempty := by
    refine ⟨Real.artanh (3/8), ?_⟩
    rw [mem_preimage, Real.tanh_artanh (by constructor <;> norm_num)]
    constructor <;> norm_num
  have := ho.measure_pos volume hne
  exact absurd (measure_mono_null hopen hvol) this.ne'

/-- Settings that meet the hypotheses of the positive results. -/
example : ∃ s : SquashedConfig 2, s.clipLogvar = some (-20, 20) ∧ (∀ i, s.low i = -1 ∧ s.high i = 1) ∧ (s.normal (-20, 20)).init = .ok (s.normal (-20, 20)) := by
  refine ⟨⟨fun _ => -1, fun _ => 1, some (-20, 20)⟩, rfl, fun _ => ⟨rfl, rfl⟩, (C50_init _).1.2 ?_⟩
  intro i
  norm_num [SquashedConfig.normal, NormalConfig.low, NormalConfig.high]

end Coax.Dists
