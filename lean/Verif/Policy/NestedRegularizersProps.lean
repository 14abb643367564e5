import Verif.Policy.NestedRegularizers
import Verif.Dists.CompositeProps

/-! Property C118: regularizers of nested distributions, normal ones included. -/

namespace Coax.Pol

open Coax.Dists MeasureTheory

/-- Parameters without preference: equal logits; mean 0 and log-variance 0. -/
def Neutral : Leaf → LeafParams → Prop
  | .cat _, .logits z => ∀ x ∈ z, x = 0
  | .normal _ _, .normal mu logvar => (∀ x ∈ mu, x = 0) ∧ ∀ x ∈ logvar, x = 0
  | _, _ => False

mutual
/-- The keys of each dict are distinct, as those of a Python dict are. -/
def Distinct : Dist → Prop
  | .leaf _ => True
  | .list ds => DistinctList ds
  | .dict ds => (ds.map Prod.fst).Nodup ∧ DistinctDict ds
/-- The same for the elements of a tuple. -/
def DistinctList : List Dist → Prop
  | [] => True
  | d :: ds => Distinct d ∧ DistinctList ds
/-- The same for the values of a dict. -/
def DistinctDict : List (String × Dist) → Prop
  | [] => True
  | (_, d) :: ds => Distinct d ∧ DistinctDict ds
end

theorem lookup_priors {ds : List (String × Dist)} (hn : (ds.map Prod.fst).Nodup) : ∀ k d, (k, d) ∈ ds → (distPriorsDict ds).lookup k = some (distPriors d) := by
  induction ds with
  | nil => intro k d h; simp at h
  | cons e ds ih =>
    obtain ⟨k', d'⟩ := e
    intro k d h
    rw [List.map_cons, List.nodup_cons] at hn
    rcases List.mem_cons.1 h with h | hm
    · cases h
      simp [distPriorsDict]
    · have hne : k ≠ k' := by
        rintro rfl
        exact hn.1 (List.mem_map.2 ⟨(k, d), hm, rfl⟩)
      simp only [distPriorsDict, List.lookup_cons]
      rw [show (k == k') = false by simpa using hne]
      exact ih hn.2 k d hm

mutual
theorem flat_priors (d : Dist) (h : Distinct d) : flat d (distPriors d) = some ((leaves d).map leafPriors) := by
  match d with
  | .leaf l => rfl
  | .list ds => simp only [distPriors, flat, leaves]; simp only [Distinct] at h; exact flatList_priors ds h
  | .dict ds => simp only [distPriors, flat, leaves]; simp only [Distinct] at h; exact flatDict_priors ds h.2 _ (lookup_priors h.1)
theorem flatList_priors (ds : List Dist) (h : DistinctList ds) : flatList ds (distPriorsList ds) = some ((leavesList ds).map leafPriors) := by
  match ds with
  | [] => rfl
  | d :: ds => simp only [DistinctList] at h; simp [distPriorsList, flatList, leavesList, flat_priors d h.1, flatList_priors ds h.2]
theorem flatDict_priors (ds : List (String × Dist)) (h : DistinctDict ds) (ts : List (String × Dists.Tree LeafParams)) (hl : ∀ k d, (k, d) ∈ ds → ts.lookup k = some (distPriors d)) :
    flatDict ds ts = some ((leavesDict ds).map leafPriors) := by
  match ds with
  | [] => rfl
  | (k, d) :: ds =>
    simp only [DistinctDict] at h
    have h1 := hl k d (by simp)
    have h2 := flatDict_priors ds h.2 ts (fun k' d' hm => hl k' d' (by simp [hm]))
    simp [flatDict, leavesDict, h1, flat_priors d h.1, h2]
end

/-- **C118** for all nested distributions: the entropy regularizer is `-beta` times the entropy of the joint distribution. -/
theorem C118_entropy_partial {d : Dist} {t : Dists.Tree LeafParams} {ps : List LeafParams} (h : Fits d t ps) (k beta : ℝ) {X : Outcome (leaves d) → Dists.Tree (List ℝ)}
    (hX : ∀ x, flat d (X x) = some (arrays x)) :
    ∃ (r : ℝ) (lp : Outcome (leaves d) → ℝ), entropyRegD k beta (.nested d) t = .ok r ∧ (∀ x, d.logProba k t (X x) = .ok (lp x)) ∧ r = -beta * ∫ x, -lp x ∂joint (leaves d) ps := by
  obtain ⟨H, CE, lp, lq, h1, _, h3, _, h5, _⟩ := C74_entropy h h k hX
  exact ⟨-beta * H, lp, by simp only [entropyRegD, PolicyDist.entropy, h1], h3, by rw [h5]⟩

/-- **C118** for all nested distributions: the KL regularizer is `beta` times the divergence from the priors; it is not negative, and zero only if the distribution is that of the priors. -/
theorem C118_kl_partial {d : Dist} {t u : Dists.Tree LeafParams} {ps qs : List LeafParams} (hp : Fits d t ps) (hq : Fits d u qs) (beta : ℝ) {X : Outcome (leaves d) → Dists.Tree (List ℝ)}
    (hX : ∀ x, flat d (X x) = some (arrays x)) (k : ℝ) :
    ∃ (r : ℝ) (lp lq : Outcome (leaves d) → ℝ), klRegD beta (.nested d) t u = .ok r ∧ (∀ x, d.logProba k t (X x) = .ok (lp x)) ∧ (∀ x, d.logProba k u (X x) = .ok (lq x)) ∧
      r = beta * ((∫ x, -lq x ∂joint (leaves d) ps) - ∫ x, -lp x ∂joint (leaves d) ps) ∧ (0 ≤ beta → 0 ≤ r) ∧ (0 < beta → (r = 0 ↔ joint (leaves d) ps = joint (leaves d) qs)) := by
  obtain ⟨H, CE, lp, lq, h1, h2, h3, h4, h5, h6⟩ := C74_entropy hp hq k hX
  obtain ⟨H', CE', KL, k1, k2, k3, k4, k5, k6⟩ := C74_kl hp hq k
  rw [h1] at k1
  rw [h2] at k2
  obtain rfl : H = H' := by simpa using k1
  obtain rfl : CE = CE' := by simpa using k2
  refine ⟨beta * KL, lp, lq, by simp only [klRegD, PolicyDist.kl, k3], h3, h4, by rw [k4, h5, h6], fun hb => mul_nonneg hb k5, fun hb => ?_⟩
  rw [mul_eq_zero, or_iff_right hb.ne', k6]

/-- **C118** with the default priors: the same, where every leaf of the priors is neutral. -/
theorem C118_priors_partial {d : Dist} (hd : ∀ n, Leaf.cat n ∈ leaves d → 0 < n) (hk : Distinct d) {t : Dists.Tree LeafParams} {ps : List LeafParams} (hp : Fits d t ps) (beta : ℝ) (k : ℝ) :
    ∃ (r : ℝ) (qs : List LeafParams), klRegDefault beta d t = .ok r ∧ Fits d (distPriors d) qs ∧ (∀ (i : Nat) (l : Leaf) (q : LeafParams), (leaves d)[i]? = some l → qs[i]? = some q → Neutral l q) ∧
      (0 ≤ beta → 0 ≤ r) ∧ (0 < beta → (r = 0 ↔ joint (leaves d) ps = joint (leaves d) qs)) := by
  have hq : Fits d (distPriors d) ((leaves d).map leafPriors) := by
    refine ⟨flat_priors d hk, fun i l p hl hpi => ?_⟩
    rw [List.getElem?_map, hl, Option.map_some, Option.some.injEq] at hpi
    subst hpi
    cases l with
    | cat n => exact ⟨hd n (List.mem_of_getElem? hl), by simp⟩
    | normal d c => exact ⟨by simp, by simp⟩
  obtain ⟨H', CE', KL, k1, k2, k3, k4, k5, k6⟩ := C74_kl hp hq k
  refine ⟨beta * KL, _, by simp only [klRegDefault, klRegD, PolicyDist.kl, k3], hq, fun i l q hl hqi => ?_, fun hb => mul_nonneg hb k5, fun hb => ?_⟩
  · rw [List.getElem?_map, hl, Option.map_some, Option.some.injEq] at hqi
    subst hqi
    cases l with
    | cat n => exact fun x hx => List.eq_of_mem_replicate hx
    | normal d c => exact ⟨fun x hx => List.eq_of_mem_replicate hx, fun x hx => List.eq_of_mem_replicate hx⟩
  · rw [mul_eq_zero, or_iff_right hb.ne', k6]

/-- C118 fails for squashed normal policies (and quantiles): they have neither entropy nor divergence, so that both regularizers raise AttributeError. -/
theorem C118_squashed_counterexample (k beta : ℝ) (t u : Dists.Tree LeafParams) : entropyRegD k beta .squashed t = .error .attributeError ∧ klRegD beta .squashed t u = .error .attributeError ∧
    entropyRegD k beta .quantiles t = .error .attributeError ∧ klRegD beta .quantiles t u = .error .attributeError := ⟨rfl, rfl, rfl, rfl⟩

/-- The hypotheses are met: a tuple of a categorical distribution over two actions and another over three. -/
example : Fits (.list [.leaf (.cat 2), .leaf (.cat 3)]) (.list [.leaf (.logits [1, 2]), .leaf (.logits [0, 0, 1])]) [.logits [1, 2], .logits [0, 0, 1]] := by
  refine ⟨rfl, fun i l p h1 h2 => ?_⟩
  match i with
  | 0 => simp [leaves, leavesList] at h1 h2; subst h1; subst h2; simp [LeafFits]
  | 1 => simp [leaves, leavesList] at h1 h2; subst h1; subst h2; simp [LeafFits]
  | i + 2 => simp [leaves, leavesList] at h1

end Coax.Pol
