import Verif.Dists.Composite
import Verif.Dists.CategoricalProps
import Verif.Dists.NormalProps

/-! Property C74: the joint distribution over a nested space. -/

namespace Coax.Dists

open MeasureTheory ProbabilityTheory

/-! ### The specification: independent leaves -/

mutual
/-- The leaves of a nested distribution, from left to right. -/
def leaves : Dist → List Leaf
  | .leaf l => [l]
  | .list ds => leavesList ds
  | .dict ds => leavesDict ds
def leavesList : List Dist → List Leaf
  | [] => []
  | d :: ds => leaves d ++ leavesList ds
def leavesDict : List (String × Dist) → List Leaf
  | [] => []
  | (_, d) :: ds => leaves d ++ leavesDict ds
end

variable {α β : Type}

mutual
/-- The entries of a tree with the structure of the distribution, in the order of its leaves.  A dict may list its keys in any order. -/
def flat : Dist → Tree α → Option (List α)
  | .leaf _, .leaf x => some [x]
  | .list ds, .list ts => flatList ds ts
  | .dict ds, .dict ts => flatDict ds ts
  | _, _ => none
def flatList : List Dist → List (Tree α) → Option (List α)
  | [], [] => some []
  | d :: ds, t :: ts => do
    let x ← flat d t
    let xs ← flatList ds ts
    return x ++ xs
  | _, _ => none
def flatDict : List (String × Dist) → List (String × Tree α) → Option (List α)
  | [], _ => some []
  | (k, d) :: ds, ts => do
    let t ← ts.lookup k
    let x ← flat d t
    let xs ← flatDict ds ts
    return x ++ xs
end

/-- The number of coordinates of a variate of a leaf. -/
abbrev Leaf.size : Leaf → Nat
  | .cat n => n
  | .normal d _ => d

/-- Parameters with the right shape. -/
def LeafFits : Leaf → LeafParams → Prop
  | .cat n, .logits z => 0 < n ∧ z.length = n
  | .normal d _, .normal mu logvar => mu.length = d ∧ logvar.length = d
  | _, _ => False

/-- The probability of category `k`. -/
noncomputable def catProb (n : Nat) (z : List ℝ) (k : Fin n) : ℝ := Real.exp (z.getD k 0) / ∑ j : Fin n, Real.exp (z.getD j 0)

/-- The one-hot vector of a category. -/
def hot {n : Nat} (k : Fin n) : Fin n → ℝ := fun j => if j = k then 1 else 0

/-- The law of a random one-hot vector. -/
noncomputable def catLaw (n : Nat) (z : List ℝ) : Measure (Fin n → ℝ) := ∑ k : Fin n, ENNReal.ofReal (catProb n z k) • Measure.dirac (hot k)

/-- The law of a leaf: a random one-hot vector, or independent normals. -/
noncomputable def leafLaw : (l : Leaf) → LeafParams → Measure (Fin l.size → ℝ)
  | .cat n, .logits z => catLaw n z
  | .normal _ c, .normal mu logvar => law c ⟨fun i => mu.getD i 0, fun i => logvar.getD i 0⟩
  | _, _ => 0

/-- What the density of a leaf refers to: counting the one-hot vectors, or volume. -/
noncomputable def leafBase : (l : Leaf) → Measure (Fin l.size → ℝ)
  | .cat n => (∑ k : Fin n, Measure.dirac (hot k) : Measure (Fin n → ℝ))
  | .normal _ _ => volume

/-- An outcome: a vector for each leaf. -/
abbrev Outcome (ls : List Leaf) := (i : Fin ls.length) → Fin (ls.get i).size → ℝ

/-- An outcome as the list of arrays. -/
def arrays {ls : List Leaf} (x : Outcome ls) : List (List ℝ) := List.ofFn (fun i => List.ofFn (x i))

/-- The joint law: the leaves are independent. -/
noncomputable def joint (ls : List Leaf) (ps : List LeafParams) : Measure (Outcome ls) :=
  Measure.pi (fun i => leafLaw (ls.get i) (ps.getD i (.logits [])))

/-- What the joint density refers to. -/
noncomputable def jointBase (ls : List Leaf) : Measure (Outcome ls) := Measure.pi (fun i => leafBase (ls.get i))

/-- Parameters of the whole distribution: the structure fits, and so does every leaf. -/
def Fits (d : Dist) (t : Tree LeafParams) (ps : List LeafParams) : Prop :=
  flat d t = some ps ∧ ∀ (i : Nat) (l : Leaf) (p : LeafParams), (leaves d)[i]? = some l → ps[i]? = some p → LeafFits l p

/-! ### The recursion is a sum over the leaves -/

mutual
theorem flat_length {d : Dist} {t : Tree α} {xs : List α} (h : flat d t = some xs) : xs.length = (leaves d).length := by
  match d, t with
  | .leaf _, .leaf x => simp [flat] at h; subst h; simp [leaves]
  | .list ds, .list ts => simp only [flat] at h; simp only [leaves]; exact flatList_length h
  | .dict ds, .dict ts => simp only [flat] at h; simp only [leaves]; exact flatDict_length h
theorem flatList_length {ds : List Dist} {ts : List (Tree α)} {xs : List α} (h : flatList ds ts = some xs) : xs.length = (leavesList ds).length := by
  match ds, ts with
  | [], [] => simp [flatList] at h; subst h; simp [leavesList]
  | d :: ds, t :: ts =>
    simp only [flatList, Option.bind_eq_bind, Option.bind_eq_some_iff, Option.pure_def, Option.some.injEq] at h
    obtain ⟨a, ha, b, hb, rfl⟩ := h
    simp only [leavesList, List.length_append, flat_length ha, flatList_length hb]
theorem flatDict_length {ds : List (String × Dist)} {ts : List (String × Tree α)} {xs : List α} (h : flatDict ds ts = some xs) : xs.length = (leavesDict ds).length := by
  match ds with
  | [] => simp [flatDict] at h; subst h; simp [leavesDict]
  | (k, d) :: ds =>
    simp only [flatDict, Option.bind_eq_bind, Option.bind_eq_some_iff, Option.pure_def, Option.some.injEq] at h
    obtain ⟨t, -, a, ha, b, hb, rfl⟩ := h
    simp only [leavesDict, List.length_append, flat_length ha, flatDict_length hb]
end

section
variable {f : Leaf → α → Except Err ℝ} {g : Leaf → α → ℝ}

theorem zip_append_sum {ls ls' : List Leaf} {xs xs' : List α} (h : xs.length = ls.length) :
    (List.zipWith g (ls ++ ls') (xs ++ xs')).sum = (List.zipWith g ls xs).sum + (List.zipWith g ls' xs').sum := by
  rw [List.zipWith_append h.symm, List.sum_append]

mutual
theorem sum1_flat {d : Dist} {t : Tree α} {xs : List α} (h : flat d t = some xs) (hf : ∀ lx ∈ (leaves d).zip xs, f lx.1 lx.2 = .ok (g lx.1 lx.2)) :
    sum1 f d t = .ok (List.zipWith g (leaves d) xs).sum := by
  match d, t with
  | .leaf l, .leaf x => simp [flat] at h; subst h; simp [leaves] at hf ⊢; simp [sum1, hf]
  | .list ds, .list ts => simp only [flat] at h; simp only [leaves] at hf ⊢; simp only [sum1]; exact sum1List_flat h hf
  | .dict ds, .dict ts => simp only [flat] at h; simp only [leaves] at hf ⊢; simp only [sum1]; exact sum1Dict_flat h hf
theorem sum1List_flat {ds : List Dist} {ts : List (Tree α)} {xs : List α} (h : flatList ds ts = some xs)
    (hf : ∀ lx ∈ (leavesList ds).zip xs, f lx.1 lx.2 = .ok (g lx.1 lx.2)) : sum1List f ds ts = .ok (List.zipWith g (leavesList ds) xs).sum := by
  match ds, ts with
  | [], [] => simp [flatList] at h; subst h; simp [leavesList, sum1List]
  | d :: ds, t :: ts =>
    simp only [flatList, Option.bind_eq_bind, Option.bind_eq_some_iff, Option.pure_def, Option.some.injEq] at h
    obtain ⟨a, ha, b, hb, rfl⟩ := h
    simp only [leavesList] at hf ⊢
    rw [List.zip_append (flat_length ha).symm] at hf
    rw [zip_append_sum (flat_length ha)]
    simp only [sum1List]
    rw [sum1_flat ha (fun x hx => hf x (by simp [hx])), sum1List_flat hb (fun x hx => hf x (by simp [hx]))]
theorem sum1Dict_flat {ds : List (String × Dist)} {ts : List (String × Tree α)} {xs : List α} (h : flatDict ds ts = some xs)
    (hf : ∀ lx ∈ (leavesDict ds).zip xs, f lx.1 lx.2 = .ok (g lx.1 lx.2)) : sum1Dict f ds ts = .ok (List.zipWith g (leavesDict ds) xs).sum := by
  match ds with
  | [] => simp [flatDict] at h; subst h; simp [leavesDict, sum1Dict]
  | (k, d) :: ds =>
    simp only [flatDict, Option.bind_eq_bind, Option.bind_eq_some_iff, Option.pure_def, Option.some.injEq] at h
    obtain ⟨t, ht, a, ha, b, hb, rfl⟩ := h
    simp only [leavesDict] at hf ⊢
    rw [List.zip_append (flat_length ha).symm] at hf
    rw [zip_append_sum (flat_length ha)]
    simp only [sum1Dict, ht]
    rw [sum1_flat ha (fun x hx => hf x (by simp [hx])), sum1Dict_flat hb (fun x hx => hf x (by simp [hx]))]
end
end

section
variable {f : Leaf → α → β → Except Err ℝ} {g : Leaf → α × β → ℝ}

mutual
theorem sum2_flat {d : Dist} {t : Tree α} {u : Tree β} {xs : List α} {ys : List β} (h : flat d t = some xs) (h' : flat d u = some ys)
    (hf : ∀ lx ∈ (leaves d).zip (xs.zip ys), f lx.1 lx.2.1 lx.2.2 = .ok (g lx.1 lx.2)) :
    sum2 f d t u = .ok (List.zipWith g (leaves d) (xs.zip ys)).sum := by
  match d, t, u with
  | .leaf l, .leaf x, .leaf y => simp [flat] at h h'; subst h h'; simp [leaves] at hf ⊢; simp [sum2, hf]
  | .list ds, .list ts, .list us => simp only [flat] at h h'; simp only [leaves] at hf ⊢; simp only [sum2]; exact sum2List_flat h h' hf
  | .dict ds, .dict ts, .dict us => simp only [flat] at h h'; simp only [leaves] at hf ⊢; simp only [sum2]; exact sum2Dict_flat h h' hf
theorem sum2List_flat {ds : List Dist} {ts : List (Tree α)} {us : List (Tree β)} {xs : List α} {ys : List β} (h : flatList ds ts = some xs) (h' : flatList ds us = some ys)
    (hf : ∀ lx ∈ (leavesList ds).zip (xs.zip ys), f lx.1 lx.2.1 lx.2.2 = .ok (g lx.1 lx.2)) : sum2List f ds ts us = .ok (List.zipWith g (leavesList ds) (xs.zip ys)).sum := by
  match ds, ts, us with
  | [], [], [] => simp [flatList] at h h'; subst h h'; simp [leavesList, sum2List]
  | d :: ds, t :: ts, u :: us =>
    simp only [flatList, Option.bind_eq_bind, Option.bind_eq_some_iff, Option.pure_def, Option.some.injEq] at h h'
    obtain ⟨a, ha, b, hb, rfl⟩ := h
    obtain ⟨a', ha', b', hb', rfl⟩ := h'
    have e : a.length = a'.length := by rw [flat_length ha, flat_length ha']
    have e' : (a.zip a').length = (leaves d).length := by rw [List.length_zip, ← e, min_self, flat_length ha]
    simp only [leavesList] at hf ⊢
    rw [List.zip_append e, List.zip_append e'.symm] at hf
    rw [List.zip_append e, zip_append_sum e']
    simp only [sum2List]
    rw [sum2_flat ha ha' (fun x hx => hf x (by simp [hx])), sum2List_flat hb hb' (fun x hx => hf x (by simp [hx]))]
theorem sum2Dict_flat {ds : List (String × Dist)} {ts : List (String × Tree α)} {us : List (String × Tree β)} {xs : List α} {ys : List β}
    (h : flatDict ds ts = some xs) (h' : flatDict ds us = some ys)
    (hf : ∀ lx ∈ (leavesDict ds).zip (xs.zip ys), f lx.1 lx.2.1 lx.2.2 = .ok (g lx.1 lx.2)) : sum2Dict f ds ts us = .ok (List.zipWith g (leavesDict ds) (xs.zip ys)).sum := by
  match ds with
  | [] => simp [flatDict] at h h'; subst h h'; simp [leavesDict, sum2Dict]
  | (k, d) :: ds =>
    simp only [flatDict, Option.bind_eq_bind, Option.bind_eq_some_iff, Option.pure_def, Option.some.injEq] at h h'
    obtain ⟨t, ht, a, ha, b, hb, rfl⟩ := h
    obtain ⟨t', ht', a', ha', b', hb', rfl⟩ := h'
    have e : a.length = a'.length := by rw [flat_length ha, flat_length ha']
    have e' : (a.zip a').length = (leaves d).length := by rw [List.length_zip, ← e, min_self, flat_length ha]
    simp only [leavesDict] at hf ⊢
    rw [List.zip_append e, List.zip_append e'.symm] at hf
    rw [List.zip_append e, zip_append_sum e']
    simp only [sum2Dict, ht, ht']
    rw [sum2_flat ha ha' (fun x hx => hf x (by simp [hx])), sum2Dict_flat hb hb' (fun x hx => hf x (by simp [hx]))]
end
end

/-! ### One leaf -/

theorem vec_eq {n : Nat} (z : List ℝ) (h : z.length = n) : vec z h = fun k : Fin n => z.getD k 0 := by
  funext k
  have : k.1 < z.length := by rw [h]; exact k.2
  simp [vec, this]

/-- The log-probability of a leaf as a number. -/
noncomputable def leafLP (log2pi : ℝ) : (l : Leaf) → LeafParams → (Fin l.size → ℝ) → ℝ
  | .cat n, .logits z, x => logProbaRow (fun k : Fin n => z.getD k 0) x
  | .normal _ c, .normal mu logvar, x => normalLogProba log2pi c ⟨fun i => mu.getD i 0, fun i => logvar.getD i 0⟩ x
  | _, _, _ => 0

theorem vec_ofFn {n : Nat} (x : Fin n → ℝ) (h : (List.ofFn x).length = n) : vec (List.ofFn x) h = x := by
  funext k; simp [vec]

theorem Leaf.logProba_ok {l : Leaf} {p : LeafParams} (h : LeafFits l p) (log2pi : ℝ) (x : Fin l.size → ℝ) :
    l.logProba log2pi p (List.ofFn x) = .ok (leafLP log2pi l p x) := by
  match l, p, h with
  | .cat n, .logits z, h =>
    have hx : (List.ofFn x).length = n := List.length_ofFn
    simp only [Leaf.logProba, checkVec, dif_pos hx, dif_pos h.2, leafLP]
    rw [vec_eq z, vec_ofFn]
  | .normal d c, .normal mu logvar, h =>
    have hx : (List.ofFn x).length = d := List.length_ofFn
    have h' : mu.length = d ∧ logvar.length = d := h
    simp only [Leaf.logProba, checkVec, dif_pos hx, normalParams, dif_pos h', leafLP]
    rw [vec_eq mu, vec_eq logvar, vec_ofFn]

/-- A function of two sets of parameters, as a number. -/
noncomputable def leafBin (cat : (n : Nat) → (Fin n → ℝ) → (Fin n → ℝ) → ℝ) (normal : (d : Nat) → NormalConfig d → NormalParams d → NormalParams d → ℝ) :
    Leaf → LeafParams → LeafParams → ℝ
  | .cat n, .logits zp, .logits zq => cat n (fun k => zp.getD k 0) (fun k => zq.getD k 0)
  | .normal d c, .normal mp lp, .normal mq lq => normal d c ⟨fun i => mp.getD i 0, fun i => lp.getD i 0⟩ ⟨fun i => mq.getD i 0, fun i => lq.getD i 0⟩
  | _, _, _ => 0

theorem Leaf.binary_ok {cat : (n : Nat) → (Fin n → ℝ) → (Fin n → ℝ) → ℝ} {normal : (d : Nat) → NormalConfig d → NormalParams d → NormalParams d → ℝ}
    {l : Leaf} {p q : LeafParams} (hp : LeafFits l p) (hq : LeafFits l q) : Leaf.binary cat normal l p q = .ok (leafBin cat normal l p q) := by
  match l, p, q, hp, hq with
  | .cat n, .logits zp, .logits zq, hp, hq =>
    simp only [Leaf.binary, checkVec, dif_pos hp.2, dif_pos hq.2, leafBin]
    rw [vec_eq zp, vec_eq zq]
  | .normal d c, .normal mp lp, .normal mq lq, hp, hq =>
    have hp' : mp.length = d ∧ lp.length = d := hp
    have hq' : mq.length = d ∧ lq.length = d := hq
    simp only [Leaf.binary, normalParams, dif_pos hp', dif_pos hq', leafBin]
    rw [vec_eq mp, vec_eq lp, vec_eq mq, vec_eq lq]

/-- The cross entropy of a leaf as a number. -/
noncomputable def leafCE (log2pi : ℝ) : Leaf → LeafParams → LeafParams → ℝ := leafBin (fun _ zp zq => crossEntropyRow zp zq) (fun _ c p q => normalCrossEntropy log2pi c p q)

/-- The divergence of a leaf as a number. -/
noncomputable def leafKL : Leaf → LeafParams → LeafParams → ℝ := leafBin (fun _ zp zq => klRow zp zq) (fun _ c p q => normalKL c p q)

theorem crossEntropyRow_self {n : Nat} (z : Fin n → ℝ) : crossEntropyRow z z = entropyRow z := by
  unfold crossEntropyRow entropyRow
  exact Finset.sum_congr rfl (fun k _ => by rw [exp_logSoftmax])

theorem Leaf.entropy_ok {l : Leaf} {p : LeafParams} (hp : LeafFits l p) (log2pi : ℝ) : l.entropy log2pi p = .ok (leafCE log2pi l p p) := by
  match l, p, hp with
  | .cat n, .logits z, hp =>
    simp only [Leaf.entropy, checkVec, dif_pos hp.2, leafCE, leafBin, crossEntropyRow_self]
    rw [vec_eq z]
  | .normal d c, .normal mu lv, hp =>
    have hp' : mu.length = d ∧ lv.length = d := hp
    simp only [Leaf.entropy, normalParams, dif_pos hp', leafCE, leafBin, cross_self]
    rw [vec_eq mu, vec_eq lv]

theorem catProb_eq (n : Nat) (z : List ℝ) (k : Fin n) : catProb n z k = softmax (fun j : Fin n => z.getD j 0) k := rfl

theorem catLaw_prob {n : Nat} (hn : 0 < n) (z : List ℝ) : IsProbabilityMeasure (catLaw n z) := by
  constructor
  unfold catLaw
  simp only [Measure.coe_finsetSum, Finset.sum_apply, Measure.smul_apply, smul_eq_mul, measure_univ, mul_one, catProb_eq]
  rw [← ENNReal.ofReal_sum_of_nonneg (fun k _ => (softmax_pos _ k).le), softmax_sum hn, ENNReal.ofReal_one]

theorem leafLaw_prob {l : Leaf} {p : LeafParams} (hp : LeafFits l p) : IsProbabilityMeasure (leafLaw l p) := by
  match l, p, hp with
  | .cat n, .logits z, hp => exact catLaw_prob hp.1 z
  | .normal d c, .normal mu lv, hp => exact inferInstanceAs (IsProbabilityMeasure (law c _))

theorem logProbaRow_hot {n : Nat} (z : Fin n → ℝ) (a : Fin n) : logProbaRow z (hot a) = logSoftmax z a := by
  unfold logProbaRow hot; simp

theorem integrable_normalLP {d : Nat} (k : ℝ) (c : NormalConfig d) (p q : NormalParams d) : Integrable (normalLogProba k c q) (law c p) := by
  have hint : ∀ i, Integrable (fun x : Fin d → ℝ => (x i - q.mu i) ^ 2 * Real.exp (-lv c q i)) (law c p) := by
    intro i
    refine Integrable.mul_const ?_ _
    unfold law
    exact integrable_comp_eval (X := fun _ : Fin d => ℝ) (i := i) (f := fun y : ℝ => (y - q.mu i) ^ 2) (integrable_sq _ _ _)
  unfold normalLogProba
  refine Integrable.const_mul ((integrable_const _).add (integrable_finsetSum _ (fun i _ => hint i))) _

theorem integral_cat {n : Nat} (z : List ℝ) (f : (Fin n → ℝ) → ℝ) :
    Integrable f (catLaw n z) ∧ ∫ x, f x ∂catLaw n z = ∑ k, catProb n z k * f (hot k) := by
  have hi : ∀ k : Fin n, Integrable f (ENNReal.ofReal (catProb n z k) • Measure.dirac (hot k)) :=
    fun k => (integrable_dirac (by simp)).smul_measure (by simp)
  unfold catLaw
  constructor
  · exact integrable_finsetSum_measure.2 (fun k _ => hi k)
  · rw [integral_finsetSum_measure (fun k _ => hi k)]
    refine Finset.sum_congr rfl (fun k _ => ?_)
    rw [integral_smul_measure, integral_dirac, ENNReal.toReal_ofReal (by rw [catProb_eq]; exact (softmax_pos _ k).le), smul_eq_mul]

theorem leaf_integral {l : Leaf} {p q : LeafParams} (hp : LeafFits l p) (hq : LeafFits l q) (log2pi : ℝ) :
    Integrable (leafLP log2pi l q) (leafLaw l p) ∧ ∫ x, -leafLP log2pi l q x ∂leafLaw l p = leafCE log2pi l p q := by
  match l, p, q, hp, hq with
  | .cat n, .logits zp, .logits zq, hp, hq =>
    refine ⟨(integral_cat zp _).1, ?_⟩
    refine (integral_cat zp (fun x => -logProbaRow (fun k : Fin n => zq.getD k 0) x)).2.trans ?_
    simp only [leafCE, leafBin, crossEntropyRow]
    refine Finset.sum_congr rfl (fun k _ => ?_)
    rw [logProbaRow_hot]; rfl
  | .normal d c, .normal mp lp, .normal mq lq, hp, hq => exact ⟨integrable_normalLP _ _ _ _, (C50_cross_entropy _ _ _ _).symm⟩

theorem leafLaw_cat_inj {n : Nat} {zp zq : List ℝ} : catLaw n zp = catLaw n zq ↔ ∀ k : Fin n, catProb n zp k = catProb n zq k := by
  constructor
  · intro h k
    have hk := congrArg (fun m => ∫ x : Fin n → ℝ, x k ∂m) h
    change ∫ x : Fin n → ℝ, x k ∂catLaw n zp = ∫ x : Fin n → ℝ, x k ∂catLaw n zq at hk
    have e : ∀ z : List ℝ, ∫ x : Fin n → ℝ, x k ∂catLaw n z = catProb n z k := by
      intro z
      rw [(integral_cat z (fun x => x k)).2]
      simp [hot]
    rw [← e, ← e]; exact hk
  · intro h
    unfold catLaw
    exact Finset.sum_congr rfl (fun k _ => by rw [h k])

theorem leaf_kl {l : Leaf} {p q : LeafParams} (hp : LeafFits l p) (hq : LeafFits l q) (log2pi : ℝ) :
    leafKL l p q = leafCE log2pi l p q - leafCE log2pi l p p ∧ 0 ≤ leafKL l p q ∧ (leafKL l p q = 0 ↔ leafLaw l p = leafLaw l q) := by
  match l, p, q, hp, hq with
  | .cat n, .logits zp, .logits zq, hp, hq =>
    refine ⟨?_, (C49_kl_nonneg _ _).1, ?_⟩
    · simp only [leafKL, leafCE, leafBin, crossEntropyRow_self]; exact C49_kl_eq _ _
    · refine (C49_kl_nonneg _ _).2.trans (Iff.trans ?_ leafLaw_cat_inj.symm)
      exact ⟨fun h k => congrFun h k, fun h => funext h⟩
  | .normal d c, .normal mp lp, .normal mq lq, hp, hq =>
    refine ⟨?_, (C50_kl_nonneg _ _ _).1, (C50_kl_nonneg _ _ _).2⟩
    simp only [leafKL, leafCE, leafBin, cross_self]; exact C50_kl_eq _ _ _ _

/-! ### Densities -/

/-- Independent coordinates with densities have the product density. -/
theorem pi_withDensity {ι : Type} [Fintype ι] {X : ι → Type} [∀ i, MeasurableSpace (X i)] {μ ν : (i : ι) → Measure (X i)} [∀ i, SigmaFinite (μ i)] [∀ i, IsProbabilityMeasure (ν i)]
    {f : (i : ι) → X i → ℝ} (hf : ∀ i, Measurable (f i)) (h0 : ∀ i x, 0 ≤ f i x) (hν : ∀ i, ν i = (μ i).withDensity (fun x => ENNReal.ofReal (f i x))) :
    Measure.pi ν = (Measure.pi μ).withDensity (fun x => ENNReal.ofReal (∏ i, f i (x i))) := by
  have hint : ∀ i, Integrable (f i) (μ i) := by
    intro i
    refine ⟨(hf i).aestronglyMeasurable, ?_⟩
    rw [hasFiniteIntegral_iff_ofReal (Filter.Eventually.of_forall (h0 i))]
    have h1 : ν i Set.univ = 1 := measure_univ
    rw [hν i, withDensity_apply _ MeasurableSet.univ, Measure.restrict_univ] at h1
    rw [h1]; exact ENNReal.one_lt_top
  refine Measure.pi_eq (fun s hs => ?_)
  rw [withDensity_apply _ (MeasurableSet.univ_pi hs), Measure.restrict_pi_pi]
  have hints : ∀ i, Integrable (f i) ((μ i).restrict (s i)) := fun i => (hint i).restrict
  rw [← ofReal_integral_eq_lintegral_ofReal (Integrable.fintype_prod_dep hints) (Filter.Eventually.of_forall (fun x => Finset.prod_nonneg (fun i _ => h0 i _))),
    integral_fintype_prod_eq_prod (𝕜 := ℝ) (f := f), ENNReal.ofReal_prod_of_nonneg (fun i _ => integral_nonneg (h0 i))]
  refine Finset.prod_congr rfl (fun i _ => ?_)
  rw [hν i, withDensity_apply _ (hs i), ofReal_integral_eq_lintegral_ofReal (hints i) (Filter.Eventually.of_forall (h0 i))]

theorem measurable_leafLP {l : Leaf} {p : LeafParams} (k : ℝ) : Measurable (leafLP k l p) := by
  match l, p with
  | .cat n, .logits z => change Measurable (fun x : Fin n → ℝ => ∑ j, x j * logSoftmax (fun k : Fin n => z.getD k 0) j); fun_prop
  | .normal d c, .normal mu lv =>
    change Measurable (fun x : Fin d → ℝ => normalLogProba k c ⟨fun i => mu.getD i 0, fun i => lv.getD i 0⟩ x)
    unfold normalLogProba; fun_prop
  | .cat n, .normal _ _ => exact measurable_const
  | .normal d c, .logits _ => exact measurable_const

theorem law_density {d : Nat} (c : NormalConfig d) (p : NormalParams d) :
    law c p = (volume : Measure (Fin d → ℝ)).withDensity (fun x => ENNReal.ofReal (Real.exp (normalLogProba (Real.log (2 * Real.pi)) c p x))) := by
  have hv : ∀ i, Real.toNNReal (Real.exp (min (max (p.logvar i) c.clipLogvar.1) c.clipLogvar.2)) ≠ 0 := by
    intro i
    simpa using Real.exp_pos _
  have hpos : ∀ x, 0 < density c p x := fun x => Finset.prod_pos (fun i _ => gaussianPDFReal_pos _ _ _ (hv i))
  have h := pi_withDensity (μ := fun _ : Fin d => (volume : Measure ℝ))
    (ν := fun i => gaussianReal (p.mu i) (Real.toNNReal (Real.exp (min (max (p.logvar i) c.clipLogvar.1) c.clipLogvar.2))))
    (f := fun i => gaussianPDFReal (p.mu i) (Real.toNNReal (Real.exp (min (max (p.logvar i) c.clipLogvar.1) c.clipLogvar.2))))
    (fun i => measurable_gaussianPDFReal _ _) (fun i x => gaussianPDFReal_nonneg _ _ _)
    (fun i => by rw [gaussianReal_of_var_ne_zero _ (hv i)]; rfl)
  unfold law
  rw [h, volume_pi]
  congr 1
  funext x
  rw [C50_log_proba, Real.exp_log (hpos x)]
  rfl

theorem hot_injective {n : Nat} : Function.Injective (hot (n := n)) := by
  intro a b h
  have := congrFun h a
  simp only [hot] at this
  by_contra hne
  simp [hne] at this

theorem leafLaw_density {l : Leaf} {p : LeafParams} (hp : LeafFits l p) :
    leafLaw l p = (leafBase l).withDensity (fun x => ENNReal.ofReal (Real.exp (leafLP (Real.log (2 * Real.pi)) l p x))) := by
  match l, p, hp with
  | .cat n, .logits z, hp =>
    have hm : Measurable (fun x : Fin n → ℝ => ENNReal.ofReal (Real.exp (logProbaRow (fun k : Fin n => z.getD k 0) x))) := by
      unfold logProbaRow; fun_prop
    change catLaw n z = (∑ k : Fin n, Measure.dirac (hot k) : Measure (Fin n → ℝ)).withDensity
      (fun x : Fin n → ℝ => ENNReal.ofReal (Real.exp (logProbaRow (fun k : Fin n => z.getD k 0) x)))
    unfold catLaw
    ext s hs
    rw [withDensity_apply _ hs, ← lintegral_indicator hs, lintegral_finsetSum_measure]
    simp only [Measure.coe_finsetSum, Finset.sum_apply, Measure.smul_apply, smul_eq_mul]
    refine Finset.sum_congr rfl (fun k _ => ?_)
    rw [lintegral_dirac' _ (hm.indicator hs), Measure.dirac_apply' _ hs]
    by_cases hk : hot k ∈ s
    · rw [Set.indicator_of_mem hk, Set.indicator_of_mem hk, logProbaRow_hot, exp_logSoftmax]
      simp [catProb_eq]
    · rw [Set.indicator_of_notMem hk, Set.indicator_of_notMem hk, mul_zero]
  | .normal d c, .normal mu lv, hp => exact law_density c _

instance {l : Leaf} : SigmaFinite (leafBase l) := by
  match l with
  | .cat n => exact inferInstanceAs (SigmaFinite (∑ k : Fin n, Measure.dirac (hot k) : Measure (Fin n → ℝ)))
  | .normal d c => exact inferInstanceAs (SigmaFinite (volume : Measure (Fin d → ℝ)))

/-! ### The joint distribution -/

theorem zipWith_sum {g : Leaf → α → ℝ} (dflt : α) : ∀ {ls : List Leaf} {xs : List α}, xs.length = ls.length →
    (List.zipWith g ls xs).sum = ∑ i : Fin ls.length, g (ls.get i) (xs.getD i dflt)
  | [], [], _ => by simp
  | l :: ls, x :: xs, h => by
    have ih := zipWith_sum (g := g) dflt (ls := ls) (xs := xs) (by simpa using h)
    simp only [List.zipWith_cons_cons, List.sum_cons, List.length_cons]
    rw [Fin.sum_univ_succ, ih]
    simp

theorem Fits.leaf {d : Dist} {t : Tree LeafParams} {ps : List LeafParams} (h : Fits d t ps) (i : Fin (leaves d).length) : LeafFits ((leaves d).get i) (ps.getD i (.logits [])) := by
  have hl := flat_length h.1
  have hi : i.1 < ps.length := by rw [hl]; exact i.2
  refine h.2 i.1 _ _ (by simp) ?_
  simp [hi]

theorem Fits.zip {d : Dist} {t : Tree LeafParams} {ps : List LeafParams} (h : Fits d t ps) {l : Leaf} {p : LeafParams} (hm : (l, p) ∈ (leaves d).zip ps) : LeafFits l p := by
  obtain ⟨i, hi⟩ := List.mem_iff_getElem?.1 hm
  obtain ⟨h1, h2⟩ := List.getElem?_zip_eq_some.1 hi
  exact h.2 i l p h1 h2

theorem Fits.zip3 {d : Dist} {t : Tree LeafParams} {ps : List LeafParams} (h : Fits d t ps) {l : Leaf} {p : LeafParams} {y : β} {ys : List β}
    (hm : (l, p, y) ∈ (leaves d).zip (ps.zip ys)) : LeafFits l p := by
  obtain ⟨i, hi⟩ := List.mem_iff_getElem?.1 hm
  obtain ⟨h1, h2⟩ := List.getElem?_zip_eq_some.1 hi
  obtain ⟨h3, -⟩ := List.getElem?_zip_eq_some.1 h2
  exact h.2 i l p h1 h3

theorem joint_prob {d : Dist} {t : Tree LeafParams} {ps : List LeafParams} (h : Fits d t ps) : IsProbabilityMeasure (joint (leaves d) ps) := by
  have := fun i => leafLaw_prob (h.leaf i)
  unfold joint; infer_instance

theorem arrays_getD {ls : List Leaf} (x : Outcome ls) (i : Fin ls.length) : (arrays x).getD i [] = List.ofFn (x i) := by
  simp [arrays]

/-- The log-probability of an outcome, as a sum over the leaves. -/
noncomputable def lpSum (k : ℝ) (ls : List Leaf) (ps : List LeafParams) (x : Outcome ls) : ℝ := ∑ i, leafLP k (ls.get i) (ps.getD i (.logits [])) (x i)

theorem logProba_eq {d : Dist} {t : Tree LeafParams} {ps : List LeafParams} (h : Fits d t ps) (k : ℝ) (x : Outcome (leaves d)) {X : Tree (List ℝ)}
    (hX : flat d X = some (arrays x)) : d.logProba k t X = .ok (lpSum k (leaves d) ps x) := by
  have hl := flat_length h.1
  have hlx : (arrays x).length = (leaves d).length := by simp [arrays]
  unfold Dist.logProba
  rw [sum2_flat (g := fun l py => leafLP k l py.1 (fun j => py.2.getD j 0)) h.1 hX]
  · rw [zipWith_sum (.logits [], [])]
    · unfold lpSum
      congr 1
      refine Finset.sum_congr rfl (fun i _ => ?_)
      have h1 : i.1 < ps.length := by rw [hl]; exact i.2
      have h2 : i.1 < (arrays x).length := by rw [hlx]; exact i.2
      have e : (ps.zip (arrays x)).getD i (.logits [], []) = (ps.getD i (.logits []), (arrays x).getD i []) := by
        simp [h1, h2]
      rw [e, arrays_getD]
      congr 1
      funext j
      simp
    · simp [hl, hlx]
  · rintro ⟨l, p, y⟩ hm
    have hf := h.zip3 hm
    obtain ⟨i, hi⟩ := List.mem_iff_getElem?.1 hm
    obtain ⟨h1, h2⟩ := List.getElem?_zip_eq_some.1 hi
    obtain ⟨-, h3⟩ := List.getElem?_zip_eq_some.1 h2
    simp only at h1 h3 hf ⊢
    obtain ⟨hi', h1'⟩ := List.getElem?_eq_some_iff.1 h1
    have h4 := arrays_getD x ⟨i, hi'⟩
    simp only [List.getD_eq_getElem?_getD, h3, Option.getD_some] at h4
    have hs : y.length = l.size := by
      rw [h4, List.length_ofFn, List.get_eq_getElem, h1']
    have := Leaf.logProba_ok hf k (fun j => y.getD j 0)
    rw [← this]
    congr 1
    refine List.ext_getElem (by simp [hs]) (fun j hj hj' => ?_)
    simp [hj]

/-- C74: exp of the log-probability is the density of the joint law, under which the leaves are independent. -/
theorem C74_density {d : Dist} {t : Tree LeafParams} {ps : List LeafParams} (h : Fits d t ps) {X : Outcome (leaves d) → Tree (List ℝ)}
    (hX : ∀ x, flat d (X x) = some (arrays x)) :
    ∃ lp : Outcome (leaves d) → ℝ, (∀ x, d.logProba (Real.log (2 * Real.pi)) t (X x) = .ok (lp x)) ∧
      joint (leaves d) ps = (jointBase (leaves d)).withDensity (fun x => ENNReal.ofReal (Real.exp (lp x))) ∧ IsProbabilityMeasure (joint (leaves d) ps) := by
  refine ⟨lpSum _ (leaves d) ps, fun x => logProba_eq h _ x (hX x), ?_, joint_prob h⟩
  have := fun i => leafLaw_prob (h.leaf i)
  unfold joint jointBase lpSum
  rw [pi_withDensity (μ := fun i => leafBase ((leaves d).get i)) (f := fun i x => Real.exp (leafLP (Real.log (2 * Real.pi)) ((leaves d).get i) (ps.getD i (.logits [])) x))
    (fun i => Real.measurable_exp.comp (measurable_leafLP _)) (fun i x => (Real.exp_pos _).le) (fun i => leafLaw_density (h.leaf i))]
  congr 1
  funext x
  rw [Real.exp_sum]

theorem integral_lpSum {d : Dist} {t u : Tree LeafParams} {ps qs : List LeafParams} (hp : Fits d t ps) (hq : Fits d u qs) (k : ℝ) :
    ∫ x, -lpSum k (leaves d) qs x ∂joint (leaves d) ps = ∑ i, leafCE k ((leaves d).get i) (ps.getD i (.logits [])) (qs.getD i (.logits [])) := by
  have := fun i => leafLaw_prob (hp.leaf i)
  unfold lpSum joint
  simp only [← Finset.sum_neg_distrib]
  rw [integral_finsetSum]
  · refine Finset.sum_congr rfl (fun i _ => ?_)
    rw [← (leaf_integral (hp.leaf i) (hq.leaf i) k).2]
    exact integral_comp_eval (μ := fun i => leafLaw ((leaves d).get i) (ps.getD i (.logits []))) (i := i)
      (f := fun y => -leafLP k ((leaves d).get i) (qs.getD i (.logits [])) y) (measurable_leafLP k).neg.aestronglyMeasurable
  · intro i _
    exact integrable_comp_eval (μ := fun i => leafLaw ((leaves d).get i) (ps.getD i (.logits []))) (i := i)
      (f := fun y => -leafLP k ((leaves d).get i) (qs.getD i (.logits [])) y) (leaf_integral (hp.leaf i) (hq.leaf i) k).1.neg

theorem crossEntropy_eq {d : Dist} {t u : Tree LeafParams} {ps qs : List LeafParams} (hp : Fits d t ps) (hq : Fits d u qs) (k : ℝ) :
    d.crossEntropy k t u = .ok (∑ i : Fin (leaves d).length, leafCE k ((leaves d).get i) (ps.getD i (.logits [])) (qs.getD i (.logits []))) ∧
    d.kl t u = .ok (∑ i : Fin (leaves d).length, leafKL ((leaves d).get i) (ps.getD i (.logits [])) (qs.getD i (.logits []))) := by
  have hl := flat_length hp.1
  have hl' := flat_length hq.1
  have fits2 : ∀ lx ∈ (leaves d).zip (ps.zip qs), LeafFits lx.1 lx.2.1 ∧ LeafFits lx.1 lx.2.2 := by
    rintro ⟨l, p, q⟩ hm
    obtain ⟨i, hi⟩ := List.mem_iff_getElem?.1 hm
    obtain ⟨h1, h2⟩ := List.getElem?_zip_eq_some.1 hi
    obtain ⟨h3, h4⟩ := List.getElem?_zip_eq_some.1 h2
    exact ⟨hp.2 i l p h1 h3, hq.2 i l q h1 h4⟩
  have e : ∀ i : Fin (leaves d).length, (ps.zip qs).getD i (.logits [], .logits []) = (ps.getD i (.logits []), qs.getD i (.logits [])) := by
    intro i
    have h1 : i.1 < ps.length := by rw [hl]; exact i.2
    have h2 : i.1 < qs.length := by rw [hl']; exact i.2
    simp [h1, h2]
  constructor
  · unfold Dist.crossEntropy
    rw [sum2_flat (f := Leaf.crossEntropy k) (g := fun l pq => leafCE k l pq.1 pq.2) hp.1 hq.1 (fun x hx => Leaf.binary_ok (fits2 x hx).1 (fits2 x hx).2),
      zipWith_sum (.logits [], .logits []) (by simp [hl, hl'])]
    simp only [e]
  · unfold Dist.kl
    rw [sum2_flat (f := Leaf.kl) (g := fun l pq => leafKL l pq.1 pq.2) hp.1 hq.1 (fun x hx => Leaf.binary_ok (fits2 x hx).1 (fits2 x hx).2),
      zipWith_sum (.logits [], .logits []) (by simp [hl, hl'])]
    simp only [e]

theorem entropy_eq {d : Dist} {t : Tree LeafParams} {ps : List LeafParams} (hp : Fits d t ps) (k : ℝ) :
    d.entropy k t = .ok (∑ i : Fin (leaves d).length, leafCE k ((leaves d).get i) (ps.getD i (.logits [])) (ps.getD i (.logits []))) := by
  unfold Dist.entropy
  rw [sum1_flat (g := fun l p => leafCE k l p p) hp.1 (fun x hx => Leaf.entropy_ok (hp.zip hx) k), zipWith_sum (.logits []) (flat_length hp.1)]

/-- C74: the entropy and the cross entropy are expectations of minus the log-probability under the joint law. -/
theorem C74_entropy {d : Dist} {t u : Tree LeafParams} {ps qs : List LeafParams} (hp : Fits d t ps) (hq : Fits d u qs) (k : ℝ)
    {X : Outcome (leaves d) → Tree (List ℝ)} (hX : ∀ x, flat d (X x) = some (arrays x)) :
    ∃ (H CE : ℝ) (lp lq : Outcome (leaves d) → ℝ), d.entropy k t = .ok H ∧ d.crossEntropy k t u = .ok CE ∧
      (∀ x, d.logProba k t (X x) = .ok (lp x)) ∧ (∀ x, d.logProba k u (X x) = .ok (lq x)) ∧
      H = ∫ x, -lp x ∂joint (leaves d) ps ∧ CE = ∫ x, -lq x ∂joint (leaves d) ps :=
  ⟨_, _, _, _, entropy_eq hp k, (crossEntropy_eq hp hq k).1, fun x => logProba_eq hp k x (hX x), fun x => logProba_eq hq k x (hX x),
    (integral_lpSum hp hp k).symm, (integral_lpSum hp hq k).symm⟩

/-- C74: the divergence is the cross entropy minus the entropy, it is not negative, and zero exactly if the joint laws are the same. -/
theorem C74_kl {d : Dist} {t u : Tree LeafParams} {ps qs : List LeafParams} (hp : Fits d t ps) (hq : Fits d u qs) (k : ℝ) :
    ∃ H CE KL, d.entropy k t = .ok H ∧ d.crossEntropy k t u = .ok CE ∧ d.kl t u = .ok KL ∧
      KL = CE - H ∧ 0 ≤ KL ∧ (KL = 0 ↔ joint (leaves d) ps = joint (leaves d) qs) := by
  refine ⟨_, _, _, entropy_eq hp k, (crossEntropy_eq hp hq k).1, (crossEntropy_eq hp hq k).2, ?_, ?_, ?_⟩
  · rw [← Finset.sum_sub_distrib]
    exact Finset.sum_congr rfl (fun i _ => (leaf_kl (hp.leaf i) (hq.leaf i) k).1)
  · exact Finset.sum_nonneg (fun i _ => (leaf_kl (hp.leaf i) (hq.leaf i) k).2.1)
  · rw [Finset.sum_eq_zero_iff_of_nonneg (fun i _ => (leaf_kl (hp.leaf i) (hq.leaf i) k).2.1)]
    constructor
    · intro h
      unfold joint
      congr 1
      funext i
      exact (leaf_kl (hp.leaf i) (hq.leaf i) k).2.2.1 (h i (Finset.mem_univ i))
    · intro h i _
      refine (leaf_kl (hp.leaf i) (hq.leaf i) k).2.2.2 ?_
      have := fun i => leafLaw_prob (hp.leaf i)
      have := fun i => leafLaw_prob (hq.leaf i)
      have e := congrArg (fun m => m.map (Function.eval i)) h
      simp only [joint] at e
      rwa [(measurePreserving_eval _ i).map_eq, (measurePreserving_eval _ i).map_eq] at e

mutual
/-- Dicts have different keys. -/
def KeysOk : Dist → Prop
  | .leaf _ => True
  | .list ds => KeysOkList ds
  | .dict ds => KeysOkDict ds
def KeysOkList : List Dist → Prop
  | [] => True
  | d :: ds => KeysOk d ∧ KeysOkList ds
def KeysOkDict : List (String × Dist) → Prop
  | [] => True
  | (k, d) :: ds => k ∉ ds.map Prod.fst ∧ KeysOk d ∧ KeysOkDict ds
end

theorem flatDict_cons {k : String} {u : Tree α} : ∀ {ds : List (String × Dist)} {ts : List (String × Tree α)}, k ∉ ds.map Prod.fst → flatDict ds ((k, u) :: ts) = flatDict ds ts
  | [], _, _ => by simp [flatDict]
  | (k', d) :: ds, ts, h => by
    simp only [List.map_cons, List.mem_cons, not_or] at h
    have : (k' == k) = false := by simpa using Ne.symm h.1
    simp only [flatDict, List.lookup_cons, this, flatDict_cons h.2]

mutual
theorem exists_tree {d : Dist} (h : KeysOk d) {xs : List α} (hl : xs.length = (leaves d).length) : ∃ t, flat d t = some xs := by
  match d with
  | .leaf l =>
    simp only [leaves, List.length_singleton] at hl
    obtain ⟨x, rfl⟩ := List.length_eq_one_iff.1 hl
    exact ⟨.leaf x, rfl⟩
  | .list ds =>
    simp only [KeysOk] at h
    simp only [leaves] at hl
    obtain ⟨ts, hts⟩ := exists_trees h hl
    exact ⟨.list ts, by simp only [flat]; exact hts⟩
  | .dict ds =>
    simp only [KeysOk] at h
    simp only [leaves] at hl
    obtain ⟨ts, hts⟩ := exists_dict h hl
    exact ⟨.dict ts, by simp only [flat]; exact hts⟩
theorem exists_trees {ds : List Dist} (h : KeysOkList ds) {xs : List α} (hl : xs.length = (leavesList ds).length) : ∃ ts, flatList ds ts = some xs := by
  match ds with
  | [] =>
    simp only [leavesList, List.length_nil, List.length_eq_zero_iff] at hl
    exact ⟨[], by simp [flatList, hl]⟩
  | d :: ds =>
    simp only [KeysOkList] at h
    simp only [leavesList, List.length_append] at hl
    obtain ⟨t, ht⟩ := exists_tree h.1 (xs := xs.take (leaves d).length) (by rw [List.length_take]; omega)
    obtain ⟨ts, hts⟩ := exists_trees h.2 (xs := xs.drop (leaves d).length) (by rw [List.length_drop]; omega)
    exact ⟨t :: ts, by simp [flatList, ht, hts]⟩
theorem exists_dict {ds : List (String × Dist)} (h : KeysOkDict ds) {xs : List α} (hl : xs.length = (leavesDict ds).length) : ∃ ts, flatDict ds ts = some xs := by
  match ds with
  | [] =>
    simp only [leavesDict, List.length_nil, List.length_eq_zero_iff] at hl
    exact ⟨[], by simp [flatDict, hl]⟩
  | (k, d) :: ds =>
    simp only [KeysOkDict] at h
    simp only [leavesDict, List.length_append] at hl
    obtain ⟨t, ht⟩ := exists_tree h.2.1 (xs := xs.take (leaves d).length) (by rw [List.length_take]; omega)
    obtain ⟨ts, hts⟩ := exists_dict h.2.2 (xs := xs.drop (leaves d).length) (by rw [List.length_drop]; omega)
    exact ⟨(k, t) :: ts, by simp [flatDict, ht, flatDict_cons h.1, hts]⟩
end

/-- The hypothesis of `C74_density` and `C74_entropy` can be met: every outcome is the flattening of a variate. -/
theorem exists_variates {d : Dist} (h : KeysOk d) : ∃ X : Outcome (leaves d) → Tree (List ℝ), ∀ x, flat d (X x) = some (arrays x) := by
  have := fun x : Outcome (leaves d) => exists_tree h (xs := arrays x) (by simp [arrays])
  choose X hX using this
  exact ⟨X, hX⟩

/-- Example: a dict of a three-way choice and of a one-dimensional Box, with the parameters listed in another order. -/
noncomputable def exDist : Dist := .dict [("a", .leaf (.cat 3)), ("b", .list [.leaf (.normal _ (boxConfig [(some (-1), some 1)]))])]
noncomputable def exParams : Tree LeafParams := .dict [("b", .list [.leaf (.normal [0.5] [0])]), ("a", .leaf (.logits [0, 1, 2]))]

theorem exFits : Fits exDist exParams [.logits [0, 1, 2], .normal [0.5] [0]] := by
  refine ⟨rfl, ?_⟩
  have e : leaves exDist = [.cat 3, .normal _ (boxConfig [(some (-1), some 1)])] := rfl
  rw [e]
  intro i l p hl hp
  match i with
  | 0 =>
    obtain rfl := Option.some.inj hl
    obtain rfl := Option.some.inj hp
    exact ⟨by norm_num, rfl⟩
  | 1 =>
    obtain rfl := Option.some.inj hl
    obtain rfl := Option.some.inj hp
    exact ⟨rfl, rfl⟩
  | i + 2 => exact absurd hl (by simp)

example : mkDist (.dict [("a", .discrete 3 0), ("b", .tuple [.box [(some (-1), some 1)]])]) = .ok exDist := by
  have h : (boxConfig [(some (-1), some 1)]).init = .ok (boxConfig [(some (-1), some 1)]) := by
    refine (C50_init _).1.2 (fun i => ?_)
    have hi : i.1 = 0 := Nat.lt_one_iff.1 i.2
    simp [boxConfig, NormalConfig.low, NormalConfig.high]
  simp [mkDist, mkDistDict, mkDists, h, exDist]

example : ∃ (H CE : ℝ) (lp lq : Outcome (leaves exDist) → ℝ) (X : Outcome (leaves exDist) → Tree (List ℝ)), exDist.entropy 1 exParams = .ok H ∧
    exDist.crossEntropy 1 exParams exParams = .ok CE ∧ (∀ x, exDist.logProba 1 exParams (X x) = .ok (lp x)) ∧ (∀ x, exDist.logProba 1 exParams (X x) = .ok (lq x)) ∧
    H = ∫ x, -lp x ∂joint (leaves exDist) [.logits [0, 1, 2], .normal [0.5] [0]] ∧ CE = ∫ x, -lq x ∂joint (leaves exDist) [.logits [0, 1, 2], .normal [0.5] [0]] := by
  obtain ⟨X, hX⟩ := exists_variates (d := exDist) (by simp [exDist, KeysOk, KeysOkDict, KeysOkList])
  obtain ⟨H, CE, lp, lq, h⟩ := C74_entropy exFits exFits 1 hX
  exact ⟨H, CE, lp, lq, X, h⟩

end Coax.Dists
