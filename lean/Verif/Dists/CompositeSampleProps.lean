import Verif.Dists.CompositeSampleLemmas
import Verif.Dists.GumbelProps
import Mathlib.Probability.Independence.InfinitePi

/-! Property C145: what policies over nested action spaces sample. -/

namespace Coax.Dists

open MeasureTheory ProbabilityTheory Set

/-! ### The specification -/

/-- Random numbers as they should be: different keys are independent, and the numbers drawn with one key are independent and uniform in (0, 1), or standard normal. -/
structure GoodKeys {Ω : Type _} [MeasurableSpace Ω] (P : Measure Ω) (keys : Ω → Keys) : Prop where
  measurable_uniform : ∀ path k, Measurable (fun ω => (keys ω path).uniform k)
  measurable_normal : ∀ path k, Measurable (fun ω => (keys ω path).normal k)
  independent : iIndepFun (fun path ω => ((keys ω path).uniform, (keys ω path).normal)) P
  uniform : ∀ path n, P.map (fun ω (k : Fin n) => (keys ω path).uniform k) = uniforms n
  normal : ∀ path n, P.map (fun ω (k : Fin n) => (keys ω path).normal k) = Measure.pi (fun _ : Fin n => gaussianReal 0 1)

/-- The probability that a part of the action is in `B`.  A discrete part is `k` with the probability that the softmax of the logits assigns to `k`.  A continuous part is a normal variate
that is squashed into the Box entry by entry, by the logistic function. -/
noncomputable def chance : Leaf → LeafParams → Set Value → ENNReal
  | .cat n, .logits z, B => by classical exact ∑ k : Fin n, if Value.int k.1 ∈ B then ENNReal.ofReal (Real.exp (z.getD k 0) / ∑ j : Fin n, Real.exp (z.getD j 0)) else 0
  | .normal d c, .normal mu logvar, B =>
    law c ⟨fun i => mu.getD i 0, fun i => logvar.getD i 0⟩ {x | Value.floats (List.ofFn (fun i : Fin d => c.low i + (c.high i - c.low i) * (1 / (1 + Real.exp (-min (max (x i) c.clipReals.1) c.clipReals.2))))) ∈ B}
  | _, _, _ => 0

/-- The events that are considered for a part: any set of integers, or a measurable set of vectors. -/
def Event : Leaf → Set Value → Prop
  | .cat _, _ => True
  | .normal d _, B => MeasurableSet {v : Fin d → ℝ | Value.floats (List.ofFn v) ∈ B}

/-! ### Leaves -/

/-- The raw variate of a leaf. -/
noncomputable def rawLeaf (tau : ℝ) : (l : Leaf) → LeafParams → ((Nat → ℝ) × (Nat → ℝ)) → Fin l.size → ℝ
  | .cat n, .logits z, u => sampleRow tau (fun k : Fin n => u.1 k) (fun k => z.getD k 0)
  | .normal d c, .normal mu logvar, u => normalSample c ⟨fun i => mu.getD i 0, fun i => logvar.getD i 0⟩ (fun i : Fin d => u.2 i)
  | _, _, _ => 0

theorem normalParams_ok {d : Nat} {mu logvar : List ℝ} (h : mu.length = d ∧ logvar.length = d) :
    normalParams d mu logvar = .ok ⟨fun i => mu.getD i 0, fun i => logvar.getD i 0⟩ := by
  rw [normalParams, dif_pos h, vec_eq mu, vec_eq logvar]

theorem leaf_sample {l : Leaf} {p : LeafParams} (h : LeafFits l p) (tau : ℝ) (u : Noise) : l.sample tau u p = .ok (List.ofFn (rawLeaf tau l p (u.uniform, u.normal))) := by
  match l, p, h with
  | .cat n, .logits z, h =>
    simp only [Leaf.sample, rawLeaf]
    rw [checkVec_ok h.2]
  | .normal d c, .normal mu logvar, h =>
    simp only [Leaf.sample, rawLeaf]
    rw [normalParams_ok h]

theorem measurable_sampleRow {n : Nat} (tau : ℝ) (z : Fin n → ℝ) : Measurable (fun u : Fin n → ℝ => sampleRow tau u z) := by
  unfold sampleRow softmax logSoftmax
  fun_prop

theorem measurable_rawLeaf (tau : ℝ) (l : Leaf) (p : LeafParams) : Measurable (rawLeaf tau l p) := by
  match l, p with
  | .cat n, .logits z =>
    exact (measurable_sampleRow tau _).comp (measurable_pi_lambda _ fun k => (measurable_pi_apply (k : Nat)).comp measurable_fst)
  | .normal d c, .normal mu logvar =>
    have : Measurable (normalSample c (⟨fun i => mu.getD i 0, fun i => logvar.getD i 0⟩ : NormalParams d)) := measurable_pi_lambda _ (fun i => by unfold normalSample; fun_prop)
    exact this.comp (measurable_pi_lambda _ fun k => (measurable_pi_apply (k : Nat)).comp measurable_snd)
  | .cat _, .normal _ _ => exact measurable_const
  | .normal _ _, .logits _ => exact measurable_const

/-- Which raw variates give a part in `B`. -/
def goal (draw : Draw) (path : List Nat) (l : Leaf) (B : Set Value) : Set (Fin l.size → ℝ) := {x | ∃ v ∈ B, l.post draw path (List.ofFn x) = .ok v}

theorem measurable_argmax {n : Nat} (draw : List (Fin n) → Option (Fin n)) (S : Set (Option (Fin n))) : MeasurableSet {x : Fin n → ℝ | argmax draw x ∈ S} := by
  classical
  let g : (Fin n → ℝ) → (Fin n → Bool) := fun x k => decide (∀ j, x j ≤ x k)
  have hg : Measurable g := by
    refine measurable_pi_lambda _ fun k => ?_
    refine measurable_to_bool ?_
    have : (fun x : Fin n → ℝ => decide (∀ j, x j ≤ x k)) ⁻¹' {true} = ⋂ j, {x | x j ≤ x k} := by ext x; simp
    rw [this]
    exact MeasurableSet.iInter fun j => measurableSet_le (measurable_pi_apply j) (measurable_pi_apply k)
  have e : {x : Fin n → ℝ | argmax draw x ∈ S} = g ⁻¹' {b | draw ((List.finRange n).filter b) ∈ S} := by
    ext x
    simp only [argmax, mem_ofPred_eq, mem_preimage, g]
  rw [e]
  exact hg (Set.toFinite _).measurableSet

theorem goal_cat {n : Nat} (draw : Draw) (path : List Nat) (B : Set Value) :
    goal draw path (.cat n) B = {x : Fin n → ℝ | argmax (draw path n) x ∈ {o | ∃ a : Fin n, o = some a ∧ Value.int a.1 ∈ B}} := by
  ext x
  simp only [goal, mem_ofPred_eq, Leaf.post]
  have hx : (List.ofFn x).length = n := List.length_ofFn
  rw [checkVec_ok hx, ofFn_getD]
  simp only
  constructor
  · rintro ⟨v, hv, h⟩
    split at h
    · next a ha => cases h; exact ⟨a, ha, hv⟩
    · cases h
  · rintro ⟨a, ha, hv⟩
    exact ⟨_, hv, by rw [ha]⟩

theorem goal_normal {d : Nat} (c : NormalConfig d) (draw : Draw) (path : List Nat) (B : Set Value) :
    goal draw path (.normal d c) B = {x : Fin d → ℝ | Value.floats (List.ofFn (normalPostprocess c x)) ∈ B} := by
  ext x
  simp only [goal, mem_ofPred_eq, Leaf.post]
  have hx : (List.ofFn x).length = d := List.length_ofFn
  rw [checkVec_ok hx, ofFn_getD]
  simp

theorem measurable_goal (draw : Draw) (path : List Nat) {l : Leaf} {B : Set Value} (h : Event l B) : MeasurableSet (goal draw path l B) := by
  match l with
  | .cat n => rw [goal_cat]; exact measurable_argmax _ _
  | .normal d c =>
    rw [goal_normal]
    have : Measurable (normalPostprocess c) := by
      refine measurable_pi_lambda _ fun i => ?_
      unfold normalPostprocess clip
      simp only [Real.sigmoid_def]
      fun_prop
    exact this h

theorem uniform_goal {n : Nat} {draw : Draw} (hd : DrawsAll draw) (path : List Nat) {tau : ℝ} (htau : 0 < tau) (z : List ℝ) (B : Set Value) :
    uniforms n {u | sampleRow tau u (fun k => z.getD k 0) ∈ goal draw path (.cat n) B} = chance (.cat n) (.logits z) B := by
  classical
  rw [goal_cat]
  have e : {u : Fin n → ℝ | sampleRow tau u (fun k => z.getD k 0) ∈ {x : Fin n → ℝ | argmax (draw path n) x ∈ {o | ∃ a : Fin n, o = some a ∧ Value.int a.1 ∈ B}}} =
      ⋃ a : Fin n, {u | argmax (draw path n) (sampleRow tau u (fun k => z.getD k 0)) = some a ∧ Value.int a.1 ∈ B} := by
    ext u; simp
  rw [e, measure_iUnion]
  · rw [tsum_fintype]
    simp only [chance]
    refine Finset.sum_congr rfl fun a _ => ?_
    split
    · next h =>
      simp only [h, and_true]
      rw [C62_sample_distribution (hd path n) htau]
      rfl
    · next h => simp [h]
  · intro a b hab
    refine Set.disjoint_left.2 ?_
    rintro u ⟨h1, -⟩ ⟨h2, -⟩
    rw [h1] at h2
    exact hab (Option.some.inj h2)
  · intro a
    by_cases h : Value.int a.1 ∈ B
    · simp only [h, and_true]
      exact measurable_sampleRow tau _ (measurable_argmax (draw path n) {some a})
    · simp [h]

theorem raw_goal {Ω : Type _} [MeasurableSpace Ω] {P : Measure Ω} {keys : Ω → Keys} (hk : GoodKeys P keys) {draw : Draw} (hd : DrawsAll draw) (path path' : List Nat)
    {tau : ℝ} (htau : 0 < tau) {l : Leaf} {p : LeafParams} (h : LeafFits l p) {B : Set Value} (hB : Event l B) :
    P {ω | rawLeaf tau l p ((keys ω path).uniform, (keys ω path).normal) ∈ goal draw path' l B} = chance l p B := by
  match l, p, h with
  | .cat n, .logits z, h =>
    rw [← uniform_goal hd path' htau z B, ← hk.uniform path n, Measure.map_apply]
    · rfl
    · exact measurable_pi_lambda _ fun k => hk.measurable_uniform path k
    · exact measurable_sampleRow tau _ (measurable_goal draw path' hB)
  | .normal d c, .normal mu logvar, h =>
    have hm := measurable_goal draw path' hB
    have e : chance (.normal d c) (.normal mu logvar) B = law c ⟨fun i => mu.getD i 0, fun i => logvar.getD i 0⟩ (goal draw path' (.normal d c) B) := by
      rw [goal_normal]
      simp only [chance, normalPostprocess, clip, Real.sigmoid_def, one_div]
      rfl
    have hn : Measurable (normalSample c (⟨fun i => mu.getD i 0, fun i => logvar.getD i 0⟩ : NormalParams d)) := measurable_pi_lambda _ (fun i => by unfold normalSample; fun_prop)
    rw [e, ← C50_sample_law, Measure.map_apply hn hm, ← hk.normal path d, Measure.map_apply]
    · rfl
    · exact measurable_pi_lambda _ fun k => hk.measurable_normal path k
    · exact hn hm

/-! ### The whole distribution -/

/-- The name of a leaf. -/
def place (d : Dist) (i : Fin (leaves d).length) : List Nat := (places [] d)[i.1]'(by rw [places_length]; exact i.2)

theorem place_injective (d : Dist) : Function.Injective (place d) := fun _ _ hij => Fin.ext ((List.Nodup.getElem_inj_iff (places_nodup [] d)).1 hij)

/-- The raw variates of all leaves. -/
noncomputable def rawAll (tau : ℝ) (d : Dist) (ps : List LeafParams) (keys : Keys) : Outcome (leaves d) :=
  fun i => rawLeaf tau ((leaves d).get i) (ps.getD i (.logits [])) ((keys (place d i)).uniform, (keys (place d i)).normal)

theorem sample_each {d : Dist} {t : Tree LeafParams} {ps : List LeafParams} (hu : KeysOk d) (hp : Fits d t ps) (tau : ℝ) (keys : Keys) :
    ∃ T, d.sample tau keys t = .ok T ∧ Shaped d T ∧ flat d T = some (arrays (rawAll tau d ps keys)) := by
  obtain ⟨T, xs, h1, h2, h3, h4⟩ := mapDist_ok (f := fun path => Leaf.sample tau (keys path)) (fun path l p h => ⟨_, leaf_sample h tau _, by simp⟩) [] hu hp.1 (fun lp h => hp.zip h)
  refine ⟨T, h1, h3, ?_⟩
  rw [h2]
  congr 1
  obtain ⟨l1, l2, l3⟩ := h4.lengths
  refine List.ext_getElem (by simp [arrays]; omega) fun i h5 h6 => ?_
  have hi : i < (leaves d).length := by omega
  have := h4.get i (by omega) hi (by omega) h5
  have hps : ps.getD i (.logits []) = ps[i]'(by omega) := by simp [show i < ps.length by omega]
  have hfit : LeafFits (leaves d)[i] (ps[i]'(by omega)) := by
    have := hp.leaf ⟨i, hi⟩
    rwa [hps] at this
  rw [leaf_sample hfit, Except.ok.injEq] at this
  rw [← this]
  simp only [arrays, List.getElem_ofFn, rawAll, hps]
  rfl

/-- What a call returns. -/
theorem callSample_ok {s : Space} {d : Dist} (h : mkDist s = .ok d) (hw : WF s) {t : Tree LeafParams} {ps : List LeafParams} (hp : Fits d t ps) (tau k : ℝ)
    {draw : Draw} (hd : DrawsAll draw) (keys : Keys) :
    ∃ (y : Value) (ys : List Value), callSample tau k draw keys s d t = .ok (y, lpSum k (leaves d) ps (rawAll tau d ps keys)) ∧ Mem s y ∧ parts s y = some ys ∧
      ys.length = (leaves d).length ∧ ∀ i : Fin (leaves d).length, ∃ x, ys[i.1]? = some x ∧ ((leaves d).get i).post draw (place d i) (List.ofFn (rawAll tau d ps keys i)) = .ok x := by
  obtain ⟨T, h1, h2, h3⟩ := sample_each (unique_of_wf s h hw) hp tau keys
  obtain ⟨y, hy, hm⟩ := C76_clean_partial h hw hd h2
  obtain ⟨Xs, ys, k1, k2, k3⟩ := post_parts s [] h hw h2 hy
  obtain ⟨l1, l2, l3⟩ := k3.lengths
  rw [h3, Option.some.injEq] at k1
  subst k1
  have hlp := logProba_eq hp k (rawAll tau d ps keys) h3
  refine ⟨y, ys, by simp only [callSample, h1, hlp, hy], hm, k2, by omega, fun i => ?_⟩
  have hi := i.2
  have := k3.get i.1 (by omega) hi (by omega) (by omega)
  refine ⟨ys[i.1]'(by omega), by simp, ?_⟩
  simpa [PartOf, arrays, place] using this

theorem raw_independent {Ω : Type _} [MeasurableSpace Ω] {P : Measure Ω} {keys : Ω → Keys} (hk : GoodKeys P keys) (tau : ℝ) (d : Dist) (ps : List LeafParams)
    {E : (i : Fin (leaves d).length) → Set (Fin ((leaves d).get i).size → ℝ)} (hE : ∀ i, MeasurableSet (E i)) :
    P {ω | ∀ i, rawAll tau d ps (keys ω) i ∈ E i} =
      ∏ i, P {ω | rawLeaf tau ((leaves d).get i) (ps.getD i (.logits [])) ((keys ω (place d i)).uniform, (keys ω (place d i)).normal) ∈ E i} := by
  have hind := (hk.independent.precomp (place_injective d)).comp (fun i => rawLeaf tau ((leaves d).get i) (ps.getD i (.logits []))) (fun i => measurable_rawLeaf _ _ _)
  have := hind.measure_inter_preimage_eq_mul Finset.univ (fun i _ => hE i)
  refine Eq.trans ?_ this
  congr 1
  ext ω
  simp only [mem_ofPred_eq, mem_iInter, Finset.mem_univ, forall_const, mem_preimage, Function.comp, rawAll]

/-- C145: a policy over any supported action space, called in a state with any distribution parameters, returns a member of the space.  The parts of the action (the entries of MultiDiscrete
and MultiBinary, the members of Tuple and Dict) are independent, and each is distributed as its own part of the parameters says. -/
theorem C145_sample {s : Space} {d : Dist} (h : mkDist s = .ok d) (hw : WF s) {t : Tree LeafParams} {ps : List LeafParams} (hp : Fits d t ps) {tau : ℝ} (htau : 0 < tau)
    {draw : Draw} (hd : DrawsAll draw) {Ω : Type _} [MeasurableSpace Ω] {P : Measure Ω} {keys : Ω → Keys} (hk : GoodKeys P keys) (k : ℝ) :
    ∃ (act : Ω → Value) (v : Ω → List Value),
      (∀ ω, ∃ logp, callSample tau k draw (keys ω) s d t = .ok (act ω, logp)) ∧
      (∀ ω, Mem s (act ω) ∧ parts s (act ω) = some (v ω) ∧ (v ω).length = (leaves d).length) ∧
      ∀ B : Fin (leaves d).length → Set Value, (∀ i, Event ((leaves d).get i) (B i)) →
        P {ω | ∀ i, ∃ x ∈ B i, (v ω)[i.1]? = some x} = ∏ i, chance ((leaves d).get i) (ps.getD i (.logits [])) (B i) := by
  have key := fun ω => callSample_ok h hw hp tau k hd (keys ω)
  choose act v h1 h2 h3 h4 h5 using key
  refine ⟨act, v, fun ω => ⟨_, h1 ω⟩, fun ω => ⟨h2 ω, h3 ω, h4 ω⟩, fun B hB => ?_⟩
  have hset : {ω | ∀ i, ∃ x ∈ B i, (v ω)[i.1]? = some x} = {ω | ∀ i, rawAll tau d ps (keys ω) i ∈ goal draw (place d i) ((leaves d).get i) (B i)} := by
    ext ω
    simp only [mem_ofPred_eq, goal]
    refine forall_congr' fun i => ?_
    obtain ⟨x, e2, e3⟩ := h5 ω i
    rw [e2, e3]
    constructor
    · rintro ⟨y, hy, hxy⟩; cases hxy; exact ⟨_, hy, rfl⟩
    · rintro ⟨y, hy, hxy⟩; cases hxy; exact ⟨_, hy, rfl⟩
  rw [hset, raw_independent hk tau d ps fun i => measurable_goal draw (place d i) (hB i)]
  exact Finset.prod_congr rfl fun i _ => raw_goal hk hd (place d i) (place d i) htau (hp.leaf i) (hB i)

/-- What `mode` should return for a part: a most likely integer, or the mean of the normal distribution squashed into the Box. -/
def Likeliest : Leaf → LeafParams → Value → Prop
  | .cat n, .logits z, x => ∃ k : Fin n, x = .int k.1 ∧ ∀ j : Fin n, z.getD j 0 ≤ z.getD k 0
  | .normal d c, .normal mu _, x => x = .floats (List.ofFn (fun i : Fin d => c.low i + (c.high i - c.low i) * (1 / (1 + Real.exp (-min (max (mu.getD i 0) c.clipReals.1) c.clipReals.2)))))
  | _, _, _ => False

theorem map_parts {s : Space} {d : Dist} (h : mkDist s = .ok d) (hw : WF s) {t : Tree LeafParams} {ps : List LeafParams} (hp : Fits d t ps) {draw : Draw} (hd : DrawsAll draw)
    {f : Leaf → LeafParams → Except Err (List ℝ)} (hf : ∀ l p, LeafFits l p → ∃ x, f l p = .ok x ∧ x.length = l.size) {R : Leaf → LeafParams → Value → Prop}
    (hR : ∀ path l p X x, LeafFits l p → f l p = .ok X → l.post draw path X = .ok x → R l p x) :
    ∃ T y ys, mapDist (fun _ => f) [] d t = .ok T ∧ post draw [] s d T = .ok y ∧ Mem s y ∧ parts s y = some ys ∧ ys.length = (leaves d).length ∧
      ∀ i : Fin (leaves d).length, ∃ x, ys[i.1]? = some x ∧ R ((leaves d).get i) (ps.getD i (.logits [])) x := by
  obtain ⟨T, xs, h1, h2, h3, h4⟩ := mapDist_ok (f := fun _ => f) (fun _ => hf) [] (unique_of_wf s h hw) hp.1 (fun lp h => hp.zip h)
  obtain ⟨y, hy, hm⟩ := C76_clean_partial h hw hd h3
  obtain ⟨Xs, ys, k1, k2, k3⟩ := post_parts s [] h hw h3 hy
  rw [h2, Option.some.injEq] at k1
  subst k1
  obtain ⟨l1, l2, l3⟩ := h4.lengths
  obtain ⟨m1, m2, m3⟩ := k3.lengths
  refine ⟨T, y, ys, h1, hy, hm, k2, by omega, fun i => ?_⟩
  have hi := i.2
  have e1 := h4.get i.1 (by omega) hi (by omega) (by omega)
  have e2 := k3.get i.1 (by omega) hi (by omega) (by omega)
  have hps : ps.getD i (.logits []) = ps[i.1]'(by omega) := by simp [show i.1 < ps.length by omega]
  refine ⟨ys[i.1]'(by omega), by simp, ?_⟩
  have hl := hp.leaf i
  rw [hps] at hl ⊢
  exact hR _ _ _ _ _ hl e1 e2

theorem post_cat {n : Nat} {draw : Draw} (hd : DrawsAll draw) {path : List Nat} (hn : 0 < n) {X : Fin n → ℝ} {x : Value} (h : (Leaf.cat n).post draw path (List.ofFn X) = .ok x) :
    ∃ k : Fin n, x = .int k.1 ∧ ∀ j, X j ≤ X k := by
  obtain ⟨a, ha, hmax⟩ := leaf_post_cat hn hd path (X := List.ofFn X) (by simp)
  rw [ha, Except.ok.injEq] at h
  exact ⟨a, h.symm, fun j => by simpa using hmax j⟩

theorem post_normal {d : Nat} {c : NormalConfig d} {draw : Draw} {path : List Nat} {X : Fin d → ℝ} {x : Value} (h : (Leaf.normal d c).post draw path (List.ofFn X) = .ok x) :
    x = .floats (List.ofFn (normalPostprocess c X)) := by
  simp only [Leaf.post] at h
  rw [checkVec_ok (show (List.ofFn X).length = d by simp), ofFn_getD] at h
  simpa using h.symm

/-- C145: `mode` and `mean` of a policy return a member of the space, all whose discrete parts have maximal probability and whose continuous parts are the squashed means. -/
theorem C145_mode {s : Space} {d : Dist} (h : mkDist s = .ok d) (hw : WF s) {t : Tree LeafParams} {ps : List LeafParams} (hp : Fits d t ps) {tau : ℝ} (htau : 0 < tau)
    {draw : Draw} (hd : DrawsAll draw) :
    (∃ y ys, callMode tau draw s d t = .ok y ∧ Mem s y ∧ parts s y = some ys ∧ ys.length = (leaves d).length ∧
      ∀ i : Fin (leaves d).length, ∃ x, ys[i.1]? = some x ∧ Likeliest ((leaves d).get i) (ps.getD i (.logits [])) x) ∧
    (∃ y ys, callMean draw s d t = .ok y ∧ Mem s y ∧ parts s y = some ys ∧ ys.length = (leaves d).length ∧
      ∀ i : Fin (leaves d).length, ∃ x, ys[i.1]? = some x ∧ Likeliest ((leaves d).get i) (ps.getD i (.logits [])) x) := by
  have key : ∀ f : Leaf → LeafParams → Except Err (List ℝ),
      (∀ n z, z.length = n → ∃ g : Fin n → ℝ, f (.cat n) (.logits z) = .ok (List.ofFn (softmax g)) ∧ ∀ j k : Fin n, g j ≤ g k → z.getD j 0 ≤ z.getD k 0) →
      (∀ d c mu lv, mu.length = d → f (.normal d c) (.normal mu lv) = .ok (List.ofFn (fun i : Fin d => mu.getD i 0))) →
      ∃ T y ys, mapDist (fun _ => f) [] d t = .ok T ∧ post draw [] s d T = .ok y ∧ Mem s y ∧ parts s y = some ys ∧ ys.length = (leaves d).length ∧
        ∀ i : Fin (leaves d).length, ∃ x, ys[i.1]? = some x ∧ Likeliest ((leaves d).get i) (ps.getD i (.logits [])) x := by
    intro f hc hn
    refine map_parts h hw hp hd (fun l p hl => ?_) (fun path l p X x hl hX hx => ?_)
    · match l, p, hl with
      | .cat n, .logits z, hl => obtain ⟨g, h1, -⟩ := hc n z hl.2; exact ⟨_, h1, by simp⟩
      | .normal d c, .normal mu lv, hl => exact ⟨_, hn d c mu lv hl.1, by simp⟩
    · match l, p, hl with
      | .cat n, .logits z, hl =>
        obtain ⟨g, h1, h2⟩ := hc n z hl.2
        rw [h1, Except.ok.injEq] at hX
        subst hX
        obtain ⟨k, rfl, hk⟩ := post_cat hd hl.1 hx
        exact ⟨k, rfl, fun j => h2 j k ((softmax_le_iff g j k).1 (hk j))⟩
      | .normal d c, .normal mu lv, hl =>
        rw [hn d c mu lv hl.1, Except.ok.injEq] at hX
        subst hX
        have e := post_normal hx
        unfold normalPostprocess clip at e
        simp only [Real.sigmoid_def, ← one_div] at e
        exact e
  constructor
  · have hc : ∀ n z, z.length = n → ∃ g : Fin n → ℝ, Leaf.mode tau (.cat n) (.logits z) = .ok (List.ofFn (softmax g)) ∧ ∀ j k : Fin n, g j ≤ g k → z.getD j 0 ≤ z.getD k 0 := by
      intro n z hz
      refine ⟨fun k => logSoftmax (fun k : Fin n => z.getD k 0) k / tau, by simp only [Leaf.mode]; rw [checkVec_ok hz]; rfl, fun j k hjk => ?_⟩
      simpa [logSoftmax, div_le_div_iff_of_pos_right htau] using hjk
    obtain ⟨T, y, ys, h1, h2, h3⟩ := key (Leaf.mode tau) hc (fun d c mu lv hmu => by simp only [Leaf.mode, Leaf.mean]; rw [checkVec_ok hmu])
    exact ⟨y, ys, by simp only [callMode, Dist.mode, h1]; exact h2, h3⟩
  · obtain ⟨T, y, ys, h1, h2, h3⟩ := key Leaf.mean (fun n z hz => ⟨_, by simp only [Leaf.mean]; rw [checkVec_ok hz]; rfl, fun j k hjk => hjk⟩)
      (fun d c mu lv hmu => by simp only [Leaf.mean]; rw [checkVec_ok hmu])
    exact ⟨y, ys, by simp only [callMean, Dist.mean, h1]; exact h2, h3⟩

/-! ### The hypotheses can be met -/

instance uniform_prob : IsProbabilityMeasure (volume.restrict (Ioo (0 : ℝ) 1)) := ⟨by simp⟩

/-- Good random numbers exist. -/
theorem exists_keys : ∃ (Ω : Type) (_ : MeasurableSpace Ω) (P : Measure Ω) (keys : Ω → Keys), IsProbabilityMeasure P ∧ GoodKeys P keys := by
  let U : Measure (Nat → ℝ) := Measure.infinitePi (fun _ => volume.restrict (Ioo (0 : ℝ) 1))
  let N : Measure (Nat → ℝ) := Measure.infinitePi (fun _ => gaussianReal 0 1)
  let P : Measure (List Nat → (Nat → ℝ) × (Nat → ℝ)) := Measure.infinitePi (fun _ => U.prod N)
  have hU : ∀ n : Nat, U.map (fun u (k : Fin n) => u k) = uniforms n := fun n => by
    rw [Measure.map_infinitePi_infinitePi_of_inj Fin.val_injective, Measure.infinitePi_eq_pi]; rfl
  have hN : ∀ n : Nat, N.map (fun u (k : Fin n) => u k) = Measure.pi (fun _ : Fin n => gaussianReal 0 1) := fun n => by
    rw [Measure.map_infinitePi_infinitePi_of_inj Fin.val_injective, Measure.infinitePi_eq_pi]
  have hpath : ∀ path, P.map (fun ω => ω path) = U.prod N := fun path => Measure.infinitePi_map_eval _ path
  refine ⟨_, inferInstance, P, fun ω path => ⟨(ω path).1, (ω path).2⟩, inferInstance, ?_, ?_, ?_, ?_, ?_⟩
  · intro path k; fun_prop
  · intro path k; fun_prop
  · exact iIndepFun_infinitePi (X := fun _ x => x) (fun _ => measurable_id)
  · intro path n
    rw [← hU n, ← Measure.fst_prod (μ := U) (ν := N), Measure.fst, ← hpath path, Measure.map_map (by fun_prop) (by fun_prop), Measure.map_map (by fun_prop) (by fun_prop)]
    rfl
  · intro path n
    rw [← hN n, ← Measure.snd_prod (μ := U) (ν := N), Measure.snd, ← hpath path, Measure.map_map (by fun_prop) (by fun_prop), Measure.map_map (by fun_prop) (by fun_prop)]
    rfl

/-- Example: a dict of a three-way choice and of a Tuple with one Box; the probability that the choice is 2. -/
example {draw : Draw} (hd : DrawsAll draw) : ∃ (Ω : Type) (_ : MeasurableSpace Ω) (P : Measure Ω) (keys : Ω → Keys) (act : Ω → Value) (v : Ω → List Value),
    (∀ ω, ∃ logp, callSample 0.2 (Real.log (2 * Real.pi)) draw (keys ω) (.dict [("a", .discrete 3 0), ("b", .tuple [.box [(some (-1), some 1)]])]) exDist exParams = .ok (act ω, logp)) ∧
    P {ω | (v ω)[0]? = some (.int 2)} = ENNReal.ofReal (Real.exp 2 / (Real.exp 0 + Real.exp 1 + Real.exp 2)) := by
  have h : (boxConfig [(some (-1), some 1)]).init = .ok (boxConfig [(some (-1), some 1)]) := by
    refine (C50_init _).1.2 (fun i => ?_)
    have hi : i.1 = 0 := Nat.lt_one_iff.1 i.2
    simp [boxConfig, NormalConfig.low, NormalConfig.high]
  have hm : mkDist (.dict [("a", .discrete 3 0), ("b", .tuple [.box [(some (-1), some 1)]])]) = .ok exDist := by
    simp [mkDist, mkDistDict, mkDists, h, exDist]
  obtain ⟨Ω, m, P, keys, hP, hk⟩ := exists_keys
  obtain ⟨act, v, h1, h2, h3⟩ := C145_sample hm (by simp [WF, WFDict, WFList]) exFits (tau := 0.2) (by norm_num) hd hk (Real.log (2 * Real.pi))
  refine ⟨Ω, m, P, keys, act, v, h1, ?_⟩
  have e : leaves exDist = [.cat 3, .normal _ (boxConfig [(some (-1), some 1)])] := rfl
  have := h3 (fun i => if i.1 = 0 then {.int 2} else univ) ?_
  · have hs : {ω | (v ω)[0]? = some (.int 2)} = {ω | ∀ i : Fin (leaves exDist).length, ∃ x ∈ (if i.1 = 0 then {.int 2} else univ : Set Value), (v ω)[i.1]? = some x} := by
      ext ω
      simp only [mem_ofPred_eq]
      constructor
      · intro h i
        match i with
        | ⟨0, _⟩ => exact ⟨_, by simp, h⟩
        | ⟨1, _⟩ => exact ⟨(v ω)[1]'(by rw [(h2 ω).2.2, e]; simp), by simp, by simp⟩
        | ⟨i + 2, hi⟩ => rw [e] at hi; simp at hi
      · intro h
        obtain ⟨x, hx, hv⟩ := h ⟨0, by rw [e]; simp⟩
        simp only [if_true, mem_singleton_iff] at hx
        rw [hv, hx]
    rw [hs, this]
    refine (Fin.prod_univ_two (fun i : Fin 2 => chance ((leaves exDist).get i) ([.logits [0, 1, 2], .normal [0.5] [0]].getD i (.logits [])) (if i.1 = 0 then {.int 2} else univ))).trans ?_
    have e1 : chance (.cat 3) (.logits [0, 1, 2]) {.int 2} = ENNReal.ofReal (Real.exp 2 / (Real.exp 0 + Real.exp 1 + Real.exp 2)) := by
      simp [chance, Fin.sum_univ_three]
    have e2 : chance (.normal _ (boxConfig [(some (-1), some 1)])) (.normal [0.5] [0]) univ = 1 := by
      simp only [chance, mem_univ]
      exact measure_univ
    refine Eq.trans ?_ (by rw [e1, e2, mul_one] : chance (.cat 3) (.logits [0, 1, 2]) {.int 2} * chance (.normal _ (boxConfig [(some (-1), some 1)])) (.normal [0.5] [0]) univ = _)
    rfl
  · intro i
    match i with
    | ⟨0, _⟩ => exact trivial
    | ⟨1, _⟩ => simp [e, Event]
    | ⟨i + 2, hi⟩ => rw [e] at hi; simp at hi

end Coax.Dists
