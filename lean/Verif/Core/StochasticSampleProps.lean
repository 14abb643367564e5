import Verif.Core.StochasticSample
import Verif.Core.QTypesProps
import Mathlib.Probability.Independence.Basic

/-! Properties C116 (calls of stochastic functions) and C117 (samples of quantile distributions). -/

namespace Coax.Core

open MeasureTheory ProbabilityTheory

variable {σ D X L Y N : Type _}

/-! ### Specification -/

/-- The distribution treats each row on its own: the sample of row `k` is made from its parameters and the `k`-th of the random numbers (which depend on the size of the batch). -/
structure ByRow (d : BDist D X L) (sample1 : D → N → X) (noise : Nat → Nat → N) (mean1 mode1 : D → X) (logp1 : D → X → L) : Prop where
  sample : ∀ ds : List D, (d.sample ds).length = ds.length ∧ ∀ (k : Nat) (p : D), ds[k]? = some p → (d.sample ds)[k]? = some (sample1 p (noise ds.length k))
  mean : ∀ ds : List D, d.mean ds = ds.map mean1
  mode : ∀ ds : List D, d.mode ds = ds.map mode1
  logProba : ∀ (ds : List D) (xs : List X), ds.length = xs.length → d.logProba ds xs = List.zipWith logp1 ds xs

/-- The postprocessor picks the row that it is asked for. -/
def Honours (pick : PostPick X Y) (g : X → Y) : Prop := ∀ (x : List X) (i : Nat), pick x i = (x[i]?).map g

/-! ### Lemmas -/

theorem reshapeRows_get {α : Type _} {n B : Nat} (hn : 0 < n) (xs : List α) (h : xs.length = B * n) :
    ∃ out, reshapeRows n xs = .ok out ∧ out.length = B ∧ ∀ b, b < B → ∃ row, out[b]? = some row ∧ row.length = n ∧ ∀ a, a < n → row[a]? = xs[b * n + a]? := by
  unfold reshapeRows
  rw [if_neg (by rw [h]; simp), h, Nat.mul_div_cancel _ hn]
  refine ⟨_, rfl, by simp, fun b hb => ⟨(xs.drop (b * n)).take n, by simp [hb], ?_, fun a ha => ?_⟩⟩
  · have : (b + 1) * n ≤ B * n := Nat.mul_le_mul_right n hb
    rw [List.length_take, List.length_drop, h]
    rw [Nat.add_mul] at this
    omega
  · rw [List.getElem?_take_of_lt ha, List.getElem?_drop]

theorem table_get {α : Type _} (n : Nat) (S : List σ) (t : σ → Nat → α) : ((S.map (fun s => (List.range n).map (t s))).flatten).length = S.length * n ∧
    ∀ (b : Nat) (s : σ) (a : Nat), S[b]? = some s → a < n → ((S.map (fun s => (List.range n).map (t s))).flatten)[b * n + a]? = some (t s a) := by
  induction S with
  | nil => exact ⟨by simp, fun b s a h => by simp at h⟩
  | cons s S ih =>
    refine ⟨?_, fun b s' a hb ha => ?_⟩
    · rw [List.map_cons, List.flatten_cons, List.length_append, ih.1, List.length_map, List.length_range, List.length_cons]
      ring
    · rw [List.map_cons, List.flatten_cons]
      cases b with
      | zero =>
        simp only [List.getElem?_cons_zero, Option.some.injEq] at hb
        subst hb
        rw [List.getElem?_append_left (by simpa using ha)]
        simp [ha]
      | succ b =>
        rw [List.getElem?_append_right (by rw [List.length_map, List.length_range, Nat.add_mul]; omega)]
        rw [← ih.2 b s' a (by simpa using hb) ha]
        congr 1
        rw [List.length_map, List.length_range, Nat.add_mul]
        omega

theorem replicas_ok {α : Type _} (n : Nat) (S : List σ) (t : σ → Nat → α) :
    toReplicas n (S.map (fun s => (List.range n).map (t s))) = .ok (S.map (fun s => (List.range n).map (t s))).flatten := by
  unfold toReplicas
  rw [if_neg]
  simp

theorem postAll_ok (pick : PostPick X Y) (x : List X) (g : Nat → Y) (l : List Nat) (h : ∀ i ∈ l, pick x i = some (g i)) : postAll pick x l = .ok (l.map g) := by
  induction l with
  | nil => rfl
  | cons i l ih =>
    simp only [postAll, post, h i (by simp), ih (fun j hj => h j (by simp [hj])), List.map_cons]

variable [AddCommGroup D] [Module ℝ D]

/-! ### C116 -/

/-- **C116** for batches: entry `a` of row `b` of what `sample_func_type2` returns is a sample for the state of row `b` and the action `a`, with its log-probability, for type-1 and for type-2 functions. -/
theorem C116_batch_state {n : Nat} (hn : 0 < n) {t : σ → Nat → D} {F : Func σ (List ℝ) D} (hF : Computes n t F) {d : BDist D X L} {sample1 : D → N → X} {noise : Nat → Nat → N} {mean1 mode1 : D → X}
    {logp1 : D → X → L} (hd : ByRow d sample1 noise mean1 mode1 logp1) (S : List σ) :
    ∃ x l, sampleType2 n F d S = .ok (x, l) ∧ x.length = S.length ∧ l.length = S.length ∧
      ∀ (b : Nat) (s : σ), S[b]? = some s → ∃ xr lr, x[b]? = some xr ∧ l[b]? = some lr ∧ xr.length = n ∧ lr.length = n ∧
        ∀ a, a < n → xr[a]? = some (sample1 (t s a) (noise (S.length * n) (b * n + a))) ∧ lr[a]? = some (logp1 (t s a) (sample1 (t s a) (noise (S.length * n) (b * n + a)))) := by
  obtain ⟨h1, h2⟩ := table_get n S t
  obtain ⟨h3, h4⟩ := hd.sample (S.map (fun s => (List.range n).map (t s))).flatten
  have h5 := hd.logProba (S.map (fun s => (List.range n).map (t s))).flatten _ h3.symm
  obtain ⟨x, hx, hxl, hxr⟩ := reshapeRows_get hn _ (h3.trans h1)
  obtain ⟨l, hl, hll, hlr⟩ := reshapeRows_get (B := S.length) hn (d.logProba (S.map (fun s => (List.range n).map (t s))).flatten (d.sample (S.map (fun s => (List.range n).map (t s))).flatten))
    (by rw [h5, List.length_zipWith, h3, h1, Nat.min_self])
  refine ⟨x, l, ?_, hxl, hll, fun b s hb => ?_⟩
  · unfold sampleType2
    rw [(C55_agree hn hF S).1]
    simp only [replicas_ok, hx, hl]
  · have hbl : b < S.length := (List.getElem?_eq_some_iff.1 hb).1
    obtain ⟨xr, k1, k2, k3⟩ := hxr b hbl
    obtain ⟨lr, k4, k5, k6⟩ := hlr b hbl
    refine ⟨xr, lr, k1, k4, k2, k5, fun a ha => ?_⟩
    have h6 := h4 (b * n + a) _ (h2 b s a hb ha)
    rw [h1] at h6
    refine ⟨by rw [k3 a ha, h6], ?_⟩
    rw [k6 a ha, h5, List.getElem?_zipWith, h2 b s a hb ha, h6]

/-- **C116** for batches: row `b` of what `sample_func_type1` returns is a sample for the state and the action of row `b`. -/
theorem C116_batch_action {n : Nat} (hn : 0 < n) {t : σ → Nat → D} {F : Func σ (List ℝ) D} (hF : Computes n t F) {d : BDist D X L} {sample1 : D → N → X} {noise : Nat → Nat → N} {mean1 mode1 : D → X}
    {logp1 : D → X → L} (hd : ByRow d sample1 noise mean1 mode1 logp1) (S : List σ) (acts : List Nat) (hl : acts.length = S.length) (ha : ∀ a ∈ acts, a < n) :
    ∃ x l, sampleType1 n F d S (acts.map (oneHot n)) = .ok (x, l) ∧ x.length = S.length ∧ l.length = S.length ∧
      ∀ (b : Nat) (s : σ) (a : Nat), S[b]? = some s → acts[b]? = some a →
        x[b]? = some (sample1 (t s a) (noise S.length b)) ∧ l[b]? = some (logp1 (t s a) (sample1 (t s a) (noise S.length b))) := by
  have hlen : (List.zipWith t S acts).length = S.length := by rw [List.length_zipWith, hl, Nat.min_self]
  obtain ⟨h3, h4⟩ := hd.sample (List.zipWith t S acts)
  have h5 := hd.logProba (List.zipWith t S acts) _ h3.symm
  refine ⟨_, _, by unfold sampleType1; rw [(C55_agree hn hF S).2 acts hl ha], h3.trans hlen, by rw [h5, List.length_zipWith, h3, hlen, Nat.min_self], fun b s a hs hb => ?_⟩
  have h6 : (List.zipWith t S acts)[b]? = some (t s a) := by rw [List.getElem?_zipWith, hs, hb]
  have h7 := h4 b _ h6
  rw [hlen] at h7
  exact ⟨h7, by rw [h5, List.getElem?_zipWith, h6, h7]⟩

/-- **C116** for modes and means of batches, for both ways of calling. -/
theorem C116_batch_point {n : Nat} (hn : 0 < n) {t : σ → Nat → D} {F : Func σ (List ℝ) D} (hF : Computes n t F) (g : D → X) (S : List σ) :
    pointType2 n F (List.map g) S = .ok (S.map fun s => (List.range n).map fun a => g (t s a)) ∧
      ∀ acts : List Nat, acts.length = S.length → (∀ a ∈ acts, a < n) → pointType1 n F (List.map g) S (acts.map (oneHot n)) = .ok (List.zipWith (fun s a => g (t s a)) S acts) := by
  refine ⟨?_, fun acts hl ha => ?_⟩
  · unfold pointType2
    rw [(C55_agree hn hF S).1]
    simp only [replicas_ok]
    have hflat : ((S.map (fun s => (List.range n).map (t s))).flatten).map g = (S.map (fun s => (List.range n).map (fun a => g (t s a)))).flatten := by
      rw [List.map_flatten, List.map_map]
      congr 1
      apply List.map_congr_left
      intro s _
      simp
    rw [hflat]
    obtain ⟨hlen, hget⟩ := table_get n S (fun s a => g (t s a))
    obtain ⟨out, h1, h2, h3⟩ := reshapeRows_get hn _ hlen
    rw [h1]
    congr 1
    apply List.ext_getElem?
    intro b
    by_cases hb : b < S.length
    · obtain ⟨row, k1, k2, k3⟩ := h3 b hb
      rw [k1, List.getElem?_map, List.getElem?_eq_getElem hb, Option.map_some]
      congr 1
      apply List.ext_getElem?
      intro a
      by_cases ha : a < n
      · rw [k3 a ha, hget b S[b] a (List.getElem?_eq_getElem hb) ha]
        simp [ha]
      · rw [List.getElem?_eq_none (by omega), List.getElem?_eq_none (by simp; omega)]
    · rw [List.getElem?_eq_none (by omega), List.getElem?_eq_none (by simp; omega)]
  · unfold pointType1
    rw [(C55_agree hn hF S).2 acts hl ha]
    simp only [List.map_zipWith]

/-- **C116**: called with a state, a stochastic function returns for every action a sample for this action, with its log-probability; called with a state and an action it returns a sample for that action.
This is for postprocessors that pick the row they are asked for, see C72 and C117 for quantiles. -/
theorem C116_call {n : Nat} {t : σ → Nat → D} {F : Func σ (List ℝ) D} (hF : Computes n t F) {d : BDist D X L} {sample1 : D → N → X} {noise : Nat → Nat → N} {mean1 mode1 : D → X}
    {logp1 : D → X → L} (hd : ByRow d sample1 noise mean1 mode1 logp1) {pick : PostPick X Y} {g : X → Y} (hp : Honours pick g) (s : σ) (hn : 0 < n) :
    callSampleState n pick F d s = .ok ((List.range n).map fun a => g (sample1 (t s a) (noise n a)), (List.range n).map fun a => logp1 (t s a) (sample1 (t s a) (noise n a))) ∧
      ∀ a, a < n → callSampleAction n pick F d s a = .ok (g (sample1 (t s a) (noise 1 0)), logp1 (t s a) (sample1 (t s a) (noise 1 0))) := by
  refine ⟨?_, fun a ha => ?_⟩
  · obtain ⟨x, l, h1, h2, h3, h4⟩ := C116_batch_state hn hF hd [s]
    obtain ⟨xr, lr, k1, k2, k3, k4, k5⟩ := h4 0 s rfl
    simp only [List.length_singleton, Nat.one_mul, Nat.zero_mul, Nat.zero_add] at k5
    have hlr : lr = (List.range n).map fun a => logp1 (t s a) (sample1 (t s a) (noise n a)) := by
      apply List.ext_getElem?
      intro i
      by_cases hi : i < n
      · rw [(k5 i hi).2]; simp [hi]
      · rw [List.getElem?_eq_none (by omega), List.getElem?_eq_none (by simp; omega)]
    unfold callSampleState
    simp only [h1, firstRow, k1, k2]
    rw [postAll_ok pick xr (fun a => g (sample1 (t s a) (noise n a))) _ (fun i hi => by rw [hp, (k5 i (List.mem_range.1 hi)).1]; rfl), hlr]
  · obtain ⟨x, l, h1, h2, h3, h4⟩ := C116_batch_action hn hF hd [s] [a] rfl (by simpa using ha)
    obtain ⟨k1, k2⟩ := h4 0 s a rfl rfl
    unfold callSampleAction
    rw [show [oneHot n a] = [a].map (oneHot n) from rfl, h1]
    simp only [post, hp x 0, k1, firstRow, k2, Option.map_some, List.length_singleton]

/-- **C116** for `mode` and `mean`: entry `a` of what is returned for a state is what is returned for the state and the action `a`. -/
theorem C116_point {n : Nat} (hn : 0 < n) {t : σ → Nat → D} {F : Func σ (List ℝ) D} (hF : Computes n t F) (point : D → X) {pick : PostPick X Y} {g : X → Y} (hp : Honours pick g) (s : σ) :
    callPointState n pick F (List.map point) s = .ok ((List.range n).map fun a => g (point (t s a))) ∧
      ∀ a, a < n → callPointAction n pick F (List.map point) s a = .ok (g (point (t s a))) := by
  obtain ⟨h1, h2⟩ := C116_batch_point hn hF point [s]
  refine ⟨?_, fun a ha => ?_⟩
  · unfold callPointState
    simp only [h1, firstRow, List.map_cons, List.map_nil, List.getElem?_cons_zero]
    exact postAll_ok pick _ _ _ (fun i hi => by rw [hp]; simp [List.mem_range.1 hi])
  · unfold callPointAction
    rw [show [oneHot n a] = [a].map (oneHot n) from rfl, h2 [a] rfl (by simpa using ha)]
    simp only [List.zipWith_cons_cons, List.zipWith_nil_left, post, hp _ 0, List.getElem?_cons_zero, Option.map_some]

omit [AddCommGroup D] [Module ℝ D] in
/-- **C116** for functions of states (policies, `StochasticV`). -/
theorem C116_states {t : σ → D} {f : List σ → List D} (hf : ∀ S, f S = S.map t) {d : BDist D X L} {sample1 : D → N → X} {noise : Nat → Nat → N} {mean1 mode1 : D → X}
    {logp1 : D → X → L} (hd : ByRow d sample1 noise mean1 mode1 logp1) {pick : PostPick X Y} {g : X → Y} (hp : Honours pick g) (s : σ) :
    callSample pick f d s = .ok (g (sample1 (t s) (noise 1 0)), logp1 (t s) (sample1 (t s) (noise 1 0))) ∧ callMean pick f d s = .ok (g (mean1 (t s))) ∧
      callMode pick f d s = .ok (g (mode1 (t s))) ∧ callParams f s = .ok (t s) := by
  have hfs : f [s] = [t s] := hf [s]
  obtain ⟨h1, h2⟩ := hd.sample [t s]
  have h3 := h2 0 (t s) rfl
  have h4 : d.sample [t s] = [sample1 (t s) (noise 1 0)] := by
    apply List.ext_getElem?
    intro i
    cases i with
    | zero => rw [h3]; rfl
    | succ i => rw [List.getElem?_eq_none (by rw [h1]; simp), List.getElem?_eq_none (by simp)]
  have h5 : d.logProba [t s] [sample1 (t s) (noise 1 0)] = [logp1 (t s) (sample1 (t s) (noise 1 0))] := by rw [hd.logProba _ _ rfl]; rfl
  refine ⟨?_, ?_, ?_, ?_⟩
  · simp only [callSample, sampleFunc, hfs, h4, h5, post, hp _ 0, firstRow]
    rfl
  · simp only [callMean, hfs, hd.mean, post, hp _ 0]; rfl
  · simp only [callMode, hfs, hd.mode, post, hp _ 0]; rfl
  · simp only [callParams, hfs, firstRow]; rfl

/-- **C116**, the law: if the random numbers of the rows are independent with the law `ν`, then the samples that are returned for the actions are independent, and each has the distribution for its action. -/
theorem C116_law {Ω : Type _} [MeasurableSpace Ω] [MeasurableSpace N] [MeasurableSpace X] {μ : Measure Ω} {ν : Measure N} {n : Nat} (hn : 0 < n) {t : σ → Nat → D} {F : Func σ (List ℝ) D} (hF : Computes n t F)
    {d : Ω → BDist D X L} {sample1 : D → N → X} (hm : ∀ p, Measurable (sample1 p)) {noise : Nat → Nat → Ω → N} (hmn : ∀ k i, Measurable (noise k i)) (hind : iIndepFun (noise n) μ)
    (hlaw : ∀ i, μ.map (noise n i) = ν) {mean1 mode1 : D → X} {logp1 : D → X → L}
    (hd : ∀ ω, ByRow (d ω) sample1 (fun k i => noise k i ω) mean1 mode1 logp1) {pick : PostPick X Y} {g : X → Y} (hp : Honours pick g) (s : σ) :
    ∃ Z : Nat → Ω → X, (∀ ω, callSampleState n pick F (d ω) s = .ok ((List.range n).map fun a => g (Z a ω), (List.range n).map fun a => logp1 (t s a) (Z a ω))) ∧
      iIndepFun Z μ ∧ ∀ a, μ.map (Z a) = ν.map (sample1 (t s a)) := by
  refine ⟨fun a ω => sample1 (t s a) (noise n a ω), fun ω => (C116_call hF (hd ω) hp s hn).1, ?_, fun a => ?_⟩
  · exact hind.comp (fun a => sample1 (t s a)) (fun a => hm _)
  · rw [← hlaw a, Measure.map_map (hm _) (hmn n a)]
    rfl

/-- A concrete case: a type-2 function with two actions and a distribution that adds noise to its parameter. -/
example : Computes 2 (fun (s : ℝ) a => s + a) (.type2 fun S => S.map fun s => (List.range 2).map fun a => s + (a : ℝ)) ∧
    ByRow (⟨fun ds => ds.mapIdx fun k p => p + k, id, id, fun ds xs => List.zipWith (fun p x => p - x) ds xs⟩ : BDist ℝ ℝ ℝ) (fun p z => p + z) (fun _ k => (k : ℝ)) id id (fun p x => p - x) ∧
    Honours (fun (x : List ℝ) i => x[i]?) id :=
  ⟨.type2 _ fun _ => rfl, ⟨fun ds => ⟨by simp, fun k p h => by simp [List.getElem?_mapIdx, h]⟩, fun ds => by simp, fun ds => by simp, fun ds xs _ => rfl⟩, fun x i => by simp⟩

/-! ### C117 -/

/-- What bootstrapping means: for every row of the batch `m` numbers, each of them one of the row's own values. -/
def Bootstrap {m : Nat} (values : List (Fin m → ℝ)) (x : List (List ℝ)) : Prop :=
  x.length = values.length ∧ ∀ (b : Nat) (v : Fin m → ℝ) (r : List ℝ), values[b]? = some v → x[b]? = some r → r.length = m ∧ ∀ y ∈ r, ∃ j, v j = y

/-- The indices that are drawn are in range. -/
def InRange (B m : Nat) (idx : Nat → Nat → Nat) : Prop := ∀ b j, b < B → j < m → idx b j < B

/-- **C117**, what is true: each row of the batch gets `m` complete rows of the batch, so that all numbers are values of the batch.
Missing: they need not be values of the row itself, and there are `m` times as many as there should be. -/
theorem C117_sample_partial {m : Nat} (values : List (Fin m → ℝ)) (idx : Nat → Nat → Nat) (h : InRange values.length m idx) :
    (quantileSample idx values).length = values.length ∧ ∀ (b : Nat) (x : List (List ℝ)), (quantileSample idx values)[b]? = some x →
      x.length = m ∧ ∀ (j : Nat) (r : List ℝ), x[j]? = some r → ∃ v, values[idx b j]? = some v ∧ r = List.ofFn v := by
  refine ⟨by simp [quantileSample], fun b x hx => ?_⟩
  simp only [quantileSample, List.getElem?_map, Option.map_eq_some_iff] at hx
  obtain ⟨b', hb, rfl⟩ := hx
  obtain ⟨hb1, hb2⟩ := List.getElem?_eq_some_iff.1 hb
  simp only [List.length_range] at hb1
  simp only [List.getElem_range] at hb2
  subst hb2
  refine ⟨by simp, fun j r hr => ?_⟩
  simp only [List.getElem?_map, Option.map_eq_some_iff] at hr
  obtain ⟨j', hj, rfl⟩ := hr
  obtain ⟨hj1, hj2⟩ := List.getElem?_eq_some_iff.1 hj
  simp only [List.length_range] at hj1
  simp only [List.getElem_range] at hj2
  subst hj2
  have := h b j hb1 hj1
  exact ⟨values[idx b j], by simp [this], by simp [this]⟩

/-- C117 fails: the samples of a state may all be values of another state. -/
theorem C117_other_row_counterexample : ∃ (values : List (Fin 2 → ℝ)) (idx : Nat → Nat → Nat), InRange values.length 2 idx ∧ ∃ x v, (quantileSample idx values)[0]? = some x ∧ values[0]? = some v ∧
    ∀ r ∈ x, ∀ y ∈ r, ∀ j, v j ≠ y := by
  refine ⟨[fun _ => 0, fun _ => 1], fun _ _ => 1, fun b j hb hj => by simp, [[1, 1], [1, 1]], fun _ => 0, ?_, rfl, ?_⟩
  · simp [quantileSample, List.range_succ]
  · intro r hr y hy j
    simp at hr
    subst hr
    simp at hy
    subst hy
    simp

/-- C117 fails: for one state there is no randomness, whatever the key; the `m` values are returned `m` times. -/
theorem C117_constant_counterexample {m : Nat} (v : Fin m → ℝ) (idx : Nat → Nat → Nat) (h : InRange 1 m idx) : quantileSample idx [v] = [List.replicate m (List.ofFn v)] := by
  simp only [quantileSample, List.length_singleton, List.range_one, List.map_cons, List.map_nil]
  congr 1
  rw [List.eq_replicate_iff]
  refine ⟨by simp, fun r hr => ?_⟩
  obtain ⟨j, hj, rfl⟩ := List.mem_map.1 hr
  have := h 0 j (by omega) (List.mem_range.1 hj)
  rw [show idx 0 j = 0 by omega]
  rfl

/-- C117 fails for `log_proba`: the first axis, which should be that of the batch, has size 1. -/
theorem C117_logProba_counterexample {m : Nat} (values : List (Fin m → ℝ)) (x : List (List (List ℝ))) : (quantileLogProba values x).length = 1 := rfl

/-- Hence a `StochasticQ` with quantiles cannot be sampled without an action: AssertionError if there are two actions or more, for all networks, states and keys. -/
theorem C117_call_counterexample {n m : Nat} (hn : 2 ≤ n) {t : σ → Nat → Fin m → ℝ} {F : Func σ (List ℝ) (Fin m → ℝ)} (hF : Computes n t F) (idx : Nat → Nat → Nat) (s : σ) :
    callSampleState n quantilePost F (quantileBDist m idx) s = .error .assertionError := by
  unfold callSampleState sampleType2
  rw [(C55_agree (by omega) hF [s]).1]
  simp only [replicas_ok]
  have h1 := (table_get n [s] t).1
  obtain ⟨x, hx, -, -⟩ := reshapeRows_get (B := [s].length) (n := n) (by omega) ((quantileBDist m idx).sample ((List.map (fun s => (List.range n).map (t s)) [s]).flatten))
    (by rw [← h1]; simp [quantileBDist, quantileSample])
  have h2 : ∀ ds xs, reshapeRows n ((quantileBDist m idx).logProba ds xs) = .error .assertionError := by
    intro ds xs
    unfold reshapeRows
    rw [if_pos]
    show (quantileLogProba ds xs).length % n ≠ 0
    rw [C117_logProba_counterexample, Nat.mod_eq_of_lt (by omega)]
    omega
  simp only [hx, h2]

/-- With an action, what is returned is not a sample but all the values, `m` times, whatever the key; the log-probability is an array. -/
theorem C117_call_action {n m : Nat} (hn : 0 < n) {t : σ → Nat → Fin m → ℝ} {F : Func σ (List ℝ) (Fin m → ℝ)} (hF : Computes n t F) (idx : Nat → Nat → Nat) (h : InRange 1 m idx) (s : σ) (a : Nat) (ha : a < n) :
    ∃ l, callSampleAction n quantilePost F (quantileBDist m idx) s a = .ok (List.replicate m (List.ofFn (t s a)), [l]) ∧ l.length = m := by
  unfold callSampleAction sampleType1
  rw [show [oneHot n a] = [a].map (oneHot n) from rfl, (C55_agree hn hF [s]).2 [a] rfl (by simpa using ha)]
  simp only [List.zipWith_cons_cons, List.zipWith_nil_left]
  have h1 : quantileSample idx [t s a] = [List.replicate m (List.ofFn (t s a))] := C117_constant_counterexample _ idx h
  simp only [quantileBDist, h1, post, quantilePost, firstRow, quantileLogProba, List.getElem?_cons_zero, List.zipWith_cons_cons, List.zipWith_nil_left]
  exact ⟨List.zipWith logShare (List.replicate m (List.ofFn (t s a))) (List.ofFn (t s a)), rfl, by simp⟩

/-- The mean of the values of a row. -/
noncomputable def average {m : Nat} (v : Fin m → ℝ) : ℝ := (∑ i, v i) / m

/-- With an action, and for functions of states, `mean` of quantiles is the average of the values. -/
theorem C117_mean {n m : Nat} (hn : 0 < n) {t : σ → Nat → Fin m → ℝ} {F : Func σ (List ℝ) (Fin m → ℝ)} (hF : Computes n t F) (idx : Nat → Nat → Nat) (s : σ) :
    (∀ a, a < n → callPointAction n quantilePost F (quantileBDist m idx).mean s a = .ok [[average (t s a)]]) ∧
      ∀ {u : σ → Fin m → ℝ} {f : List σ → List (Fin m → ℝ)}, (∀ S, f S = S.map u) → callMean quantilePost f (quantileBDist m idx) s = .ok [[average (u s)]] := by
  refine ⟨fun a ha => ?_, fun {u f} hf => ?_⟩
  · unfold callPointAction
    have := (C116_batch_point hn hF (fun v : Fin m → ℝ => [[average v]]) [s]).2 [a] rfl (by simpa using ha)
    rw [show (quantileBDist m idx).mean = List.map fun v : Fin m → ℝ => [[average v]] by funext l; simp [quantileBDist, average, List.sum_ofFn]]
    rw [show [oneHot n a] = [a].map (oneHot n) from rfl, this]
    simp [post, quantilePost]
  · unfold callMean
    rw [hf]
    simp [quantileBDist, average, post, quantilePost, List.sum_ofFn]

/-- But `mean` without an action returns the average of the *first* action for all actions: `postprocess_variate` does not use the index. -/
theorem C117_mean_counterexample {n m : Nat} (hn : 0 < n) {t : σ → Nat → Fin m → ℝ} {F : Func σ (List ℝ) (Fin m → ℝ)} (hF : Computes n t F) (idx : Nat → Nat → Nat) (s : σ) :
    callPointState n quantilePost F (quantileBDist m idx).mean s = .ok (List.replicate n [[average (t s 0)]]) := by
  unfold callPointState
  rw [show (quantileBDist m idx).mean = List.map fun v : Fin m → ℝ => [[average v]] by funext l; simp [quantileBDist, average, List.sum_ofFn]]
  rw [(C116_batch_point hn hF (fun v : Fin m → ℝ => [[average v]]) [s]).1]
  simp only [firstRow, List.map_cons, List.map_nil, List.getElem?_cons_zero]
  rw [postAll_ok quantilePost _ (fun _ => [[average (t s 0)]]) _ fun i _ => by simp [quantilePost, hn], List.map_const', List.length_range]

end Coax.Core
