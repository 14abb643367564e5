import Verif.TD.Stochastic
import Verif.TD.TargetsProps
import Verif.TD.Loss
import Verif.Dists.IntervalProps

/-! Properties C70 and C71: the targets of distributional updaters. -/

namespace Coax.TD

open Coax.Core

variable {P σ α D : Type _}

/-! ### C70 -/

/-- The target of row `i` is the affine transform, with scale `In` and shift `Rn`, of a next distribution with the given property. -/
def DistBootstraps (dist : ReturnDist D) (f fInv : ℝ → ℝ) (b : TBatch σ α) (spec : Nat → σ → D → Prop) (target : Except Err (List (Option D))) : Prop :=
  ∃ G, target = .ok G ∧ G.length = b.S_next.length ∧
    ∀ (i : Nat) (r d : ℝ) (s : σ), b.Rn[i]? = some r → b.In[i]? = some d → b.S_next[i]? = some s → ∃ p, spec i s p ∧ G[i]? = some (dist.affine d r f fInv p)

theorem distBootstraps_rows {dist : ReturnDist D} {f fInv : ℝ → ℝ} {b : TBatch σ α} (hb : WellFormed b) {spec : Nat → σ → D → Prop} {ds : List D} (hl : ds.length = b.S_next.length)
    (h : ∀ (i : Nat) (s : σ) (p : D), b.S_next[i]? = some s → ds[i]? = some p → spec i s p) : DistBootstraps dist f fInv b spec (affineRows dist f fInv b ds) := by
  unfold affineRows
  rw [if_pos ⟨by rw [hl, hb.rn], by rw [hl, hb.inn]⟩]
  refine ⟨_, rfl, by simp [hb.rn, hb.inn, hl], ?_⟩
  intro i r d s h1 h2 h3
  have hi : i < ds.length := by rw [hl]; exact (List.getElem?_eq_some_iff.1 h3).1
  refine ⟨ds[i], h i s _ h3 (List.getElem?_eq_getElem hi), ?_⟩
  rw [List.getElem?_zipWith, List.getElem?_eq_getElem hi, (List.getElem?_zip_eq_some (z := (r, d))).2 ⟨h1, h2⟩]

section
variable [AddCommGroup D] [Module ℝ D]

/-- Whatever the action arrays are in other rows, the type-1 view selects the entry of the action in each row where it is one-hot. -/
theorem functionType1_rows {n : Nat} {t : σ → Nat → D} {F : Func σ (List ℝ) D} (hF : Computes n t F) {S : List σ} {A : List (List ℝ)} (hl : A.length = S.length) (hA : ∀ a ∈ A, a.length = n) :
    ∃ ds, functionType1 n F S A = .ok ds ∧ ds.length = S.length ∧
      ∀ (i : Nat) (s : σ) (a : Nat), S[i]? = some s → A[i]? = some (oneHot n a) → a < n → ds[i]? = some (t s a) := by
  cases hF with
  | type1 f g hf hg =>
    refine ⟨List.zipWith g S A, by simp only [functionType1]; rw [hf _ _ hl.symm], by simp [hl], ?_⟩
    intro i s a h1 h2 ha
    rw [List.getElem?_zipWith, h1, h2]
    show some (g s (oneHot n a)) = _
    rw [hg s a ha]
  | type2 f hf =>
    refine ⟨List.zipWith dot A (f S), ?_, by rw [hf]; simp [hl], ?_⟩
    · simp only [functionType1]
      rw [if_neg (by simpa using hA), if_neg]
      rw [hf]
      simp [hl]
    · intro i s a h1 h2 ha
      rw [List.getElem?_zipWith, h2, hf, List.getElem?_map, h1]
      show some (dot (oneHot n a) ((List.range n).map (t s))) = _
      rw [dot_oneHot n a _ (by simp) ha]; simp

/-- `a` is the only action with the greatest mean. -/
def BestMean (n : Nat) (m : Nat → ℝ) (a : Nat) : Prop := a < n ∧ ∀ c < n, c ≠ a → m c < m a

theorem maximisers_of_best {n : Nat} {m : Nat → ℝ} {a : Nat} (h : BestMean n m a) : maximisers n m = {a} := by
  ext c
  rw [mem_maximisers, Finset.mem_singleton]
  constructor
  · rintro ⟨hc, hle⟩
    by_contra hne
    exact absurd (hle a h.1) (not_le.2 (h.2 c hc hne))
  · rintro rfl
    refine ⟨h.1, fun d hd => ?_⟩
    by_cases hd' : d = c
    · rw [hd']
    · exact (h.2 d hd hd').le

theorem meanType2_ok {n : Nat} (hn : 0 < n) {q : SQFn P σ (List ℝ) D} {t : σ → Nat → D} (ht : Computes n t (q.forward q.params)) (S : List σ) :
    meanType2 n q S = .ok (S.map (fun s => (List.range n).map (fun a => q.dist.mean (t s a)))) := by
  unfold meanType2
  rw [(C55_agree hn ht S).1]
  simp only
  rw [if_neg (by simp), List.map_map]
  congr 2
  funext s
  simp

/-- The greedy actions are one-hot where there is one best action. -/
theorem greedy_rows {n : Nat} (hn : 0 < n) (m : σ → Nat → ℝ) (S : List σ) :
    ∃ A : List (List ℝ), greedy n (S.map (fun s => (List.range n).map (m s))) = .ok A ∧ (S.map (fun s => (List.range n).map (m s))).mapM greedyRow = .ok A ∧
      A.length = S.length ∧ (∀ a ∈ A, a.length = n) ∧
      ∀ (i : Nat) (s : σ) (a : Nat), S[i]? = some s → BestMean n (m s) a → A[i]? = some (oneHot n a) := by
  refine ⟨_, greedy_ok hn m S, greedy_table hn m S, by simp, by simp, ?_⟩
  intro i s a h1 h2
  rw [List.getElem?_map, h1]
  exact congrArg some (greedy_oneHot (maximisers_of_best h2))

/-- C70 for Sarsa: the distribution of the next state and the recorded next action. -/
theorem C70_sarsa {n : Nat} {qTarg : SQFn P σ (List ℝ) D} {b : TBatch σ (List ℝ)} (hb : WellFormed b) {t : σ → Nat → D} (ht : Computes n t (qTarg.forward qTarg.params))
    {acts : List Nat} (hA : b.A_next = acts.map (oneHot n)) (hl : acts.length = b.S_next.length) (ha : ∀ a ∈ acts, a < n) :
    DistBootstraps qTarg.dist qTarg.transform qTarg.inverse b (fun i s p => ∀ a, acts[i]? = some a → p = t s a) (stochSarsa n qTarg b) := by
  obtain ⟨ds, h1, h2, h3⟩ := functionType1_rows ht (S := b.S_next) (A := b.A_next) (by rw [hA]; simp [hl]) (by rw [hA]; simp [length_oneHot])
  unfold stochSarsa targetDist
  rw [h1]
  refine distBootstraps_rows hb h2 ?_
  intro i s p hs hp a hac
  have := h3 i s a hs (by rw [hA, List.getElem?_map, hac]; rfl) (ha a (List.mem_of_getElem? hac))
  rw [this] at hp
  exact (Option.some.inj hp).symm

/-- C70 for QLearning: where one action has the greatest mean under `q_targ`, its distribution. -/
theorem C70_qLearning {n : Nat} (hn : 0 < n) {qTarg : SQFn P σ (List ℝ) D} {b : TBatch σ (List ℝ)} (hb : WellFormed b) {t : σ → Nat → D} (ht : Computes n t (qTarg.forward qTarg.params)) :
    DistBootstraps qTarg.dist qTarg.transform qTarg.inverse b (fun _ s p => ∀ a, BestMean n (fun c => qTarg.dist.mean (t s c)) a → p = t s a) (stochQLearning n qTarg b) := by
  unfold stochQLearning
  rw [meanType2_ok hn ht]
  simp only
  obtain ⟨A, hA, -, hAl, hAn, hAb⟩ := greedy_rows hn (fun s a => qTarg.dist.mean (t s a)) b.S_next
  rw [hA]
  simp only
  obtain ⟨ds, h1, h2, h3⟩ := functionType1_rows ht hAl hAn
  rw [h1]
  refine distBootstraps_rows hb h2 ?_
  intro i s p hs hp a hac
  have := h3 i s a hs (hAb i s a hs hac) hac.1
  rw [this] at hp
  exact (Option.some.inj hp).symm

/-- C70 for DoubleQLearning: where one action has the greatest mean under `q_targ`, its distribution under `q` (if both have the same forward function). -/
theorem C70_doubleQLearning {n : Nat} (hn : 0 < n) {q qTarg : SQFn P σ (List ℝ) D} {b : TBatch σ (List ℝ)} (hb : WellFormed b) {t u : σ → Nat → D}
    (ht : Computes n t (qTarg.forward qTarg.params)) (hu : Computes n u (q.forward q.params)) (hf : q.forward = qTarg.forward) :
    DistBootstraps qTarg.dist qTarg.transform qTarg.inverse b (fun _ s p => ∀ a, BestMean n (fun c => qTarg.dist.mean (t s c)) a → p = u s a) (stochDoubleQLearning n q qTarg b) := by
  unfold stochDoubleQLearning
  rw [meanType2_ok hn ht]
  simp only
  obtain ⟨A, hA, -, hAl, hAn, hAb⟩ := greedy_rows hn (fun s a => qTarg.dist.mean (t s a)) b.S_next
  rw [hA]
  simp only
  rw [← hf]
  obtain ⟨ds, h1, h2, h3⟩ := functionType1_rows hu hAl hAn
  rw [h1]
  refine distBootstraps_rows hb h2 ?_
  intro i s p hs hp a hac
  have := h3 i s a hs (hAb i s a hs hac) hac.1
  rw [this] at hp
  exact (Option.some.inj hp).symm

end

/-- C70 for SimpleTD: the distribution of the next state. -/
theorem C70_simpleTD {vTarg : SVFn P σ D} {b : TBatch σ α} (hb : WellFormed b) {t : σ → D} (ht : ∀ S, vTarg.forward vTarg.params S = S.map t) :
    DistBootstraps vTarg.dist vTarg.transform vTarg.inverse b (fun _ s p => p = t s) (stochSimpleTD vTarg b) := by
  unfold stochSimpleTD
  rw [ht]
  refine distBootstraps_rows hb (by simp) ?_
  intro i s p hs hp
  rw [List.getElem?_map, hs] at hp
  exact (Option.some.inj hp).symm

/-- A distributional q-function for any action space whose rows do not influence each other. -/
def DistAt (t : σ → α → D) (F : Func σ α D) : Prop := ∃ f, F = .type1 f ∧ ∀ S A, f S A = List.zipWith t S A

theorem evalDist_at {t : σ → α → D} {F : Func σ α D} (h : DistAt t F) (S : List σ) (A : List α) : evalDist F S A = .ok (List.zipWith t S A) := by
  obtain ⟨f, rfl, hf⟩ := h
  simp [evalDist, hf]

/-- C70 for QLearning and other action spaces: the distribution at the mode of the target policy. -/
theorem C70_qLearningCont {qTarg : SQFn P σ α D} {b : TBatch σ α} (hb : WellFormed b) {mode : List σ → List α} {act : σ → α} (hact : ∀ S, mode S = S.map act)
    {t : σ → α → D} (ht : DistAt t (qTarg.forward qTarg.params)) :
    DistBootstraps qTarg.dist qTarg.transform qTarg.inverse b (fun _ s p => p = t s (act s)) (stochQLearningCont mode qTarg b) := by
  unfold stochQLearningCont targetDist
  rw [evalDist_at ht, hact]
  refine distBootstraps_rows hb (by simp) ?_
  intro i s p hs hp
  rw [List.getElem?_zipWith, List.getElem?_map, hs] at hp
  exact (Option.some.inj hp).symm

/-- C70 for DoubleQLearning and other action spaces: the distribution under `q` at the mode of the target policy. -/
theorem C70_doubleQLearningCont {q qTarg : SQFn P σ α D} {b : TBatch σ α} (hb : WellFormed b) {mode : List σ → List α} {act : σ → α} (hact : ∀ S, mode S = S.map act)
    {t : σ → α → D} (ht : DistAt t (q.forward q.params)) (hf : q.forward = qTarg.forward) :
    DistBootstraps qTarg.dist qTarg.transform qTarg.inverse b (fun _ s p => p = t s (act s)) (stochDoubleQLearningCont mode q qTarg b) := by
  unfold stochDoubleQLearningCont targetDist
  rw [← hf, evalDist_at ht, hact]
  refine distBootstraps_rows hb (by simp) ?_
  intro i s p hs hp
  rw [List.getElem?_zipWith, List.getElem?_map, hs] at hp
  exact (Option.some.inj hp).symm

/-! Clipped double q-learning. -/

theorem argmin_ok {l : List ℝ} (hl : l ≠ []) : ∃ k x, argmin l = .ok k ∧ l[k]? = some x ∧ ∀ y ∈ l, x ≤ y := by
  unfold argmin
  cases hm : l.min? with
  | none => exact absurd (List.min?_eq_none_iff.1 hm) hl
  | some m =>
    obtain ⟨h1, h2⟩ := List.min?_eq_some_iff.1 hm
    exact ⟨l.idxOf m, m, rfl, by simp [List.getElem?_idxOf h1], h2⟩

/-- Position `k` of a list of rows of equal length. -/
theorem flatten_get {β : Type _} {L : List (List β)} {w : Nat} (hL : ∀ l ∈ L, l.length = w) {k : Nat} (hk : k < L.flatten.length) :
    ∃ l, L[k / w]? = some l ∧ L.flatten[k]? = l[k % w]? := by
  induction L generalizing k with
  | nil => simp at hk
  | cons l L ih =>
    have hl := hL l (by simp)
    by_cases hkw : k < w
    · refine ⟨l, by simp [Nat.div_eq_of_lt hkw], ?_⟩
      rw [List.flatten_cons, List.getElem?_append_left (by omega), Nat.mod_eq_of_lt hkw]
    · have hw : 0 < w := by
        rcases Nat.eq_zero_or_pos w with h0 | h0
        · exfalso
          have : (l :: L).flatten = [] := by
            rw [List.flatten_eq_nil_iff]
            intro x hx
            exact List.eq_nil_of_length_eq_zero (by rw [hL x hx, h0])
          rw [this] at hk; simp at hk
        · exact h0
      rw [List.flatten_cons, List.length_append] at hk
      obtain ⟨x, hx1, hx2⟩ := ih (fun y hy => hL y (by simp [hy])) (k := k - w) (by omega)
      have hkk : k = (k - w) + w := by omega
      refine ⟨x, ?_, ?_⟩
      · rw [hkk, Nat.add_div_right _ hw]; simpa using hx1
      · rw [List.flatten_cons, List.getElem?_append_right (by omega), hl, hx2]
        congr 1
        conv_rhs => rw [hkk, Nat.add_mod_right]

/-- The selection of the pair, for values and distributions that are functions of the row.  `acts i` are the actions chosen by index `i`; `x i j s` is the value that target q-function `j` gives
to action `i` in state `s`. -/
theorem clippedSelect_ok {evalRow : Func σ α D → List σ → List α → Except Err (List D)} {q : SQFn P σ α D} {qs : List (SQFn P σ α D)} (hqs : qs ≠ []) {b : TBatch σ α} (hb : WellFormed b)
    {I : Nat} (hI : 0 < I) {acts : Nat → List α} {vals : Nat → SQFn P σ α D → List ℝ} (hacts : ∀ i < I, (acts i).length = b.S_next.length)
    (hvals : ∀ i < I, ∀ qj ∈ qs, (vals i qj).length = b.S_next.length) {row : SQFn P σ α D → σ → α → D}
    (hrow : ∀ i < I, ∀ qj ∈ qs, ∀ (r : Nat) (s : σ) (a : α), b.S_next[r]? = some s → (acts i)[r]? = some a → evalRow (q.forward qj.params) [s] [a] = .ok [row qj s a]) :
    DistBootstraps q.dist q.transform q.inverse b
      (fun r s p => ∃ i < I, ∃ qj ∈ qs, ∃ a x, (acts i)[r]? = some a ∧ (vals i qj)[r]? = some x ∧ p = row qj s a ∧ ∀ i' < I, ∀ qj' ∈ qs, ∀ y, (vals i' qj')[r]? = some y → x ≤ y)
      (clippedSelect evalRow q qs ((List.range I).map (fun i => qs.map (fun qj => (acts i, vals i qj)))).flatten b) := by
  let pairs := ((List.range I).map (fun i => qs.map (fun qj => (acts i, vals i qj)))).flatten
  have hmem : ∀ p ∈ pairs, ∃ i < I, ∃ qj ∈ qs, p = (acts i, vals i qj) := by
    intro p hp
    simp only [pairs, List.mem_flatten, List.mem_map, List.mem_range] at hp
    obtain ⟨l, ⟨i, hi, rfl⟩, hp⟩ := hp
    obtain ⟨qj, hqj, rfl⟩ := List.mem_map.1 hp
    exact ⟨i, hi, qj, hqj, rfl⟩
  have hmem' : ∀ i < I, ∀ qj ∈ qs, (acts i, vals i qj) ∈ pairs := by
    intro i hi qj hqj
    simp only [pairs, List.mem_flatten, List.mem_map, List.mem_range]
    exact ⟨_, ⟨i, hi, rfl⟩, List.mem_map.2 ⟨qj, hqj, rfl⟩⟩
  have hne : pairs ≠ [] := by
    obtain ⟨q0, h0⟩ := List.exists_mem_of_ne_nil qs hqs
    exact List.ne_nil_of_mem (hmem' 0 hI q0 h0)
  -- one row
  have key : ∀ r < b.S_next.length, ∃ o : Option D, (do
      let vals ← pairs.mapM (fun p => match p.2[r]? with | some x => .ok x | none => .error Err.valueError)
      let k ← argmin vals
      match pairs[k]?, qs[k % qs.length]?, b.S_next[r]?, b.Rn[r]?, b.In[r]? with
      | some p, some qj, some s, some rn, some inn => match p.1[r]? with
        | none => .error .valueError
        | some a => match evalRow (q.forward qj.params) [s] [a] with
          | .error e => .error e
          | .ok [d] => .ok (q.dist.affine inn rn q.transform q.inverse d)
          | .ok _ => .error .valueError
      | _, _, _, _, _ => .error .valueError : Except Err (Option D)) = .ok o ∧
      ∀ (rr d : ℝ) (s : σ), b.Rn[r]? = some rr → b.In[r]? = some d → b.S_next[r]? = some s →
        ∃ p, (∃ i < I, ∃ qj ∈ qs, ∃ a x, (acts i)[r]? = some a ∧ (vals i qj)[r]? = some x ∧ p = row qj s a ∧ ∀ i' < I, ∀ qj' ∈ qs, ∀ y, (vals i' qj')[r]? = some y → x ≤ y) ∧
          o = q.dist.affine d rr q.transform q.inverse p := by
    intro r hr
    have hv : ∀ p ∈ pairs, (match p.2[r]? with | some x => .ok x | none => .error Err.valueError : Except Err ℝ) = .ok (p.2[r]?.getD 0) := by
      intro p hp
      obtain ⟨i, hi, qj, hqj, rfl⟩ := hmem p hp
      have : r < (vals i qj).length := by rw [hvals i hi qj hqj]; exact hr
      simp only
      rw [List.getElem?_eq_getElem this]; rfl
    rw [mapM_ok hv]
    obtain ⟨k, x, hk, hkx, hkmin⟩ := argmin_ok (l := pairs.map (fun p => p.2[r]?.getD 0)) (by simpa using hne)
    have hkl : k < pairs.length := by
      have := (List.getElem?_eq_some_iff.1 hkx).1
      simpa using this
    obtain ⟨l, hl1, hl2⟩ := flatten_get (L := (List.range I).map (fun i => qs.map (fun qj => (acts i, vals i qj)))) (w := qs.length) (by simp) hkl
    have hwpos : 0 < qs.length := List.length_pos_iff.2 hqs
    have hmod : k % qs.length < qs.length := Nat.mod_lt _ hwpos
    obtain ⟨hil, hli⟩ := List.getElem?_eq_some_iff.1 hl1
    rw [List.length_map, List.length_range] at hil
    simp only [List.getElem_map, List.getElem_range] at hli
    set i := k / qs.length with hi
    set qj := qs[k % qs.length] with hqj
    have hqjm : qj ∈ qs := List.getElem_mem _
    have hpk : pairs[k]? = some (acts i, vals i qj) := by
      show ((List.range I).map _).flatten[k]? = _
      rw [hl2, ← hli, List.getElem?_map, List.getElem?_eq_getElem hmod]; rfl
    have hR : r < b.Rn.length := by rw [hb.rn]; exact hr
    have hIn : r < b.In.length := by rw [hb.inn]; exact hr
    have ha : r < (acts i).length := by rw [hacts i hil]; exact hr
    have hvi : r < (vals i qj).length := by rw [hvals i hil qj hqjm]; exact hr
    have hev := hrow i hil qj hqjm r _ _ (List.getElem?_eq_getElem hr) (List.getElem?_eq_getElem ha)
    refine ⟨q.dist.affine b.In[r] b.Rn[r] q.transform q.inverse (row qj b.S_next[r] (acts i)[r]), ?_, ?_⟩
    · simp only [bind, Except.bind]
      rw [hk]
      simp only
      rw [hpk, List.getElem?_eq_getElem hmod, List.getElem?_eq_getElem hr, List.getElem?_eq_getElem hR, List.getElem?_eq_getElem hIn]
      simp only
      rw [List.getElem?_eq_getElem ha]
      simp only
      rw [← hqj, hev]
    · intro rr d s e1 e2 e3
      rw [List.getElem?_eq_getElem hR] at e1
      rw [List.getElem?_eq_getElem hIn] at e2
      rw [List.getElem?_eq_getElem hr] at e3
      cases e1; cases e2; cases e3
      refine ⟨_, ⟨i, hil, qj, hqjm, (acts i)[r], (vals i qj)[r], List.getElem?_eq_getElem ha, List.getElem?_eq_getElem hvi, rfl, ?_⟩, rfl⟩
      intro i' hi' qj' hqj' y hy
      rw [List.getElem?_map, hpk, Option.map_some, Option.some.injEq] at hkx
      rw [List.getElem?_eq_getElem hvi] at hkx
      have hx : (vals i qj)[r] = x := hkx
      rw [hx]
      refine hkmin y (List.mem_map.2 ⟨_, hmem' i' hi' qj' hqj', ?_⟩)
      simp [hy]
  choose! o ho using key
  refine ⟨(List.range b.S_next.length).map o, ?_, by simp, ?_⟩
  · unfold clippedSelect
    exact mapM_ok (fun r hr => (ho r (List.mem_range.1 hr)).1)
  · intro r rr d s h1 h2 h3
    have hr : r < b.S_next.length := (List.getElem?_eq_some_iff.1 h3).1
    obtain ⟨p, hp, hop⟩ := (ho r hr).2 rr d s h1 h2 h3
    refine ⟨p, hp, ?_⟩
    rw [List.getElem?_map, List.getElem?_range hr, Option.map_some, hop]

/-- C70 for ClippedDoubleQLearning (and SoftClippedDoubleQLearning) with other action spaces: of all pairs of a target policy and a target q-function, the distribution of one
whose mean, transformed back, is least. -/
theorem C70_clippedCont {q : SQFn P σ α D} {qs : List (SQFn P σ α D)} (hqs : qs ≠ []) {b : TBatch σ α} (hb : WellFormed b) {modes : List (List σ → List α)} (hmodes : modes ≠ [])
    (act : (List σ → List α) → σ → α) (hact : ∀ mode ∈ modes, ∀ S, mode S = S.map (act mode))
    (t : SQFn P σ α D → σ → α → D) (ht : ∀ qj ∈ qs, DistAt (t qj) (qj.forward qj.params)) (hf : ∀ qj ∈ qs, q.forward = qj.forward) :
    DistBootstraps q.dist q.transform q.inverse b
      (fun _ s p => ∃ mode ∈ modes, ∃ qj ∈ qs, p = t qj s (act mode s) ∧
        ∀ mode' ∈ modes, ∀ qj' ∈ qs, qj.inverse (qj.dist.mean (t qj s (act mode s))) ≤ qj'.inverse (qj'.dist.mean (t qj' s (act mode' s))))
      (stochClippedDoubleQCont modes q qs b) := by
  have hI : 0 < modes.length := List.length_pos_iff.2 hmodes
  let m : Nat → List σ → List α := fun i => modes[i]?.getD (fun _ => [])
  have hm : ∀ i < modes.length, m i ∈ modes := fun i hi => by simp only [m]; rw [List.getElem?_eq_getElem hi]; exact List.getElem_mem hi
  have hmr : (List.range modes.length).map m = modes := by
    apply List.ext_getElem
    · simp
    · intro i h1 h2; simp [m, h2]
  have hz : ∀ (qj : SQFn P σ α D) (mode : List σ → List α), List.zipWith (t qj) b.S_next (b.S_next.map (act mode)) = b.S_next.map (fun s => t qj s (act mode s)) := by
    intro qj mode
    apply List.ext_getElem
    · simp
    · intro i h1 h2; simp
  have hin : modes.mapM (fun mode => clippedInner evalDist qs b.S_next (mode b.S_next))
      = .ok (modes.map (fun mode => qs.map (fun qj => (b.S_next.map (act mode), b.S_next.map (fun s => qj.inverse (qj.dist.mean (t qj s (act mode s)))))))) := by
    refine mapM_ok (fun mode hmode => ?_)
    unfold clippedInner
    refine mapM_ok (fun qj hqj => ?_)
    rw [evalDist_at (ht qj hqj), hact mode hmode, hz]
    simp [Except.map]
  unfold stochClippedDoubleQCont
  rw [hin]
  simp only
  have := clippedSelect_ok (evalRow := evalDist) (q := q) hqs hb hI (acts := fun i => b.S_next.map (act (m i)))
    (vals := fun i qj => b.S_next.map (fun s => qj.inverse (qj.dist.mean (t qj s (act (m i) s))))) (by simp) (by simp) (row := t) (by
      intro i _ qj hqj r s a _ _
      rw [hf qj hqj, evalDist_at (ht qj hqj)]; rfl)
  rw [show modes.map (fun mode => qs.map (fun qj => (b.S_next.map (act mode), b.S_next.map (fun s => qj.inverse (qj.dist.mean (t qj s (act mode s)))))))
      = (List.range modes.length).map (fun i => qs.map (fun qj => (b.S_next.map (act (m i)), b.S_next.map (fun s => qj.inverse (qj.dist.mean (t qj s (act (m i) s))))))) by
    conv_lhs => rw [← hmr, List.map_map]
    rfl]
  obtain ⟨G, hG, hl, hr⟩ := this
  refine ⟨G, hG, hl, ?_⟩
  intro r rr d s h1 h2 h3
  obtain ⟨p, ⟨i, hi, qj, hqj, a, x, ha, hx, hp, hmin⟩, hg⟩ := hr r rr d s h1 h2 h3
  refine ⟨p, ⟨m i, hm i hi, qj, hqj, ?_, ?_⟩, hg⟩
  · rw [List.getElem?_map, h3, Option.map_some, Option.some.injEq] at ha
    rw [hp, ← ha]
  · intro mode' hmode' qj' hqj'
    rw [List.getElem?_map, h3, Option.map_some, Option.some.injEq] at hx
    rw [hx]
    obtain ⟨i', hi', rfl⟩ := List.getElem_of_mem hmode'
    refine hmin i' hi' qj' hqj' _ ?_
    rw [List.getElem?_map, h3, Option.map_some]
    simp [m, hi']

/-- C70 for ClippedDoubleQLearning with discrete actions, in the rows where each target q-function has one best action: of all pairs of target q-functions, the distribution, under the second, of
the best action of the first, for a pair for which its mean, transformed back, is least. -/
theorem C70_clipped [AddCommGroup D] [Module ℝ D] {n : Nat} (hn : 0 < n) {q : SQFn P σ (List ℝ) D} {qs : List (SQFn P σ (List ℝ) D)} (hqs : qs ≠ []) {b : TBatch σ (List ℝ)} (hb : WellFormed b)
    (t : SQFn P σ (List ℝ) D → σ → Nat → D) (ht : ∀ qj ∈ qs, Computes n (t qj) (qj.forward qj.params)) (hf : ∀ qj ∈ qs, q.forward = qj.forward) :
    DistBootstraps q.dist q.transform q.inverse b
      (fun _ s p => ∀ act : SQFn P σ (List ℝ) D → Nat, (∀ qi ∈ qs, BestMean n (fun c => qi.dist.mean (t qi s c)) (act qi)) →
        ∃ qi ∈ qs, ∃ qj ∈ qs, p = t qj s (act qi) ∧
          ∀ qi' ∈ qs, ∀ qj' ∈ qs, qj.inverse (qj.dist.mean (t qj s (act qi))) ≤ qj'.inverse (qj'.dist.mean (t qj' s (act qi'))))
      (stochClippedDoubleQ n q qs b) := by
  have hI : 0 < qs.length := List.length_pos_iff.2 hqs
  have hA := fun qi : SQFn P σ (List ℝ) D => greedy_rows hn (fun s a => qi.dist.mean (t qi s a)) b.S_next
  choose A hA1 hA2 hA3 hA4 hA5 using hA
  have hds : ∀ qi qj, qj ∈ qs → ∃ ds, functionType1 n (qj.forward qj.params) b.S_next (A qi) = .ok ds ∧ ds.length = b.S_next.length ∧
      ∀ (i : Nat) (s : σ) (a : Nat), b.S_next[i]? = some s → (A qi)[i]? = some (oneHot n a) → a < n → ds[i]? = some (t qj s a) :=
    fun qi qj hqj => functionType1_rows (ht qj hqj) (hA3 qi) (hA4 qi)
  choose! ds hds1 hds2 hds3 using hds
  -- the rows of a single state
  have hsingle : ∀ qi qj, qj ∈ qs → ∀ (r : Nat) (s : σ) (a : List ℝ), b.S_next[r]? = some s → (A qi)[r]? = some a →
      ∃ d, functionType1 n (qj.forward qj.params) [s] [a] = .ok [d] ∧ ∀ c, c < n → a = oneHot n c → d = t qj s c := by
    intro qi qj hqj r s a hs ha
    obtain ⟨out, h1, h2, h3⟩ := functionType1_rows (ht qj hqj) (S := [s]) (A := [a]) rfl (by
      intro x hx; rw [List.mem_singleton.1 hx]; exact hA4 qi a (List.mem_of_getElem? ha))
    match out, h2 with
    | [d], _ =>
      refine ⟨d, h1, ?_⟩
      rintro c hc rfl
      have := h3 0 s c rfl rfl hc
      simpa using this
  have hrow : ∃ row : SQFn P σ (List ℝ) D → σ → List ℝ → D, ∀ qi qj, qj ∈ qs → ∀ (r : Nat) (s : σ) (a : List ℝ), b.S_next[r]? = some s → (A qi)[r]? = some a →
      functionType1 n (qj.forward qj.params) [s] [a] = .ok [row qj s a] ∧ ∀ c, c < n → a = oneHot n c → row qj s a = t qj s c := by
    classical
    refine ⟨fun qj s a => if h : ∃ d, functionType1 n (qj.forward qj.params) [s] [a] = .ok [d] ∧ ∀ c, c < n → a = oneHot n c → d = t qj s c then h.choose else 0, ?_⟩
    intro qi qj hqj r s a hs ha
    have h := hsingle qi qj hqj r s a hs ha
    simp only [dif_pos h]
    exact h.choose_spec
  obtain ⟨row, hrow⟩ := hrow
  have hin : clippedPairs n qs b.S_next
      = .ok (qs.map (fun qi => qs.map (fun qj => (A qi, (ds qi qj).map (fun d => qj.inverse (qj.dist.mean d)))))) := by
    unfold clippedPairs
    refine mapM_ok (fun qi hqi => ?_)
    rw [meanType2_ok hn (ht qi hqi)]
    simp only
    rw [hA2 qi]
    simp only
    unfold clippedInner
    refine mapM_ok (fun qj hqj => ?_)
    rw [hds1 qi qj hqj]
    rfl
  let m : Nat → SQFn P σ (List ℝ) D := fun i => qs[i]?.getD q
  have hm : ∀ i < qs.length, m i ∈ qs := fun i hi => by simp only [m]; rw [List.getElem?_eq_getElem hi]; exact List.getElem_mem hi
  have hmr : (List.range qs.length).map m = qs := by
    apply List.ext_getElem
    · simp
    · intro i h1 h2; simp [m, h2]
  unfold stochClippedDoubleQ
  rw [hin]
  simp only
  have := clippedSelect_ok (evalRow := functionType1 n) (q := q) hqs hb hI (acts := fun i => A (m i))
    (vals := fun i qj => (ds (m i) qj).map (fun d => qj.inverse (qj.dist.mean d))) (fun i _ => hA3 _) (by
      intro i _ qj hqj
      rw [List.length_map, hds2 (m i) qj hqj]) (row := row) (by
      intro i _ qj hqj r s a hs ha
      rw [hf qj hqj]
      exact (hrow (m i) qj hqj r s a hs ha).1)
  rw [show qs.map (fun qi => qs.map (fun qj => (A qi, (ds qi qj).map (fun d => qj.inverse (qj.dist.mean d)))))
      = (List.range qs.length).map (fun i => qs.map (fun qj => (A (m i), (ds (m i) qj).map (fun d => qj.inverse (qj.dist.mean d))))) by
    conv_lhs => rw [← hmr, List.map_map]
    simp only [hmr]
    rfl]
  obtain ⟨G, hG, hl, hr⟩ := this
  refine ⟨G, hG, hl, ?_⟩
  intro r rr d s h1 h2 h3
  obtain ⟨p, ⟨i, hi, qj, hqj, a, x, ha, hx, hp, hmin⟩, hg⟩ := hr r rr d s h1 h2 h3
  refine ⟨p, ?_, hg⟩
  intro act hbest
  have hget : ∀ qi ∈ qs, ∀ qj ∈ qs, ((ds qi qj).map (fun d => qj.inverse (qj.dist.mean d)))[r]? = some (qj.inverse (qj.dist.mean (t qj s (act qi)))) := by
    intro qi hqi qj hqj
    rw [List.getElem?_map, hds3 qi qj hqj r s (act qi) h3 (hA5 qi r s _ h3 (hbest qi hqi)) (hbest qi hqi).1]
    rfl
  refine ⟨m i, hm i hi, qj, hqj, ?_, ?_⟩
  · rw [hp]
    refine (hrow (m i) qj hqj r s a h3 ha).2 _ (hbest _ (hm i hi)).1 ?_
    have := hA5 (m i) r s _ h3 (hbest _ (hm i hi))
    rw [ha] at this
    exact Option.some.inj this
  · intro qi' hqi' qj' hqj'
    rw [hget (m i) (hm i hi) qj hqj, Option.some.injEq] at hx
    rw [hx]
    obtain ⟨i', hi', rfl⟩ := List.getElem_of_mem hqi'
    refine hmin i' hi' qj' hqj' _ ?_
    have : m i' = qs[i'] := by simp [m, hi']
    rw [this]
    exact hget _ hqi' qj' hqj'

/-! What the affine transform is, and terminal transitions. -/

/-- C70.  For quantile distributions the values of the target are `f (Rn + In * f_inv v)` of the next values; the fractions are kept. -/
theorem C70_quantile (k : Nat) (scale shift : ℝ) (f fInv : ℝ → ℝ) (d : (Fin k → ℝ) × (Fin k → ℝ)) :
    ∃ out, (quantileDist k).affine scale shift f fInv d = some out ∧ (∀ i, out.1 i = f (shift + scale * fInv (d.1 i))) ∧ out.2 = d.2 ∧
      List.ofFn out.1 = quantileAffine (List.ofFn d.1) scale shift f fInv := by
  refine ⟨_, rfl, fun _ => rfl, rfl, ?_⟩
  simp [quantileAffine, List.map_ofFn, Function.comp_def]

/-- C70.  For the discretized interval the masses of the target are, up to `2 k·1e-16` in total, those of the projection of C48: their mean is that of the clipped `f (In * f_inv z + Rn)`. -/
theorem C70_interval {k : Nat} (hk : 2 ≤ k) {low high : ℝ} (hlh : low < high) (scale shift : ℝ) (f fInv : ℝ → ℝ) (logits : Fin k → ℝ) :
    ∃ (m out : Fin k → ℝ), (intervalDist (by omega : 0 < k) low high).affine scale shift f fInv logits = some out ∧ (∀ j, 0 ≤ m j) ∧ ∑ j, m j = 1 ∧
      ∑ j, m j * Dists.atoms k low high j
        = ∑ j, Dists.softmax logits j * Dists.clip (f (scale * fInv (Dists.atoms k low high j) + shift)) (Dists.atoms k low high ⟨0, by omega⟩) (Dists.atoms k low high ⟨k - 1, by omega⟩) ∧
      ∑ j, |Dists.softmax out j - m j| ≤ 2 * k * 1e-16 := by
  obtain ⟨m, out, h1, h2, h3, h4, -, -, h7⟩ := Dists.C48_output hk hlh logits scale shift f fInv
  obtain ⟨m', h1', -, -, h5⟩ := Dists.C48_projection hk hlh (Dists.softmax logits) scale shift f fInv
  rw [h1] at h1'
  cases h1'
  exact ⟨m, out, h2, h3, h4, h5, h7⟩

/-- C70.  A terminal transition has a target that does not depend on the next state: with quantiles all values are `f Rn`. -/
theorem C70_terminal_quantile (k : Nat) (r : ℝ) (f fInv : ℝ → ℝ) (d : (Fin k → ℝ) × (Fin k → ℝ)) :
    (quantileDist k).affine 0 r f fInv d = some (fun _ => f r, d.2) := by
  simp [quantileDist]

/-- C70.  The same with a discretized interval: the target is that of any other next distribution, and all its mass lies (up to the floor of `1e-16`) next to `f Rn`, if that is in the range of the atoms. -/
theorem C70_terminal_interval {k : Nat} (hk : 2 ≤ k) {low high : ℝ} (hlh : low < high) (r : ℝ) (f fInv : ℝ → ℝ) (d : Fin k → ℝ) :
    (∀ d', (intervalDist (by omega : 0 < k) low high).affine 0 r f fInv d = (intervalDist (by omega : 0 < k) low high).affine 0 r f fInv d') ∧
    ∃ m, Dists.project (by omega : 0 < k) (Dists.atoms k low high) (Dists.softmax d) 0 r f fInv = some m ∧
      ∑ j, m j * Dists.atoms k low high j = Dists.clip (f r) (Dists.atoms k low high ⟨0, by omega⟩) (Dists.atoms k low high ⟨k - 1, by omega⟩) := by
  have hp : ∀ d : Fin k → ℝ, ∃ m, Dists.project (by omega : 0 < k) (Dists.atoms k low high) (Dists.softmax d) 0 r f fInv = some m ∧
      ∀ j, m j = Dists.hat (Dists.pos k low high (Dists.clip (f r) (Dists.atoms k low high ⟨0, by omega⟩) (Dists.atoms k low high ⟨k - 1, by omega⟩))) j.1 := by
    intro d
    obtain ⟨m, hm, hk'⟩ := Dists.project_eq hk hlh (Dists.softmax d) 0 r f fInv
    refine ⟨m, hm, fun j => ?_⟩
    rw [hk']
    unfold Dists.target
    simp only [zero_mul, zero_add]
    rw [← Finset.sum_mul, Dists.softmax_sum (by omega), one_mul]
  refine ⟨?_, ?_⟩
  · intro d'
    obtain ⟨m, hm, hj⟩ := hp d
    obtain ⟨m', hm', hj'⟩ := hp d'
    have : m = m' := by funext j; rw [hj, hj']
    simp only [intervalDist, Dists.affineTransform, hm, hm', this]
  · obtain ⟨m, hm, -, -, h5⟩ := Dists.C48_projection hk hlh (Dists.softmax d) 0 r f fInv
    refine ⟨m, hm, ?_⟩
    rw [h5]
    simp only [zero_mul, zero_add]
    rw [← Finset.sum_mul, Dists.softmax_sum (by omega), one_mul]

/-- The hypotheses of C70 can be met: quantile q-functions with two actions, the second of which is better, two target q-functions that disagree on its value, and a terminal transition. -/
example : ∃ (q q' : SQFn ℝ Unit (List ℝ) ((Fin 2 → ℝ) × (Fin 2 → ℝ))) (b : TBatch Unit (List ℝ)) (t t' : Unit → Nat → (Fin 2 → ℝ) × (Fin 2 → ℝ)), WellFormed b ∧
    Computes 2 t (q.forward q.params) ∧ Computes 2 t' (q'.forward q'.params) ∧ q.forward = q'.forward ∧ q.dist = quantileDist 2 ∧
    BestMean 2 (fun c => q.dist.mean (t () c)) 1 ∧ q.dist.mean (t () 1) ≠ q'.dist.mean (t' () 1) ∧ b.In = [1, 0] := by
  let F : ℝ → Func Unit (List ℝ) ((Fin 2 → ℝ) × (Fin 2 → ℝ)) := fun w => .type2 (fun S => S.map (fun _ => (List.range 2).map (fun a => ((fun i => w * a * (i.1 + 1)), fun _ => 1))))
  refine ⟨⟨F, 2, quantileDist 2, id, id⟩, ⟨F, 3, quantileDist 2, id, id⟩, ⟨[5, 7], [1, 0], [(), ()], []⟩, fun _ a => ((fun i => 2 * a * (i.1 + 1)), fun _ => 1),
    fun _ a => ((fun i => 3 * a * (i.1 + 1)), fun _ => 1), ⟨rfl, rfl⟩, .type2 _ (fun _ => rfl), .type2 _ (fun _ => rfl), rfl, rfl, ⟨by norm_num, ?_⟩, ?_, rfl⟩
  · intro c hc hne
    obtain rfl : c = 0 := by omega
    simp [quantileDist, Fin.sum_univ_two]; norm_num
  · simp [quantileDist, Fin.sum_univ_two]; norm_num

/-! ### C71 -/

/-- The probability of action `a` for the logits `l`. -/
noncomputable def prob (n : Nat) (l : Nat → ℝ) (a : Nat) : ℝ := Real.exp (l a) / ∑ c ∈ Finset.range n, Real.exp (l c)

theorem softmax_range (n : Nat) (l : Nat → ℝ) : softmax ((List.range n).map l) = (List.range n).map (prob n l) := by
  unfold softmax
  rw [List.map_map, List.map_map, sum_map_range]
  rfl

theorem dot_range [AddCommGroup D] [Module ℝ D] (n : Nat) (w : Nat → ℝ) (q : Nat → D) : dot ((List.range n).map w) ((List.range n).map q) = ∑ a ∈ Finset.range n, w a • q a := by
  induction n with
  | zero => simp [dot]
  | succ n ih =>
    unfold dot at ih ⊢
    rw [List.range_succ, List.map_append, List.map_append, List.zipWith_append (by simp), List.sum_append, ih, Finset.sum_range_succ]
    simp

/-- With a type-2 q-function, ExpectedSarsa averages the distribution parameters of the actions, weighted by the target policy. -/
theorem stochExpectedSarsa_type2 [AddCommGroup D] [Module ℝ D] {n : Nat} {qTarg : SQFn P σ (List ℝ) D} {b : TBatch σ (List ℝ)} (hb : WellFormed b) {t : σ → Nat → D} {l : σ → Nat → ℝ}
    {f : List σ → List (List D)} (hf : qTarg.forward qTarg.params = .type2 f) (ht : Computes n t (.type2 f)) :
    DistBootstraps qTarg.dist qTarg.transform qTarg.inverse b (fun _ s p => p = ∑ a ∈ Finset.range n, prob n (l s) a • t s a)
      (stochExpectedSarsa n (fun S => S.map (fun s => (List.range n).map (l s))) qTarg b) := by
  obtain hf' := (by cases ht with | type2 _ hf => exact hf : ∀ S, f S = S.map (fun s => (List.range n).map (t s)))
  unfold stochExpectedSarsa functionType1
  rw [hf]
  simp only
  rw [if_neg (by simp [softmax]), if_neg (by rw [hf']; simp), hf']
  refine distBootstraps_rows hb (by simp) ?_
  intro i s p hs hp
  rw [List.getElem?_zipWith, List.getElem?_map, List.getElem?_map, List.getElem?_map, hs] at hp
  simp only [Option.map_some, Option.some.injEq] at hp
  rw [← hp, softmax_range, dot_range]

/-- C71 for quantile distributions without a value transform and a type-2 q-function: the mean of the target is `Rn + In * Σ_a π(a|s') mean q_targ(s', a)`.  (Missing: discretized intervals, for which it is
false, see `C71_counterexample`; value transforms; type-1 q-functions, whose network gets the probabilities as an action.) -/
theorem C71_quantile_partial {k : Nat} (hk : 0 < k) {n : Nat} {qTarg : SQFn P σ (List ℝ) ((Fin k → ℝ) × (Fin k → ℝ))} (hd : qTarg.dist = quantileDist k) (h1 : qTarg.transform = id) (h2 : qTarg.inverse = id)
    {b : TBatch σ (List ℝ)} (hb : WellFormed b) {t : σ → Nat → (Fin k → ℝ) × (Fin k → ℝ)} {l : σ → Nat → ℝ}
    {f : List σ → List (List ((Fin k → ℝ) × (Fin k → ℝ)))} (hf : qTarg.forward qTarg.params = .type2 f) (ht : Computes n t (.type2 f)) :
    ∃ G, stochExpectedSarsa n (fun S => S.map (fun s => (List.range n).map (l s))) qTarg b = .ok G ∧ G.length = b.S_next.length ∧
      ∀ (i : Nat) (r d : ℝ) (s : σ), b.Rn[i]? = some r → b.In[i]? = some d → b.S_next[i]? = some s →
        ∃ out, G[i]? = some (some out) ∧ (quantileDist k).mean out = r + d * ∑ a ∈ Finset.range n, prob n (l s) a * (quantileDist k).mean (t s a) := by
  obtain ⟨G, hG, hl, hr⟩ := stochExpectedSarsa_type2 (l := l) hb hf ht
  refine ⟨G, hG, hl, ?_⟩
  intro i r d s e1 e2 e3
  obtain ⟨p, rfl, hg⟩ := hr i r d s e1 e2 e3
  rw [hd, h1, h2] at hg
  refine ⟨_, hg, ?_⟩
  have hk' : (k : ℝ) ≠ 0 := by exact_mod_cast hk.ne'
  simp only [quantileDist, id]
  rw [Finset.sum_add_distrib, ← Finset.mul_sum]
  simp only [Finset.sum_const, Finset.card_univ, Fintype.card_fin, nsmul_eq_mul, Prod.fst_sum, Finset.sum_apply, Prod.smul_fst, Pi.smul_apply, smul_eq_mul]
  rw [Finset.sum_comm]
  have e : ∑ a ∈ Finset.range n, prob n (l s) a * ((∑ i, (t s a).1 i) / k) = (∑ a ∈ Finset.range n, ∑ i, prob n (l s) a * (t s a).1 i) / k := by
    rw [Finset.sum_div]
    refine Finset.sum_congr rfl (fun a _ => ?_)
    rw [← Finset.mul_sum, mul_div_assoc]
  rw [e]
  field_simp

/-- With a discretized interval it is false.  Both actions have probability ½, the masses of the upper atom are ½ and ¾, and the discount is 1: the mean of the mixture is 1.125, but the mean of the
target is more than 1.13, because the logits are averaged. -/
theorem C71_counterexample : ∃ (qTarg : SQFn Unit Unit (List ℝ) (Fin 2 → ℝ)) (b : TBatch Unit (List ℝ)) (t : Unit → Nat → Fin 2 → ℝ) (out : Fin 2 → ℝ),
    qTarg.dist = intervalDist (by norm_num) 0 2 ∧ qTarg.transform = id ∧ qTarg.inverse = id ∧ WellFormed b ∧ b.Rn = [0] ∧ b.In = [1] ∧ Computes 2 t (qTarg.forward qTarg.params) ∧
    stochExpectedSarsa 2 (fun S => S.map (fun _ => [0, 0])) qTarg b = .ok [some out] ∧
    ∑ a ∈ Finset.range 2, prob 2 (fun _ => 0) a * qTarg.dist.mean (t () a) = 1.125 ∧ 1.13 < qTarg.dist.mean out := by
  let t : Unit → Nat → Fin 2 → ℝ := fun _ a i => if a = 1 ∧ i = 1 then Real.log 3 else 0
  let F : Func Unit (List ℝ) (Fin 2 → ℝ) := .type2 (fun S => S.map (fun s => (List.range 2).map (t s)))
  let q : SQFn Unit Unit (List ℝ) (Fin 2 → ℝ) := ⟨fun _ => F, (), intervalDist (by norm_num) 0 2, id, id⟩
  let b : TBatch Unit (List ℝ) := ⟨[0], [1], [()], []⟩
  have hb : WellFormed b := ⟨rfl, rfl⟩
  have hC : Computes 2 t F := .type2 _ (fun _ => rfl)
  have hprob : ∀ a, prob 2 (fun _ => 0) a = 1 / 2 := by intro a; simp [prob]
  have hlog : Real.exp (Real.log 3) = 3 := Real.exp_log (by norm_num)
  have a0 : Dists.atoms 2 0 2 0 = 0.5 := by simp [Dists.atoms]
  have a1 : Dists.atoms 2 0 2 1 = 1.5 := by simp [Dists.atoms]; norm_num
  obtain ⟨G, hG, hl, hr⟩ := stochExpectedSarsa_type2 (qTarg := q) (l := fun _ _ => 0) hb rfl hC
  obtain ⟨p, rfl, hg⟩ := hr 0 0 1 () rfl rfl rfl
  obtain ⟨out, ho, hm⟩ := Dists.C48_output_mean (n := 2) (by norm_num) (low := 0) (high := 2) (by norm_num) (∑ a ∈ Finset.range 2, prob 2 (fun _ => 0) a • t () a) (scale := 1) (shift := 0) (by
    intro j
    have e0 : Dists.atoms 2 0 2 ⟨0, by omega⟩ = 0.5 := a0
    have e1 : Dists.atoms 2 0 2 ⟨2 - 1, by omega⟩ = 1.5 := a1
    rw [e0, e1]
    match j with
    | 0 => rw [a0]; norm_num
    | 1 => rw [a1]; norm_num)
  have hout : q.dist.affine 1 0 q.transform q.inverse (∑ a ∈ Finset.range 2, prob 2 (fun _ => 0) a • t () a) = some out := ho
  rw [hout] at hg
  obtain rfl : G = [some out] := by
    match G, hl with
    | [g], _ => simpa using hg
  refine ⟨q, b, t, out, rfl, rfl, rfl, hb, rfl, rfl, hC, ?_, ?_, ?_⟩
  · rw [← hG]; simp [List.range_succ]
  · simp only [hprob, q, intervalDist, Dists.intervalMean, Dists.softmax, Finset.sum_range_succ, Finset.sum_range_zero, Fin.sum_univ_two, a0, a1, t]
    norm_num [hlog]
  · set x := Real.exp (1 / 2 * Real.log 3) with hx
    have hx2 : x * x = 3 := by rw [hx, ← Real.exp_add]; rw [show 1 / 2 * Real.log 3 + 1 / 2 * Real.log 3 = Real.log 3 by ring, hlog]
    have hxp : 0 < x := Real.exp_pos _
    have hx17 : 1.73 < x := by nlinarith
    have hmean : Dists.intervalMean 0 2 (∑ a ∈ Finset.range 2, prob 2 (fun _ => 0) a • t () a) = (0.5 + 1.5 * x) / (1 + x) := by
      simp only [hprob, Dists.intervalMean, Dists.softmax, Finset.sum_range_succ, Finset.sum_range_zero, Fin.sum_univ_two, a0, a1, t]
      simp
      rw [show (2 : ℝ)⁻¹ * Real.log 3 = 1 / 2 * Real.log 3 by ring, ← hx]
      field_simp
    rw [hmean] at hm
    have hbig : 1.131 < (0.5 + 1.5 * x) / (1 + x) := by rw [lt_div_iff₀ (by linarith)]; linarith
    have := (abs_le.1 hm).1
    show 1.13 < Dists.intervalMean 0 2 out
    norm_num at this hbig ⊢
    linarith

end Coax.TD
