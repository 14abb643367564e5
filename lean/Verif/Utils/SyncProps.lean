import Verif.Utils.DictsProps

/-! Property C32: `sync_shared_params` averages exactly the shared entries. -/

namespace Coax.Dicts

set_option linter.unusedSectionVars false

variable {κ : Type _} [DecidableEq κ] {D V : Type _} [DecidableEq D]
variable {K : Type _} [Field K] [LinearOrder K] [IsStrictOrderedRing K] [AddCommGroup V] [Module K V]

/-! ### Specification -/

/-- The entries under the key `k` in all the dicts that hold it, each with the weight of its dict. -/
def holdings (ws : List K) (params : List (List (κ × Tree D V))) (k : κ) : List (K × Tree D V) :=
  (ws.zip params).filterMap (fun wp => (wp.2.lookup k).map (fun t => (wp.1, t)))

/-- Two pytrees have the same structure. -/
def SameStruct (s t : Tree D V) : Prop := s.treedef = t.treedef ∧ s.leaves.length = t.leaves.length

/-- `t` is the weighted average of the trees `hs`, leaf by leaf: `(∑ w) • x = ∑ w • y`. -/
structure IsAverage (hs : List (K × Tree D V)) (t : Tree D V) : Prop where
  struct : ∀ h ∈ hs, SameStruct t h.2
  leaves : ∀ (j : Nat) x, t.leaves[j]? = some x → ∃ ys : List V, List.Forall₂ (fun h y => h.2.leaves[j]? = some y) hs ys ∧
    (hs.map Prod.fst).sum • x = (List.zipWith (fun h y => h.1 • y) hs ys).sum

/-- Valid input: the keys of a dict are distinct, one positive weight per dict, and the holders of a key agree on the
structure of its entry. -/
structure Valid (ws : List K) (params : List (List (κ × Tree D V))) : Prop where
  nodup : ∀ p ∈ params, (p.map Prod.fst).Nodup
  length : ws.length = params.length
  pos : ∀ w ∈ ws, 0 < w
  struct : ∀ k, ∀ h ∈ holdings ws params k, ∀ h' ∈ holdings ws params k, SameStruct h.2 h'.2

/-! ### Helpers -/

theorem holdings_cons (w : K) (ws : List K) (p : List (κ × Tree D V)) (ps : List (List (κ × Tree D V))) (k : κ) :
    holdings (w :: ws) (p :: ps) k = (match p.lookup k with | none => [] | some t => [(w, t)]) ++ holdings ws ps k := by
  simp only [holdings, List.zip_cons_cons, List.filterMap_cons]
  cases p.lookup k <;> simp

theorem holdings_snd {ws : List K} {ps : List (List (κ × Tree D V))} (h : ws.length = ps.length) (k : κ) :
    (holdings ws ps k).map Prod.snd = ps.filterMap (fun p => p.lookup k) := by
  induction ps generalizing ws with
  | nil => simp [holdings]
  | cons p ps ih =>
    cases ws with
    | nil => simp at h
    | cons w ws =>
      rw [holdings_cons, List.map_append, ih (by simpa using h), List.filterMap_cons]
      cases p.lookup k <;> simp

theorem holdings_fst {ws : List K} {ps : List (List (κ × Tree D V))} (h : ws.length = ps.length) (k : κ) :
    (holdings ws ps k).map Prod.fst = ((ws.zip ps).filter (fun wp => contains wp.2 k)).map Prod.fst := by
  induction ps generalizing ws with
  | nil => simp [holdings]
  | cons p ps ih =>
    cases ws with
    | nil => simp at h
    | cons w ws =>
      rw [holdings_cons, List.map_append, ih (by simpa using h), List.zip_cons_cons, List.filter_cons]
      simp only [contains_eq_isSome]
      cases p.lookup k <;> simp

theorem holdings_congr {ws : List K} {ps os : List (List (κ × Tree D V))} {k : κ}
    (h : List.Forall₂ (fun p o => o.lookup k = p.lookup k) ps os) : holdings ws os k = holdings ws ps k := by
  induction h generalizing ws with
  | nil => rfl
  | cons h _ ih =>
    cases ws with
    | nil => rfl
    | cons w ws => rw [holdings_cons, holdings_cons, ih, h]

theorem holdings_length {ws : List K} {ps : List (List (κ × Tree D V))} (h : ws.length = ps.length)
    (hn : ∀ p ∈ ps, (p.map Prod.fst).Nodup) (k : κ) : (ps.flatMap (fun p => p.map Prod.fst)).count k = (holdings ws ps k).length := by
  have := congrArg List.length (holdings_snd h k)
  rw [List.length_map] at this
  rw [this]
  clear this h
  induction ps with
  | nil => simp
  | cons p ps ih =>
    rw [List.flatMap_cons, List.count_append, ih (fun q hq => hn q (by simp [hq])), List.filterMap_cons]
    cases hl : p.lookup k with
    | none =>
      rw [List.count_eq_zero_of_not_mem (lookup_eq_none.1 hl)]
      simp
    | some t =>
      have : k ∈ p.map Prod.fst := by
        by_contra hc
        rw [lookup_eq_none.2 hc] at hl
        cases hl
      rw [List.count_eq_one_of_mem (hn p (by simp)) this]
      simp; omega

theorem sameStructs_iff {ts : List (Tree D V)} : sameStructs ts = true ↔ ∀ s ∈ ts, ∀ t ∈ ts, SameStruct s t := by
  cases ts with
  | nil => simp [sameStructs]
  | cons t ts =>
    simp only [sameStructs, List.all_eq_true, Bool.and_eq_true, decide_eq_true_eq]
    constructor
    · intro h
      have h' : ∀ s ∈ t :: ts, SameStruct s t := by
        intro s hs
        rcases List.mem_cons.1 hs with rfl | hs
        · exact ⟨rfl, rfl⟩
        · exact h s hs
      intro a ha b hb
      exact ⟨(h' a ha).1.trans (h' b hb).1.symm, (h' a ha).2.trans (h' b hb).2.symm⟩
    · intro h s hs
      exact h s (by simp [hs]) t (by simp)

theorem sum_pos_of {ws : List K} (hne : ws ≠ []) (h : ∀ w ∈ ws, 0 < w) : 0 < ws.sum := by
  induction ws with
  | nil => exact absurd rfl hne
  | cons w ws ih =>
    rw [List.sum_cons]
    by_cases hw : ws = []
    · subst hw; simpa using h w (by simp)
    · exact add_pos (h w (by simp)) (ih hw (fun x hx => h x (by simp [hx])))

/-- The weighted trees, summed, are the weighted average. -/
theorem sumTrees_average {hs : List (K × Tree D V)} (hne : hs ≠ []) (hstr : ∀ h ∈ hs, ∀ h' ∈ hs, SameStruct h.2 h'.2)
    {c : K} (hc : c = (hs.map Prod.fst).sum) (hc0 : c ≠ 0) :
    ∃ agg, sumTrees ((((hs.map Prod.fst).map (fun w => w / c)).zip (hs.map Prod.snd)).map (fun (w, p) => p.scale w)) = .ok agg ∧
      IsAverage hs agg := by
  have e : (((hs.map Prod.fst).map (fun w => w / c)).zip (hs.map Prod.snd)).map (fun (w, p) => p.scale w) =
      hs.map (fun h => h.2.scale (h.1 / c)) := by
    clear hc hstr hne
    induction hs with
    | nil => rfl
    | cons h hs ih => simp only [List.map_cons, List.zip_cons_cons]; rw [ih]
  rw [e]
  obtain ⟨h, rest, rfl⟩ := List.exists_cons_of_ne_nil hne
  refine ⟨_, rfl, ?_, ?_⟩
  · intro h' hh'
    obtain ⟨h1, h2⟩ := hstr h (by simp) h' hh'
    exact ⟨h1, by simpa [Tree.scale] using h2⟩
  · intro j x hx
    simp only [List.getElem?_map, Option.map_eq_some_iff] at hx
    obtain ⟨j', hj, rfl⟩ := hx
    obtain ⟨hlt, hj'⟩ := List.getElem?_eq_some_iff.1 hj
    simp only [List.length_range, List.getElem_range] at hlt hj'
    subst hj'
    have hlt' : j < h.2.leaves.length := by simpa [Tree.scale] using hlt
    have hall : ∀ h' ∈ h :: rest, ∃ y, h'.2.leaves[j]? = some y := by
      intro h' hh'
      have := (hstr h (by simp) h' hh').2
      exact ⟨_, List.getElem?_eq_getElem (by omega)⟩
    rw [← List.map_cons (f := fun h : K × Tree D V => h.2.scale (h.1 / c))]
    rw [← hc]
    clear hc hne e hstr hlt hlt' hj
    generalize h :: rest = hs at hall
    induction hs with
    | nil => exact ⟨[], .nil, by simp⟩
    | cons h' hs ih =>
      obtain ⟨y, hy⟩ := hall h' (by simp)
      obtain ⟨ys, h1, h2⟩ := ih (fun h'' hh => hall h'' (by simp [hh]))
      refine ⟨y :: ys, .cons hy h1, ?_⟩
      have hy' : (h'.2.scale (h'.1 / c)).leaves[j]? = some ((h'.1 / c) • y) := by
        simp [Tree.scale, hy]
      rw [List.zipWith_cons_cons, List.sum_cons, ← h2, List.map_cons, List.filterMap_cons, hy']
      simp only [List.sum_cons, smul_add, smul_smul, mul_div_cancel₀ _ hc0]

theorem syncKey_ok {ws : List K} {params : List (List (κ × Tree D V))} {count : κ → Nat} {k : κ} (hlen : ws.length = params.length)
    (hpos : ∀ w ∈ ws, 0 < w) (hstr : ∀ h ∈ holdings ws params k, ∀ h' ∈ holdings ws params k, SameStruct h.2 h'.2)
    (hcount : count k = (holdings ws params k).length) (h2 : 2 ≤ (holdings ws params k).length) :
    ∃ agg, IsAverage (holdings ws params k) agg ∧
      syncKey ws count params k = .ok (params.map (fun p => if contains p k then setItem p k agg else p)) := by
  have hne : holdings ws params k ≠ [] := by intro h; rw [h] at h2; simp at h2
  have hposh : ∀ w ∈ (holdings ws params k).map Prod.fst, 0 < w := by
    intro w hw
    rw [holdings_fst hlen] at hw
    obtain ⟨wp, h1, rfl⟩ := List.mem_map.1 hw
    exact hpos _ (List.of_mem_zip (List.mem_filter.1 h1).1).1
  have hscale : 0 < ((holdings ws params k).map Prod.fst).sum := sum_pos_of (by simpa using hne) hposh
  obtain ⟨agg, h3, h4⟩ := sumTrees_average hne hstr rfl hscale.ne'
  refine ⟨agg, h4, ?_⟩
  unfold syncKey
  rw [if_neg (by omega)]
  simp only [← holdings_snd hlen, ← holdings_fst hlen]
  rw [if_neg (by rw [List.length_map]; omega), if_neg, if_neg (by simpa using hscale), h3]
  rw [Bool.not_eq_false, sameStructs_iff]
  intro s hs t ht
  obtain ⟨a, ha, rfl⟩ := List.mem_map.1 hs
  obtain ⟨b, hb, rfl⟩ := List.mem_map.1 ht
  exact hstr a ha b hb

/-- What one run of the loop over the keys `ks` achieves. -/
structure Outcome (ws : List K) (ks : List κ) (ps os : List (List (κ × Tree D V))) : Prop where
  keys : List.Forall₂ (fun p o => o.map Prod.fst = p.map Prod.fst) ps os
  rest : ∀ k, (k ∉ ks ∨ (holdings ws ps k).length < 2) → List.Forall₂ (fun p o => o.lookup k = p.lookup k) ps os
  shared : ∀ k ∈ ks, 2 ≤ (holdings ws ps k).length → ∃ agg, IsAverage (holdings ws ps k) agg ∧
    ∀ o ∈ os, k ∈ o.map Prod.fst → o.lookup k = some agg

theorem forall₂_trans {α : Type _} {R S T : α → α → Prop} (hRS : ∀ a b c, R a b → S b c → T a c) {xs ys zs : List α}
    (h1 : List.Forall₂ R xs ys) (h2 : List.Forall₂ S ys zs) : List.Forall₂ T xs zs := by
  induction h1 generalizing zs with
  | nil => cases h2; exact .nil
  | cons h _ ih => cases h2 with | cons h' t' => exact .cons (hRS _ _ _ h h') (ih t')

theorem forall₂_map_right {α : Type _} {R : α → α → Prop} (f : α → α) {xs : List α} (h : ∀ x ∈ xs, R x (f x)) :
    List.Forall₂ R xs (xs.map f) := by
  induction xs with
  | nil => exact .nil
  | cons x xs ih => exact .cons (h x (by simp)) (ih (fun y hy => h y (by simp [hy])))

theorem setIf_keys (p : List (κ × Tree D V)) (k : κ) (agg : Tree D V) :
    (if contains p k then setItem p k agg else p).map Prod.fst = p.map Prod.fst := by
  split
  · rename_i h; rw [keys_setItem, if_pos (contains_iff.1 h)]
  · rfl

theorem setIf_lookup_ne (p : List (κ × Tree D V)) {k k' : κ} (h : k' ≠ k) (agg : Tree D V) :
    (if contains p k then setItem p k agg else p).lookup k' = p.lookup k' := by
  split
  · rw [lookup_setItem, if_neg h]
  · rfl

theorem loop_ok {ws : List K} (hpos : ∀ w ∈ ws, 0 < w) {count : κ → Nat} : ∀ (ks : List κ), ks.Nodup →
    ∀ ps : List (List (κ × Tree D V)), ws.length = ps.length →
      (∀ k ∈ ks, ∀ h ∈ holdings ws ps k, ∀ h' ∈ holdings ws ps k, SameStruct h.2 h'.2) →
      (∀ k ∈ ks, count k = (holdings ws ps k).length) →
      ∃ os, ks.foldlM (syncKey ws count) ps = .ok os ∧ Outcome ws ks ps os := by
  intro ks
  induction ks with
  | nil =>
    intro _ ps hlen _ _
    refine ⟨ps, rfl, ?_, ?_, by simp⟩
    · exact List.forall₂_same.2 (fun _ _ => rfl)
    · intro k _; exact List.forall₂_same.2 (fun _ _ => rfl)
  | cons k ks ih =>
    intro hnd ps hlen hstr hcount
    rw [List.nodup_cons] at hnd
    -- the step for `k`
    obtain ⟨ps1, hs1, hk1, ho1, hsh1, hun1⟩ : ∃ ps1, syncKey ws count ps k = .ok ps1 ∧
        List.Forall₂ (fun p o => o.map Prod.fst = p.map Prod.fst) ps ps1 ∧
        (∀ k', k' ≠ k → List.Forall₂ (fun p o => o.lookup k' = p.lookup k') ps ps1) ∧
        (2 ≤ (holdings ws ps k).length → ∃ agg, IsAverage (holdings ws ps k) agg ∧
          ∀ o ∈ ps1, k ∈ o.map Prod.fst → o.lookup k = some agg) ∧
        ((holdings ws ps k).length < 2 → List.Forall₂ (fun p o => o.lookup k = p.lookup k) ps ps1) := by
      rcases Nat.lt_or_ge (holdings ws ps k).length 2 with h2 | h2
      · refine ⟨ps, ?_, List.forall₂_same.2 (fun _ _ => rfl), fun k' _ => List.forall₂_same.2 (fun _ _ => rfl), by omega,
          fun _ => List.forall₂_same.2 (fun _ _ => rfl)⟩
        unfold syncKey
        rw [if_pos (by rw [hcount k (by simp)]; exact h2)]
      · obtain ⟨agg, h3, h4⟩ := syncKey_ok hlen hpos (hstr k (by simp)) (hcount k (by simp)) h2
        refine ⟨_, h4, forall₂_map_right _ (fun p _ => setIf_keys p k agg), fun k' hk' => forall₂_map_right _ (fun p _ => setIf_lookup_ne p hk' agg),
          fun _ => ⟨agg, h3, ?_⟩, by omega⟩
        intro o ho hk
        obtain ⟨p, hp, rfl⟩ := List.mem_map.1 ho
        rw [setIf_keys] at hk
        rw [if_pos (contains_iff.2 hk), lookup_setItem, if_pos rfl]
    have hne : ∀ k' ∈ ks, k' ≠ k := by rintro k' h rfl; exact hnd.1 h
    have hh : ∀ k', k' ≠ k → holdings ws ps1 k' = holdings ws ps k' := fun k' h => holdings_congr (ho1 k' h)
    obtain ⟨os, hos, hout⟩ := ih hnd.2 ps1 (by rw [hlen, hk1.length_eq])
      (fun k' hk' => by rw [hh k' (hne k' hk')]; exact hstr k' (by simp [hk']))
      (fun k' hk' => by rw [hh k' (hne k' hk')]; exact hcount k' (by simp [hk']))
    refine ⟨os, ?_, ?_, ?_, ?_⟩
    · rw [List.foldlM_cons, hs1]; exact hos
    · exact forall₂_trans (fun a b c h1 h2 => h2.trans h1) hk1 hout.keys
    · intro k' hk'
      by_cases e : k' = k
      · subst e
        have h2 : (holdings ws ps k').length < 2 := by
          rcases hk' with h | h
          · simp at h
          · exact h
        exact forall₂_trans (fun a b c h1 h2 => h2.trans h1) (hun1 h2) (hout.rest k' (.inl hnd.1))
      · refine forall₂_trans (fun a b c h1 h2 => h2.trans h1) (ho1 k' e) (hout.rest k' ?_)
        rw [hh k' e]
        rcases hk' with h | h
        · exact .inl (by simp [e] at h; exact h)
        · exact .inr h
    · intro k' hk' h2
      rcases List.mem_cons.1 hk' with rfl | hk''
      · obtain ⟨agg, h3, h4⟩ := hsh1 h2
        refine ⟨agg, h3, ?_⟩
        intro o ho hmem
        have hun := hout.rest k' (.inl hnd.1)
        obtain ⟨i, hi⟩ := List.mem_iff_getElem?.1 ho
        obtain ⟨hi', rfl⟩ := List.getElem?_eq_some_iff.1 hi
        have hi1 : i < ps1.length := by rw [hun.length_eq]; exact hi'
        have e1 := hun.get hi1 hi'
        have e2 := hout.keys.get hi1 hi'
        simp only [List.get_eq_getElem] at e1 e2
        rw [e1]
        exact h4 _ (List.getElem_mem hi1) (e2 ▸ hmem)
      · have := hout.shared k' hk''
        rw [hh k' (hne k' hk'')] at this
        exact this h2

theorem mem_keys {params : List (List (κ × Tree D V))} {k : κ} :
    k ∈ (params.flatMap (fun p => p.map Prod.fst)).reverse.dedup.reverse ↔ ∃ p ∈ params, k ∈ p.map Prod.fst := by
  rw [List.mem_reverse, List.mem_dedup, List.mem_reverse, List.mem_flatMap]

theorem sync_run {ws : List K} {params : List (List (κ × Tree D V))} (hv : Valid ws params) :
    ∃ outs, syncSharedParams.run params ws = .ok outs ∧
      Outcome ws (params.flatMap (fun p => p.map Prod.fst)).reverse.dedup.reverse params outs := by
  refine loop_ok hv.pos _ (List.nodup_reverse.2 (List.nodup_dedup _)) params hv.length (fun k _ => hv.struct k) ?_
  intro k _
  exact holdings_length hv.length hv.nodup k

/-! ### Theorems -/

/-- C32.  On valid input `sync_shared_params` succeeds; every dict keeps its keys, in their order; an entry whose key is
held by one dict only is unchanged; an entry whose key is shared becomes, in all its holders, the weighted average over the
holders. -/
theorem C32_sync {ws : List K} {params : List (List (κ × Tree D V))} (h2 : 2 ≤ params.length) (hv : Valid ws params) :
    ∃ outs, syncSharedParams params (some ws) = .ok outs ∧
      List.Forall₂ (fun p o => o.map Prod.fst = p.map Prod.fst) params outs ∧
      ∀ k, ((holdings ws params k).length ≤ 1 → List.Forall₂ (fun p o => o.lookup k = p.lookup k) params outs) ∧
        (2 ≤ (holdings ws params k).length → ∃ agg, IsAverage (holdings ws params k) agg ∧
          ∀ o ∈ outs, k ∈ o.map Prod.fst → o.lookup k = some agg) := by
  obtain ⟨outs, h1, ho⟩ := sync_run hv
  refine ⟨outs, ?_, ho.keys, ?_⟩
  · unfold syncSharedParams
    rw [if_neg (by omega)]
    simp only [hv.length, ne_eq, not_true_eq_false, if_false]
    exact h1
  · intro k
    refine ⟨fun h => ho.rest k (.inr (by omega)), fun h => ?_⟩
    refine ho.shared k ?_ h
    rw [mem_keys]
    have hne : holdings ws params k ≠ [] := by intro hc; rw [hc] at h; simp at h
    obtain ⟨⟨w, t⟩, hm⟩ := List.exists_mem_of_ne_nil _ hne
    simp only [holdings, List.mem_filterMap, Option.map_eq_some_iff] at hm
    obtain ⟨wp, h3, t', h4, _⟩ := hm
    refine ⟨wp.2, (List.of_mem_zip h3).2, ?_⟩
    by_contra hc
    rw [lookup_eq_none.2 hc] at h4
    cases h4

/-- C32.  Without weights all dicts weigh the same. -/
theorem C32_default_weights (params : List (List (κ × Tree D V))) :
    syncSharedParams (K := K) params none = syncSharedParams params (some (List.replicate params.length (1 : K))) := by
  unfold syncSharedParams
  simp

/-- C32.  Fewer than two dicts are returned unchanged; a wrong number of weights raises `ValueError`. -/
theorem C32_guards (params : List (List (κ × Tree D V))) :
    (params.length < 2 → ∀ weights : Option (List K), syncSharedParams params weights = .ok params) ∧
    (2 ≤ params.length → ∀ ws : List K, ws.length ≠ params.length → syncSharedParams params (some ws) = .error .valueError) := by
  constructor
  · intro h ws
    unfold syncSharedParams
    rw [if_pos h]
  · intro h ws hw
    unfold syncSharedParams
    rw [if_neg (by omega)]
    simp only [hw, ne_eq, not_false_eq_true, if_true]

theorem holdings_of_agg {ws : List K} {os : List (List (κ × Tree D V))} {k : κ} {agg : Tree D V}
    (h : ∀ o ∈ os, k ∈ o.map Prod.fst → o.lookup k = some agg) : ∀ x ∈ holdings ws os k, x.2 = agg := by
  intro x hx
  simp only [holdings, List.mem_filterMap, Option.map_eq_some_iff] at hx
  obtain ⟨wp, h1, t, h2, rfl⟩ := hx
  have hm : k ∈ wp.2.map Prod.fst := by
    by_contra hc
    rw [lookup_eq_none.2 hc] at h2
    cases h2
  rw [h wp.2 (List.of_mem_zip h1).2 hm, Option.some.injEq] at h2
  exact h2.symm

theorem holdings_length_congr {ws : List K} {ps os : List (List (κ × Tree D V))} (k : κ)
    (h : List.Forall₂ (fun p o => o.map Prod.fst = p.map Prod.fst) ps os) :
    (holdings ws os k).length = (holdings ws ps k).length := by
  induction h generalizing ws with
  | nil => rfl
  | cons h _ ih =>
    cases ws with
    | nil => rfl
    | cons w ws =>
      rename_i p o _ _ _
      rw [holdings_cons, holdings_cons, List.length_append, List.length_append, ih]
      congr 1
      have : (o.lookup k = none ↔ p.lookup k = none) := by rw [lookup_eq_none, lookup_eq_none, h]
      cases h1 : o.lookup k <;> cases h2 : p.lookup k <;> simp_all

theorem average_of_const {hs : List (K × Tree D V)} {s t : Tree D V} (hne : hs ≠ []) (hpos : 0 < (hs.map Prod.fst).sum)
    (hc : ∀ h ∈ hs, h.2 = s) (ht : IsAverage hs t) : t = s := by
  obtain ⟨h, hm⟩ := List.exists_mem_of_ne_nil _ hne
  have hst := ht.struct h hm
  rw [hc h hm] at hst
  obtain ⟨td, tl⟩ := t
  obtain ⟨sd, sl⟩ := s
  obtain ⟨h1, h2⟩ := hst
  simp only at h1 h2
  subst h1
  congr 1
  apply List.ext_getElem h2
  intro j hj hj'
  obtain ⟨ys, h3, h4⟩ := ht.leaves j tl[j] (List.getElem?_eq_getElem hj)
  have key : (List.zipWith (fun h y => h.1 • y) hs ys).sum = (hs.map Prod.fst).sum • sl[j] := by
    clear h4 hpos hne hm h
    revert hc
    clear ht
    induction h3 with
    | nil => simp
    | cons h _ ih =>
      rename_i a y hs ys _
      intro hc
      have e : y = sl[j] := by
        have ha := hc a (by simp)
        rw [ha] at h
        simp only [List.getElem?_eq_getElem hj', Option.some.injEq] at h
        exact h.symm
      rw [List.zipWith_cons_cons, List.sum_cons, List.map_cons, List.sum_cons, add_smul, ih (fun x hx => hc x (by simp [hx])), e]
  rw [key] at h4
  have := congrArg (fun v => ((hs.map Prod.fst).sum)⁻¹ • v) h4
  simpa [smul_smul, inv_mul_cancel₀ hpos.ne'] using this

/-- C32.  Synchronising a second time changes nothing. -/
theorem C32_idempotent {ws : List K} {params : List (List (κ × Tree D V))} (h2 : 2 ≤ params.length) (hv : Valid ws params) :
    ∃ outs, syncSharedParams params (some ws) = .ok outs ∧ syncSharedParams outs (some ws) = .ok outs := by
  obtain ⟨outs, h1, hk, hl⟩ := C32_sync h2 hv
  refine ⟨outs, h1, ?_⟩
  have hlen : params.length = outs.length := hk.length_eq
  have hnd : ∀ o ∈ outs, (o.map Prod.fst).Nodup := by
    intro o ho
    obtain ⟨i, hi⟩ := List.mem_iff_getElem?.1 ho
    obtain ⟨hi', rfl⟩ := List.getElem?_eq_some_iff.1 hi
    have := hk.get (by omega : i < params.length) hi'
    simp only [List.get_eq_getElem] at this
    rw [this]
    exact hv.nodup _ (List.getElem_mem _)
  have hhl : ∀ k, (holdings ws outs k).length = (holdings ws params k).length := fun k => holdings_length_congr k hk
  have hv' : Valid ws outs := by
    refine ⟨hnd, by rw [hv.length, hlen], hv.pos, ?_⟩
    intro k
    rcases Nat.lt_or_ge 1 (holdings ws params k).length with hc | hc
    · obtain ⟨agg, _, ha⟩ := (hl k).2 hc
      intro a ha' b hb'
      rw [holdings_of_agg ha a ha', holdings_of_agg ha b hb']
      exact ⟨rfl, rfl⟩
    · rw [holdings_congr ((hl k).1 hc)]
      exact hv.struct k
  obtain ⟨outs', h1', hk', hl'⟩ := C32_sync (by omega) hv'
  rw [h1']
  congr 1
  apply List.ext_getElem hk'.length_eq.symm
  intro i hi hi'
  have hki := hk'.get hi' hi
  simp only [List.get_eq_getElem] at hki
  apply dict_ext hki
  · rw [hki]; exact hnd _ (List.getElem_mem _)
  · intro k
    rcases Nat.lt_or_ge 1 (holdings ws params k).length with hc | hc
    · obtain ⟨agg, h3, ha⟩ := (hl k).2 hc
      obtain ⟨agg', h3', ha'⟩ := (hl' k).2 (by rw [hhl]; exact hc)
      have hne : holdings ws outs k ≠ [] := by intro h; have := hhl k; rw [h] at this; simp at this; omega
      have hpos : 0 < ((holdings ws outs k).map Prod.fst).sum := by
        refine sum_pos_of (by simpa using hne) ?_
        intro w hw
        rw [holdings_fst hv'.length] at hw
        obtain ⟨wp, h4, rfl⟩ := List.mem_map.1 hw
        exact hv.pos _ (List.of_mem_zip (List.mem_filter.1 h4).1).1
      have e : agg' = agg := average_of_const hne hpos (holdings_of_agg ha) h3'
      subst e
      by_cases hm : k ∈ (outs[i]).map Prod.fst
      · rw [ha _ (List.getElem_mem _) hm, ha' _ (List.getElem_mem _) (by rw [hki]; exact hm)]
      · rw [lookup_eq_none.2 hm, lookup_eq_none.2 (by rw [hki]; exact hm)]
    · have := ((hl' k).1 (by rw [hhl]; omega)).get hi' hi
      simpa only [List.get_eq_getElem] using this

theorem syncKey_error {ws : List K} {params : List (List (κ × Tree D V))} {count : κ → Nat} {k : κ} {e : Err}
    (hlen : ws.length = params.length) (h : syncKey ws count params k = .error e) : e = .assertionError := by
  unfold syncKey at h
  split at h
  · cases h
  simp only [← holdings_snd hlen, ← holdings_fst hlen] at h
  split at h
  · cases h; rfl
  split at h
  · cases h; rfl
  split at h
  · cases h; rfl
  rename_i h1 _ _
  split at h
  · rename_i hs
    rw [List.length_map, Classical.not_not] at h1
    obtain ⟨a, rest, hh⟩ := List.exists_cons_of_ne_nil (l := holdings ws params k) (by intro hc; rw [hc] at h1; simp at h1)
    rw [hh] at hs
    simp [sumTrees] at hs
  · cases h

theorem syncKey_lookup {ws : List K} {params ps1 : List (List (κ × Tree D V))} {count : κ → Nat} {k k' : κ} (hk : k' ≠ k)
    (h : syncKey ws count params k = .ok ps1) : List.Forall₂ (fun p o => o.lookup k' = p.lookup k') params ps1 := by
  unfold syncKey at h
  split at h
  · cases h; exact List.forall₂_same.2 (fun _ _ => rfl)
  simp only at h
  split at h
  · cases h
  split at h
  · cases h
  split at h
  · cases h
  split at h
  · cases h
  · cases h
    exact forall₂_map_right _ (fun p _ => setIf_lookup_ne p hk _)

/-- C32.  When two holders of a key disagree on the structure of its entry, the call raises `AssertionError` (and returns
no params). -/
theorem C32_structure_mismatch {ws : List K} {params : List (List (κ × Tree D V))} (h2 : 2 ≤ params.length)
    (hnd : ∀ p ∈ params, (p.map Prod.fst).Nodup) (hlen : ws.length = params.length) {k : κ} {a b : K × Tree D V}
    (ha : a ∈ holdings ws params k) (hb : b ∈ holdings ws params k) (hab : ¬ SameStruct a.2 b.2) :
    syncSharedParams params (some ws) = .error .assertionError := by
  have hcnt := holdings_length hlen hnd k
  have hlong : 2 ≤ (holdings ws params k).length := by
    by_contra hc
    match hh : holdings ws params k with
    | [] => rw [hh] at ha; simp at ha
    | [x] =>
      rw [hh] at ha hb
      simp at ha hb
      subst ha hb
      exact hab ⟨rfl, rfl⟩
    | x :: y :: r => rw [hh] at hc; simp at hc
  unfold syncSharedParams
  rw [if_neg (by omega)]
  simp only [hlen, ne_eq, not_true_eq_false, if_false]
  have hmem : k ∈ (params.flatMap (fun p => p.map Prod.fst)).reverse.dedup.reverse := by
    rw [List.mem_reverse, List.mem_dedup, List.mem_reverse]
    exact List.count_pos_iff.1 (by omega)
  unfold syncSharedParams.run
  simp only
  generalize hf : (fun k => (params.flatMap (fun p => p.map Prod.fst)).count k) = count at *
  have hck : count k = (holdings ws params k).length := by rw [← hf]; exact hcnt
  generalize (params.flatMap (fun p => p.map Prod.fst)).reverse.dedup.reverse = ks at hmem
  clear hf hcnt hnd h2
  induction ks generalizing params with
  | nil => simp at hmem
  | cons k0 ks ih =>
    rw [List.foldlM_cons]
    by_cases e : k0 = k
    · subst e
      have : syncKey ws count params k0 = .error .assertionError := by
        unfold syncKey
        rw [if_neg (by omega)]
        simp only [← holdings_snd hlen, ← holdings_fst hlen]
        rw [if_neg (by rw [List.length_map]; omega), if_pos]
        cases hs : sameStructs ((holdings ws params k0).map Prod.snd) with
        | false => rfl
        | true => exact absurd (sameStructs_iff.1 hs _ (List.mem_map.2 ⟨a, ha, rfl⟩) _ (List.mem_map.2 ⟨b, hb, rfl⟩)) hab
      rw [this]
      rfl
    · cases hs : syncKey ws count params k0 with
      | error er => rw [syncKey_error hlen hs]; rfl
      | ok ps1 =>
        have hfa := syncKey_lookup (Ne.symm e) hs
        have hh := holdings_congr (ws := ws) hfa
        exact ih (by rw [hlen, hfa.length_eq]) (hh ▸ ha) (hh ▸ hb) (hh ▸ hlong) (by rw [hh]; exact hck) (by
          rcases List.mem_cons.1 hmem with rfl | h
          · exact absurd rfl e
          · exact h)

/-- Two params dicts that share the key `"torso"`, with weights 1 and 3. -/
def exParams : List (List (String × Tree String ℚ)) :=
  [[("torso", ⟨"{w, b}", [1, 2]⟩), ("pi", ⟨"{w}", [7]⟩)], [("v", ⟨"{w}", [8]⟩), ("torso", ⟨"{w, b}", [5, 6]⟩)]]

theorem exParams_sync : syncSharedParams exParams (some [(1 : ℚ), 3]) =
    .ok [[("torso", ⟨"{w, b}", [4, 5]⟩), ("pi", ⟨"{w}", [7]⟩)], [("v", ⟨"{w}", [8]⟩), ("torso", ⟨"{w, b}", [4, 5]⟩)]] := by
  decide +kernel

theorem exParams_valid : Valid [(1 : ℚ), 3] exParams := by
  refine ⟨by decide, rfl, by decide +kernel, ?_⟩
  intro k
  by_cases h1 : k = "torso"
  · subst h1; unfold SameStruct; decide +kernel
  by_cases h2 : k = "pi"
  · subst h2; unfold SameStruct; decide +kernel
  by_cases h3 : k = "v"
  · subst h3; unfold SameStruct; decide +kernel
  have : holdings [(1 : ℚ), 3] exParams k = [] := by
    simp [holdings, exParams, lookup_cons', Ne.symm h1, Ne.symm h2, Ne.symm h3]
  rw [this]
  simp

example : 2 ≤ exParams.length := by decide

end Coax.Dicts
