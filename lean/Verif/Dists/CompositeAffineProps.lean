import Verif.Dists.CompositeAffine
import Verif.Dists.CompositeSampleLemmas

/-!
C146: what `affine_transform` of a distribution over a nested space does.
-/

open MeasureTheory ProbabilityTheory

namespace Coax.Dists

/-! ### Specification -/

mutual
/-- The dicts of a tree have the names of the distribution and no others. -/
def Exact {α : Type} : Dist → Tree α → Prop
  | .leaf _, .leaf _ => True
  | .list ds, .list ts => ExactList ds ts
  | .dict ds, .dict ts => (∀ k, k ∈ ts.map (·.1) ↔ k ∈ ds.map (·.1)) ∧ ExactDict ds ts
  | _, _ => False
def ExactList {α : Type} : List Dist → List (Tree α) → Prop
  | [], [] => True
  | d :: ds, t :: ts => Exact d t ∧ ExactList ds ts
  | _, _ => False
def ExactDict {α : Type} : List (String × Dist) → List (String × Tree α) → Prop
  | [], _ => True
  | (k, d) :: ds, ts => (∃ t, ts.lookup k = some t ∧ Exact d t) ∧ ExactDict ds ts
end

/-- `scale * X + shift`, for the vectors of all leaves. -/
def affineAll {ls : List Leaf} (scales shifts : List ℝ) (x : Outcome ls) : Outcome ls := fun i j => scales.getD i 0 * x i j + shifts.getD i 0

/-- The means are not affected by the scale. -/
def MeanOk (scale : ℝ) : LeafParams → Prop
  | .normal mu _ => scale = 1 ∨ ∀ m ∈ mu, m = 0
  | .logits _ => True

/-- The new log-variances are not clipped. -/
def Unclipped (scale : ℝ) : Leaf → LeafParams → Prop
  | .normal d c, .normal mu logvar =>
    ∀ i, c.clipLogvar.1 ≤ Real.log (scale ^ 2) + lv c (⟨fun i => mu.getD i 0, fun i => logvar.getD i 0⟩ : NormalParams d) i ∧
      Real.log (scale ^ 2) + lv c (⟨fun i => mu.getD i 0, fun i => logvar.getD i 0⟩ : NormalParams d) i ≤ c.clipLogvar.2
  | _, _ => True

/-! ### Proofs -/

theorem sameKeys_of {xs ys ds : List String} (h1 : ∀ k, k ∈ xs ↔ k ∈ ds) (h2 : ∀ k, k ∈ ys ↔ k ∈ ds) : sameKeys xs ys = true := by
  simp only [sameKeys, Bool.and_eq_true, List.all_eq_true, List.contains_iff_mem]
  exact ⟨fun x hx => (h2 x).2 ((h1 x).1 hx), fun y hy => (h1 y).2 ((h2 y).1 hy)⟩

theorem exactList_length {α : Type} : ∀ {ds : List Dist} {ts : List (Tree α)}, ExactList ds ts → ts.length = ds.length
  | [], [], _ => rfl
  | _ :: ds, _ :: ts, h => by simp [exactList_length h.2]
  | [], _ :: _, h => h.elim
  | _ :: _, [], h => h.elim

theorem lookup_none : ∀ {ds : List (String × Dist)} {k : String}, k ∈ ds.map (·.1) → (ds.map fun kd => (kd.1, VT.none)).lookup k = some .none
  | [], _, h => by simp at h
  | (k', d) :: ds, k, h => by
    simp only [List.map_cons, List.lookup_cons]
    by_cases e : k = k'
    · simp [e]
    · have : (k == k') = false := by simpa using e
      rw [this]
      simp only [List.map_cons, List.mem_cons, e, false_or] at h
      exact lookup_none h

theorem exact_at {α : Type} {d : Dist} {o : Option (Tree α)} (h : ∃ t, o = some t ∧ Exact d t) {t : Tree α} (ht : o = some t) : Exact d t := by
  obtain ⟨t', h1, h2⟩ := h
  rw [h1, Option.some.injEq] at ht
  exact ht ▸ h2

/-- What is known about each leaf. -/
abbrev LeafDone (ab : ℝ × ℝ) (l : Leaf) (p q : LeafParams) : Prop := l.affine p ab.1 ab.2 .none = .ok q

theorem zip_append' {α β : Type} {a c : List α} {b d : List β} (h : a.length = b.length) : (a ++ c).zip (b ++ d) = a.zip b ++ c.zip d := List.zip_append h

theorem leaf_affine_ok {l : Leaf} {p : LeafParams} (h : LeafFits l p) (hn : ∀ n, l ≠ .cat n) (a b : ℝ) : ∃ q, l.affine p a b .none = .ok q := by
  match l, p, h with
  | .cat n, .logits _, _ => exact absurd rfl (hn n)
  | .normal d c, .normal mu lv, h =>
    have h' : mu.length = d ∧ lv.length = d := h
    exact ⟨_, by simp only [Leaf.affine, normalParams, dif_pos h']; rfl⟩

mutual
theorem affineGo_spec {d : Dist} {t : Tree LeafParams} {sc sh : Tree ℝ} {ps : List LeafParams} {as bs : List ℝ} (hu : KeysOk d) (hp : flat d t = some ps)
    (hl : ∀ lp ∈ (leaves d).zip ps, LeafFits lp.1 lp.2) (ha : flat d sc = some as) (hb : flat d sh = some bs) (et : Exact d t) (ea : Exact d sc) (eb : Exact d sh) :
    ((∀ n, .cat n ∉ leaves d) → ∃ T qs, affineGo d t sc sh .none = .ok T ∧ flat d T = some qs ∧ Each LeafDone (as.zip bs) (leaves d) ps qs) ∧
    ((∃ n, .cat n ∈ leaves d) → affineGo d t sc sh .none = .error .notImplementedError) := by
  match d, t, sc, sh, et, ea, eb with
  | .leaf l, .leaf p, .leaf a, .leaf b, _, _, _ =>
    simp only [flat, Option.some.injEq] at hp ha hb
    subst hp ha hb
    have hf := hl (l, p) (by simp [leaves])
    constructor
    · intro hn
      obtain ⟨q, hq⟩ := leaf_affine_ok hf (fun n e => hn n (by simpa [leaves] using Eq.symm e)) a b
      exact ⟨.leaf q, [q], by simp only [affineGo, hq], by simp [flat], .cons hq .nil⟩
    · rintro ⟨n, hn⟩
      simp only [leaves, List.mem_singleton] at hn
      subst hn
      simp only [affineGo, Leaf.affine]
  | .list ds, .list ts, .list scs, .list shs, et, ea, eb =>
    simp only [Exact] at et ea eb
    have l1 := exactList_length et
    have l2 := exactList_length ea
    have l3 := exactList_length eb
    have key := affineList_spec hu (by simpa only [flat] using hp) hl (by simpa only [flat] using ha) (by simpa only [flat] using hb) et ea eb
    have hc : ts.length = scs.length ∧ scs.length = shs.length ∧ shs.length = ds.length := by omega
    constructor
    · intro hn
      obtain ⟨T, qs, h1, h2, h3⟩ := key.1 hn
      exact ⟨.list T, qs, by simp only [affineGo, if_pos hc, h1], by simpa only [flat] using h2, h3⟩
    · intro hn
      simp only [affineGo, if_pos hc, key.2 hn]
  | .dict ds, .dict ts, .dict scs, .dict shs, et, ea, eb =>
    simp only [Exact] at et ea eb
    have key := affineDict_spec (full := ds) hu (fun k h => h) (by simpa only [flat] using hp) hl (by simpa only [flat] using ha) (by simpa only [flat] using hb) et.2 ea.2 eb.2
    have hc : (sameKeys (ts.map (·.1)) (scs.map (·.1)) && sameKeys (scs.map (·.1)) (shs.map (·.1)) && sameKeys (shs.map (·.1)) (ds.map (·.1))) = true := by
      rw [sameKeys_of et.1 ea.1, sameKeys_of ea.1 eb.1, sameKeys_of eb.1 (fun _ => Iff.rfl)]; rfl
    constructor
    · intro hn
      obtain ⟨T, qs, h1, h2, h3⟩ := key.1 hn
      exact ⟨.dict T, qs, by simp only [affineGo, if_pos hc, h1], by simpa only [flat] using h2, h3⟩
    · intro hn
      simp only [affineGo, if_pos hc, key.2 hn]
theorem affineList_spec {ds : List Dist} {ts : List (Tree LeafParams)} {scs shs : List (Tree ℝ)} {ps : List LeafParams} {as bs : List ℝ} (hu : KeysOkList ds) (hp : flatList ds ts = some ps)
    (hl : ∀ lp ∈ (leavesList ds).zip ps, LeafFits lp.1 lp.2) (ha : flatList ds scs = some as) (hb : flatList ds shs = some bs) (et : ExactList ds ts) (ea : ExactList ds scs) (eb : ExactList ds shs) :
    ((∀ n, .cat n ∉ leavesList ds) → ∃ T qs, affineList ds ts scs shs (ds.map fun _ => .none) = .ok T ∧ flatList ds T = some qs ∧ Each LeafDone (as.zip bs) (leavesList ds) ps qs) ∧
    ((∃ n, .cat n ∈ leavesList ds) → affineList ds ts scs shs (ds.map fun _ => .none) = .error .notImplementedError) := by
  match ds, ts, scs, shs, et, ea, eb with
  | [], [], [], [], _, _, _ =>
    simp only [flatList, Option.some.injEq] at hp ha hb
    subst hp ha hb
    exact ⟨fun _ => ⟨[], [], by simp [affineList], by simp [flatList], .nil⟩, fun ⟨n, hn⟩ => by simp [leavesList] at hn⟩
  | d :: ds, t :: ts, sc :: scs, sh :: shs, et, ea, eb =>
    simp only [flatList, Option.bind_eq_bind, Option.bind_eq_some_iff, Option.pure_def, Option.some.injEq] at hp ha hb
    obtain ⟨p1, hp1, p2, hp2, rfl⟩ := hp
    obtain ⟨a1, ha1, a2, ha2, rfl⟩ := ha
    obtain ⟨b1, hb1, b2, hb2, rfl⟩ := hb
    simp only [leavesList] at hl ⊢
    rw [List.zip_append (flat_length hp1).symm] at hl
    have k1 := affineGo_spec hu.1 hp1 (fun lp h => hl lp (by simp [h])) ha1 hb1 et.1 ea.1 eb.1
    have k2 := affineList_spec hu.2 hp2 (fun lp h => hl lp (by simp [h])) ha2 hb2 et.2 ea.2 eb.2
    rw [zip_append' ((flat_length ha1).trans (flat_length hb1).symm)]
    constructor
    · intro hn
      obtain ⟨T, qs, h1, h2, h3⟩ := k1.1 (fun n h => hn n (by simp [h]))
      obtain ⟨T', qs', h1', h2', h3'⟩ := k2.1 (fun n h => hn n (by simp [h]))
      exact ⟨T :: T', qs ++ qs', by simp only [List.map_cons, affineList, h1, h1'], by simp [flatList, h2, h2'], h3.append h3'⟩
    · rintro ⟨n, hn⟩
      by_cases hc : ∃ n, .cat n ∈ leaves d
      · simp only [List.map_cons, affineList, k1.2 hc]
      · push Not at hc
        obtain ⟨T, qs, h1, -⟩ := k1.1 hc
        rw [List.mem_append] at hn
        simp only [List.map_cons, affineList, h1, k2.2 ⟨n, hn.resolve_left (hc n)⟩]
theorem affineDict_spec {ds full : List (String × Dist)} {ts : List (String × Tree LeafParams)} {scs shs : List (String × Tree ℝ)} {ps : List LeafParams} {as bs : List ℝ} (hu : KeysOkDict ds)
    (hfull : ∀ k, k ∈ ds.map (·.1) → k ∈ full.map (·.1)) (hp : flatDict ds ts = some ps)
    (hl : ∀ lp ∈ (leavesDict ds).zip ps, LeafFits lp.1 lp.2) (ha : flatDict ds scs = some as) (hb : flatDict ds shs = some bs) (et : ExactDict ds ts) (ea : ExactDict ds scs) (eb : ExactDict ds shs) :
    ((∀ n, .cat n ∉ leavesDict ds) → ∃ T qs, affineDict ds ts scs shs (full.map fun kd => (kd.1, .none)) = .ok T ∧ flatDict ds T = some qs ∧ Each LeafDone (as.zip bs) (leavesDict ds) ps qs) ∧
    ((∃ n, .cat n ∈ leavesDict ds) → affineDict ds ts scs shs (full.map fun kd => (kd.1, .none)) = .error .notImplementedError) := by
  match ds with
  | [] =>
    simp only [flatDict, Option.some.injEq] at hp ha hb
    subst hp ha hb
    exact ⟨fun _ => ⟨[], [], by simp [affineDict], by simp [flatDict], .nil⟩, fun ⟨n, hn⟩ => by simp [leavesDict] at hn⟩
  | (k, d) :: ds =>
    simp only [flatDict, Option.bind_eq_bind, Option.bind_eq_some_iff, Option.pure_def, Option.some.injEq] at hp ha hb
    obtain ⟨t, ht, p1, hp1, p2, hp2, rfl⟩ := hp
    obtain ⟨sc, hsc, a1, ha1, a2, ha2, rfl⟩ := ha
    obtain ⟨sh, hsh, b1, hb1, b2, hb2, rfl⟩ := hb
    simp only [leavesDict] at hl ⊢
    rw [List.zip_append (flat_length hp1).symm] at hl
    have hv : (full.map fun kd => (kd.1, VT.none)).lookup k = some .none := lookup_none (hfull k (by simp))
    have k1 := affineGo_spec hu.2.1 hp1 (fun lp h => hl lp (by simp [h])) ha1 hb1 (exact_at et.1 ht) (exact_at ea.1 hsc) (exact_at eb.1 hsh)
    have k2 := affineDict_spec (full := full) hu.2.2 (fun k h => hfull k (by simp only [List.map_cons, List.mem_cons]; exact .inr h)) hp2 (fun lp h => hl lp (by simp [h])) ha2 hb2 et.2 ea.2 eb.2
    rw [zip_append' ((flat_length ha1).trans (flat_length hb1).symm)]
    constructor
    · intro hn
      obtain ⟨T, qs, h1, h2, h3⟩ := k1.1 (fun n h => hn n (by simp [h]))
      obtain ⟨T', qs', h1', h2', h3'⟩ := k2.1 (fun n h => hn n (by simp [h]))
      refine ⟨(k, T) :: T', qs ++ qs', by simp only [affineDict, ht, hsc, hsh, hv, h1, h1'], ?_, h3.append h3'⟩
      simp [flatDict, flatDict_cons hu.1, h2, h2']
    · rintro ⟨n, hn⟩
      by_cases hc : ∃ n, .cat n ∈ leaves d
      · simp only [affineDict, ht, hsc, hsh, hv, k1.2 hc]
      · push Not at hc
        obtain ⟨T, qs, h1, -⟩ := k1.1 hc
        rw [List.mem_append] at hn
        simp only [affineDict, ht, hsc, hsh, hv, h1, k2.2 ⟨n, hn.resolve_left (hc n)⟩]
end

theorem getD_eq_vec {n : Nat} {l : List ℝ} (h : l.length = n) : (fun i : Fin n => l.getD i 0) = vec l h := by
  funext i
  simp [vec, List.getD_eq_getElem?_getD, List.getElem?_eq_getElem (by rw [h]; exact i.2 : i.1 < l.length)]

/-- The law of a transformed leaf. -/
theorem leaf_affine_law {l : Leaf} {p q : LeafParams} (h : LeafFits l p) (hn : ∀ n, l ≠ .cat n) {a b : ℝ} (ha : a ≠ 0) (hc : Unclipped a l p) (hq : l.affine p a b .none = .ok q) :
    LeafFits l q ∧ (leafLaw l q = (leafLaw l p).map (fun x j => a * x j + b) ↔ MeanOk a p) := by
  match l, p, h with
  | .cat n, .logits _, _ => exact absurd rfl (hn n)
  | .normal d c, .normal mu logvar, h =>
    have h : mu.length = d ∧ logvar.length = d := h
    simp only [Leaf.affine, normalParams, dif_pos h] at hq
    injection hq with hq
    subst hq
    refine ⟨⟨by simp, by simp⟩, ?_⟩
    have key := (C51_affine_transform_partial c ⟨vec mu h.1, vec logvar h.2⟩ b ha (by
      intro i
      have := hc i
      simpa only [getD_eq_vec h.1, getD_eq_vec h.2] using this)).2
    simp only [leafLaw, MeanOk]
    rw [getD_eq_vec h.1, getD_eq_vec h.2]
    have e : (⟨fun i : Fin d => (List.ofFn (normalAffine c ⟨vec mu h.1, vec logvar h.2⟩ a b id id).mu).getD i 0,
        fun i : Fin d => (List.ofFn (normalAffine c ⟨vec mu h.1, vec logvar h.2⟩ a b id id).logvar).getD i 0⟩ : NormalParams d) = normalAffine c ⟨vec mu h.1, vec logvar h.2⟩ a b id id := by
      congr 1 <;> · funext i; simp [normalAffine]
    rw [e]
    refine key.trans (or_congr Iff.rfl ?_)
    constructor
    · intro h0 m hm
      obtain ⟨j, hj, rfl⟩ := List.getElem_of_mem hm
      exact h0 ⟨j, by omega⟩
    · intro h0 i
      exact h0 _ (List.getElem_mem _)

/-- C146 (partial).  Over a space that is made of Boxes, `affine_transform` returns parameters of the law of `scale * X + shift`, with a scale and a shift for each Box, exactly if no mean is
affected by the scale: for each Box the scale is 1 or the mean is 0.  What is missing is the general case, which is false as it is for a single Box (C51). -/
theorem C146_affine_transform_partial {s : Space} {d : Dist} (h : mkDist s = .ok d) (hw : WF s) {t : Tree LeafParams} {ps : List LeafParams} (hp : Fits d t ps) {sc sh : Tree ℝ} {as bs : List ℝ}
    (ha : flat d sc = some as) (hb : flat d sh = some bs) (et : Exact d t) (ea : Exact d sc) (eb : Exact d sh) (hbox : ∀ n, .cat n ∉ leaves d) (ha0 : ∀ a ∈ as, a ≠ 0)
    (hc : ∀ i : Fin (leaves d).length, Unclipped (as.getD i 0) ((leaves d).get i) (ps.getD i (.logits []))) :
    ∃ T qs, d.affineTransform t sc sh .none = .ok T ∧ Fits d T qs ∧
      (joint (leaves d) qs = (joint (leaves d) ps).map (affineAll as bs) ↔ ∀ i : Fin (leaves d).length, MeanOk (as.getD i 0) (ps.getD i (.logits []))) := by
  have hlp := flat_length hp.1
  have hla := flat_length ha
  have hlb := flat_length hb
  have hfit : ∀ lp ∈ (leaves d).zip ps, LeafFits lp.1 lp.2 := by
    intro lp hm
    obtain ⟨j, hj, rfl⟩ := List.getElem_of_mem hm
    rw [List.length_zip] at hj
    rw [List.getElem_zip]
    exact hp.2 j _ _ (List.getElem?_eq_getElem (by omega)) (List.getElem?_eq_getElem (by omega))
  obtain ⟨T, qs, h1, h2, h3⟩ := (affineGo_spec (unique_of_wf s h hw) hp.1 hfit ha hb et ea eb).1 hbox
  have hlq := flat_length h2
  have leaf : ∀ i : Fin (leaves d).length, LeafFits ((leaves d).get i) (qs.getD i (.logits [])) ∧
      (leafLaw ((leaves d).get i) (qs.getD i (.logits [])) = (leafLaw ((leaves d).get i) (ps.getD i (.logits []))).map (fun (x : Fin ((leaves d).get i).size → ℝ) j => as.getD i 0 * x j + bs.getD i 0) ↔
        MeanOk (as.getD i 0) (ps.getD i (.logits []))) := by
    intro i
    have hi := i.2
    have hd := h3.get i (by rw [List.length_zip]; omega) hi (by omega) (by omega)
    rw [List.getElem_zip] at hd
    have e1 : as.getD i 0 = as[i.1]'(by omega) := by simp [List.getD_eq_getElem?_getD, List.getElem?_eq_getElem (show i.1 < as.length by omega)]
    have e2 : bs.getD i 0 = bs[i.1]'(by omega) := by simp [List.getD_eq_getElem?_getD, List.getElem?_eq_getElem (show i.1 < bs.length by omega)]
    have e3 : ps.getD i (.logits []) = ps[i.1]'(by omega) := by simp [List.getD_eq_getElem?_getD, List.getElem?_eq_getElem (show i.1 < ps.length by omega)]
    have e4 : qs.getD i (.logits []) = qs[i.1]'(by omega) := by simp [List.getD_eq_getElem?_getD, List.getElem?_eq_getElem (show i.1 < qs.length by omega)]
    have hci := hc i
    rw [e1, e2, e3, e4]
    rw [e1, e3] at hci
    exact leaf_affine_law (hp.2 i _ _ (List.getElem?_eq_getElem hi) (List.getElem?_eq_getElem (by omega))) (fun n e => hbox n (by rw [← e]; exact List.getElem_mem _))
      (ha0 _ (List.getElem_mem _)) hci hd
  refine ⟨T, qs, ?_, ⟨h2, ?_⟩, ?_⟩
  · simp only [Dist.affineTransform, VT.hasFns, h1]; rfl
  · intro i l q hl hq
    have hi : i < (leaves d).length := (List.getElem?_eq_some_iff.1 hl).1
    have := (leaf ⟨i, hi⟩).1
    rw [show (leaves d).get ⟨i, hi⟩ = l by rw [List.get_eq_getElem]; exact (List.getElem?_eq_some_iff.1 hl).2] at this
    simpa [List.getD_eq_getElem?_getD, hq] using this
  · have hfp : ∀ i : Fin (leaves d).length, LeafFits ((leaves d).get i) (ps.getD i (.logits [])) := by
      intro i
      refine hp.2 i _ _ (List.getElem?_eq_getElem i.2) ?_
      rw [List.getElem?_eq_getElem (show i.1 < ps.length by have := i.2; omega)]
      simp [List.getD_eq_getElem?_getD, List.getElem?_eq_getElem (show i.1 < ps.length by have := i.2; omega)]
    have : ∀ i : Fin (leaves d).length, IsProbabilityMeasure (leafLaw ((leaves d).get i) (ps.getD i (.logits []))) := fun i => leafLaw_prob (hfp i)
    have : ∀ i : Fin (leaves d).length, IsProbabilityMeasure (leafLaw ((leaves d).get i) (qs.getD i (.logits []))) := fun i => leafLaw_prob (leaf i).1
    have hmeas : ∀ i : Fin (leaves d).length, Measurable (fun (x : Fin ((leaves d).get i).size → ℝ) j => as.getD i 0 * x j + bs.getD i 0) := fun i => by fun_prop
    have hmap := Measure.pi_map_pi (μ := fun i : Fin (leaves d).length => leafLaw ((leaves d).get i) (ps.getD i (.logits [])))
      (f := fun i x j => as.getD i 0 * x j + bs.getD i 0) (fun i => (hmeas i).aemeasurable)
    have hmap' : (joint (leaves d) ps).map (affineAll as bs) = Measure.pi (fun i : Fin (leaves d).length => (leafLaw ((leaves d).get i) (ps.getD i (.logits []))).map (fun (x : Fin ((leaves d).get i).size → ℝ) j => as.getD i 0 * x j + bs.getD i 0)) := hmap
    have : ∀ i : Fin (leaves d).length, IsProbabilityMeasure ((leafLaw ((leaves d).get i) (ps.getD i (.logits []))).map (fun (x : Fin ((leaves d).get i).size → ℝ) j => as.getD i 0 * x j + bs.getD i 0)) :=
      fun i => Measure.isProbabilityMeasure_map (hmeas i).aemeasurable
    rw [hmap']
    constructor
    · intro he i
      refine (leaf i).2.1 ?_
      have := congrArg (fun m => m.map (Function.eval i)) he
      simp only [joint] at this
      rwa [(measurePreserving_eval _ i).map_eq, (measurePreserving_eval _ i).map_eq] at this
    · intro hm
      unfold joint
      congr 1
      funext i
      exact (leaf i).2.2 (hm i)

/-- C146: if some part of the space is discrete, there is no affine transform: `NotImplementedError`. -/
theorem C146_discrete {s : Space} {d : Dist} (h : mkDist s = .ok d) (hw : WF s) {t : Tree LeafParams} {ps : List LeafParams} (hp : Fits d t ps) {sc sh : Tree ℝ} {as bs : List ℝ}
    (ha : flat d sc = some as) (hb : flat d sh = some bs) (et : Exact d t) (ea : Exact d sc) (eb : Exact d sh) (hcat : ∃ n, .cat n ∈ leaves d) :
    d.affineTransform t sc sh .none = .error .notImplementedError := by
  have hfit : ∀ lp ∈ (leaves d).zip ps, LeafFits lp.1 lp.2 := by
    intro lp hm
    obtain ⟨j, hj, rfl⟩ := List.getElem_of_mem hm
    rw [List.length_zip] at hj
    rw [List.getElem_zip]
    exact hp.2 j _ _ (List.getElem?_eq_getElem (by omega)) (List.getElem?_eq_getElem (by omega))
  simp only [Dist.affineTransform, VT.hasFns]
  exact (affineGo_spec (unique_of_wf s h hw) hp.1 hfit ha hb et ea eb).2 hcat

/-- C146: lists of parameters, scales and shifts whose lengths do not fit, and one number for a whole Tuple, are rejected. -/
theorem C146_rejects (ds : List Dist) (ts : List (Tree LeafParams)) (scs shs : List (Tree ℝ)) (a : ℝ) (sh : Tree ℝ) :
    (¬ (ts.length = ds.length ∧ scs.length = ds.length ∧ shs.length = ds.length) → (Dist.list ds).affineTransform (.list ts) (.list scs) (.list shs) .none = .error .assertionError) ∧
    (Dist.list ds).affineTransform (.list ts) (.leaf a) sh .none = .error .typeError := by
  refine ⟨fun hne => ?_, ?_⟩
  · have : ¬ (ts.length = scs.length ∧ scs.length = shs.length ∧ shs.length = ds.length) := fun ⟨h1, h2, h3⟩ => hne ⟨by omega, by omega, h3⟩
    simp only [Dist.affineTransform, VT.hasFns, affineGo, if_neg this]
    rfl
  · simp [Dist.affineTransform, VT.hasFns, affineGo]

/-- Somewhere in the value transform, at any depth of lists and dicts, there is a pair of functions. -/
inductive HoldsFns : VT → Prop
  | here (f fInv : ℝ → ℝ) : HoldsFns (.fns f fInv)
  | list {l : List VT} {v : VT} : v ∈ l → HoldsFns v → HoldsFns (.list l)
  | dict {l : List (String × VT)} {k : String} {v : VT} : (k, v) ∈ l → HoldsFns v → HoldsFns (.dict l)

theorem hasFnsList_mem {l : List VT} {v : VT} (hm : v ∈ l) (hv : v.hasFns = true) : VT.hasFnsList l = true := by
  induction l with
  | nil => cases hm
  | cons a l ih =>
    rcases List.mem_cons.1 hm with rfl | hm
    · simp [VT.hasFnsList, hv]
    · simp [VT.hasFnsList, ih hm]

theorem hasFnsDict_mem {l : List (String × VT)} {k : String} {v : VT} (hm : (k, v) ∈ l) (hv : v.hasFns = true) : VT.hasFnsDict l = true := by
  induction l with
  | nil => cases hm
  | cons a l ih =>
    obtain ⟨k', a⟩ := a
    rcases List.mem_cons.1 hm with e | hm
    · obtain ⟨rfl, rfl⟩ := Prod.mk.inj e
      simp [VT.hasFnsDict, hv]
    · simp [VT.hasFnsDict, ih hm]

theorem hasFns_of_holds {v : VT} (h : HoldsFns v) : v.hasFns = true := by
  induction h with
  | here f fInv => simp [VT.hasFns]
  | list hm _ ih => simpa [VT.hasFns] using hasFnsList_mem hm ih
  | dict hm _ ih => simpa [VT.hasFns] using hasFnsDict_mem hm ih

/-- C146 is false with a value transform: whatever the distribution, the parameters and the place of the functions among the value transforms, the call raises `TypeError`,
since the argument is not static. -/
theorem C146_value_transform_counterexample (d : Dist) (t : Tree LeafParams) (sc sh : Tree ℝ) (v : VT) (hv : HoldsFns v) : d.affineTransform t sc sh v = .error .typeError := by
  simp [Dist.affineTransform, hasFns_of_holds hv]

/-! ### Cases -/

noncomputable def exBox : Leaf := .normal _ (boxConfig [(some (-1), some 1)])

noncomputable def exBoxes : Dist := .list [.leaf exBox, .dict [("a", .leaf exBox)]]

theorem exBoxes_mk : mkDist (.tuple [.box [(some (-1), some 1)], .dict [("a", .box [(some (-1), some 1)])]]) = .ok exBoxes := by
  have h : (boxConfig [(some (-1), some 1)]).init = .ok (boxConfig [(some (-1), some 1)]) := by
    refine (C50_init _).1.2 (fun i => ?_)
    have hi : i.1 = 0 := Nat.lt_one_iff.1 i.2
    simp [boxConfig, NormalConfig.low, NormalConfig.high]
  simp [mkDist, mkDistDict, mkDists, h, exBoxes, exBox]

/-- The first Box is shifted by 5, the second is scaled by 2; the law is right exactly if the second has mean 0. -/
theorem exBoxes_affine (m : ℝ) : ∃ T qs, exBoxes.affineTransform (.list [.leaf (.normal [3] [0]), .dict [("a", .leaf (.normal [m] [0]))]]) (.list [.leaf 1, .dict [("a", .leaf 2)]])
      (.list [.leaf 5, .dict [("a", .leaf 0)]]) .none = .ok T ∧ Fits exBoxes T qs ∧
    (joint (leaves exBoxes) qs = (joint (leaves exBoxes) [.normal [3] [0], .normal [m] [0]]).map (affineAll [1, 2] [5, 0]) ↔ m = 0) := by
  have e : leaves exBoxes = [exBox, exBox] := rfl
  have hp : Fits exBoxes (.list [.leaf (.normal [3] [0]), .dict [("a", .leaf (.normal [m] [0]))]]) [.normal [3] [0], .normal [m] [0]] := by
    refine ⟨rfl, ?_⟩
    rw [e]
    intro i l p hl hp
    match i with
    | 0 => obtain rfl := Option.some.inj hl; obtain rfl := Option.some.inj hp; exact ⟨rfl, rfl⟩
    | 1 => obtain rfl := Option.some.inj hl; obtain rfl := Option.some.inj hp; exact ⟨rfl, rfl⟩
    | i + 2 => exact absurd hl (by simp)
  have h4 : Real.log ((2 : ℝ) ^ 2) ≤ 4 := (Real.log_le_sub_one_of_pos (by norm_num)).trans (by norm_num)
  have h0 : 0 ≤ Real.log ((2 : ℝ) ^ 2) := Real.log_nonneg (by norm_num)
  have lv0 : ∀ (x : ℝ) (i : Fin 1), lv (boxConfig [(some (-1), some 1)]) ⟨fun i => [x].getD i 0, fun i => ([0] : List ℝ).getD i 0⟩ i = 0 := by
    intro x i
    have hi : i.1 = 0 := Nat.lt_one_iff.1 i.2
    simp [lv, clip, boxConfig, hi]
  obtain ⟨T, qs, h1, h2, h3⟩ := C146_affine_transform_partial exBoxes_mk (by simp [WF, WFDict, WFList]) hp (sc := .list [.leaf 1, .dict [("a", .leaf 2)]]) (as := [1, 2])
    (sh := .list [.leaf 5, .dict [("a", .leaf 0)]]) (bs := [5, 0]) rfl rfl
    ⟨trivial, ⟨fun k => by simp, ⟨_, rfl, trivial⟩, trivial⟩, trivial⟩ ⟨trivial, ⟨fun k => by simp, ⟨_, rfl, trivial⟩, trivial⟩, trivial⟩ ⟨trivial, ⟨fun k => by simp, ⟨_, rfl, trivial⟩, trivial⟩, trivial⟩
    (by rw [e]; simp [exBox]) (by simp) (by
      intro i
      match i with
      | ⟨0, _⟩ =>
        intro j
        rw [show ([1, 2] : List ℝ).getD 0 0 = 1 from rfl]
        rw [lv0]
        simp [boxConfig]
      | ⟨1, _⟩ =>
        intro j
        rw [show ([1, 2] : List ℝ).getD 1 0 = 2 from rfl]
        rw [lv0]
        simp only [boxConfig]
        constructor <;> linarith
      | ⟨i + 2, hi⟩ => rw [e] at hi; simp at hi)
  refine ⟨T, qs, h1, h2, h3.trans ?_⟩
  constructor
  · intro h
    have := h ⟨1, by rw [e]; simp⟩
    simpa [MeanOk] using this
  · rintro rfl i
    match i with
    | ⟨0, _⟩ => simp [MeanOk]
    | ⟨1, _⟩ => simp [MeanOk]
    | ⟨i + 2, hi⟩ => rw [e] at hi; simp at hi

/-- The distribution of `exDist` has a discrete part. -/
example : exDist.affineTransform exParams (.dict [("a", .leaf 2), ("b", .list [.leaf 1])]) (.dict [("a", .leaf 0), ("b", .list [.leaf 0])]) .none = .error .notImplementedError := by
  have h : (boxConfig [(some (-1), some 1)]).init = .ok (boxConfig [(some (-1), some 1)]) := by
    refine (C50_init _).1.2 (fun i => ?_)
    have hi : i.1 = 0 := Nat.lt_one_iff.1 i.2
    simp [boxConfig, NormalConfig.low, NormalConfig.high]
  have hm : mkDist (.dict [("a", .discrete 3 0), ("b", .tuple [.box [(some (-1), some 1)]])]) = .ok exDist := by
    simp [mkDist, mkDistDict, mkDists, h, exDist]
  refine C146_discrete (as := [2, 1]) (bs := [0, 0]) hm (by simp [WF, WFDict, WFList]) exFits rfl rfl ?_ ?_ ?_ ⟨3, .head _⟩
  · exact ⟨fun k => by simp [or_comm], ⟨_, rfl, trivial⟩, ⟨_, rfl, trivial, trivial⟩, trivial⟩
  · exact ⟨fun k => by simp, ⟨_, rfl, trivial⟩, ⟨_, rfl, trivial, trivial⟩, trivial⟩
  · exact ⟨fun k => by simp, ⟨_, rfl, trivial⟩, ⟨_, rfl, trivial, trivial⟩, trivial⟩

/-- One value transform among two. -/
example (t : Tree LeafParams) (sc sh : Tree ℝ) : exBoxes.affineTransform t sc sh (.list [.none, .dict [("a", .fns Real.exp Real.log)]]) = .error .typeError :=
  C146_value_transform_counterexample _ _ _ _ _ (.list (List.mem_cons_of_mem _ (List.mem_cons_self ..)) (.dict (List.mem_cons_self ..) (.here _ _)))

end Coax.Dists
