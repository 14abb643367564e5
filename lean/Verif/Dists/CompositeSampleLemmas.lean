import Verif.Dists.CompositeSample
import Verif.Dists.CompositeVariatesProps

/-! The structure of what `sample`, `mean` and `mode` of nested distributions return. -/

namespace Coax.Dists

mutual
/-- The names of the leaves: the positions on the way from the leaf to the root. -/
def places (path : List Nat) : Dist → List (List Nat)
  | .leaf _ => [path]
  | .list ds => placesList path 0 ds
  | .dict ds => placesDict path 0 ds
def placesList (path : List Nat) (i : Nat) : List Dist → List (List Nat)
  | [] => []
  | d :: ds => places (i :: path) d ++ placesList path (i + 1) ds
def placesDict (path : List Nat) (i : Nat) : List (String × Dist) → List (List Nat)
  | [] => []
  | (_, d) :: ds => places (i :: path) d ++ placesDict path (i + 1) ds
end

mutual
/-- The parts of a member of a space, from left to right. -/
def parts : Space → Value → Option (List Value)
  | .discrete _ _, .int x => some [.int x]
  | .box _, .floats xs => some [.floats xs]
  | .multiDiscrete _, .ints xs => some (xs.map .int)
  | .multiBinary _, .ints xs => some (xs.map .int)
  | .tuple ss, .tuple xs => partsList ss xs
  | .dict ss, .dict xs => partsDict ss xs
  | _, _ => none
def partsList : List Space → List Value → Option (List Value)
  | [], [] => some []
  | s :: ss, x :: xs => match parts s x, partsList ss xs with
    | some a, some b => some (a ++ b)
    | _, _ => none
  | _, _ => none
def partsDict : List (String × Space) → List (String × Value) → Option (List Value)
  | [], _ => some []
  | (k, s) :: ss, xs => match xs.lookup k with
    | none => none
    | some x => match parts s x, partsDict ss xs with
      | some a, some b => some (a ++ b)
      | _, _ => none
end

/-- `R` holds for the entries of four lists with the same index. -/
inductive Each {α β γ δ : Type _} (R : α → β → γ → δ → Prop) : List α → List β → List γ → List δ → Prop
  | nil : Each R [] [] [] []
  | cons {a b c e as bs cs es} : R a b c e → Each R as bs cs es → Each R (a :: as) (b :: bs) (c :: cs) (e :: es)

namespace Each
variable {α β γ δ : Type _} {R S : α → β → γ → δ → Prop}

theorem append {as bs cs es as' bs' cs' es'} (h : Each R as bs cs es) (h' : Each R as' bs' cs' es') : Each R (as ++ as') (bs ++ bs') (cs ++ cs') (es ++ es') := by
  induction h with
  | nil => exact h'
  | cons r _ ih => exact .cons r ih

theorem lengths {as bs cs es} (h : Each R as bs cs es) : as.length = bs.length ∧ bs.length = cs.length ∧ cs.length = es.length := by
  induction h with
  | nil => simp
  | cons r _ ih => simp [ih.1, ih.2.1, ih.2.2]

theorem get {as bs cs es} (h : Each R as bs cs es) (i : Nat) (ha : i < as.length) (hb : i < bs.length) (hc : i < cs.length) (he : i < es.length) : R as[i] bs[i] cs[i] es[i] := by
  induction h generalizing i with
  | nil => simp at ha
  | cons r _ ih =>
    cases i with
    | zero => exact r
    | succ i => exact ih i (by simpa using ha) (by simpa using hb) (by simpa using hc) (by simpa using he)

end Each

theorem unique_leaves {α : Type _} (f : α → Leaf) : ∀ l : List α, KeysOkList (l.map (fun x => .leaf (f x)))
  | [] => by simp [KeysOkList]
  | x :: l => by simp only [List.map_cons, KeysOkList, KeysOk, true_and]; exact unique_leaves f l

mutual
theorem unique_of_wf (s : Space) {d : Dist} (h : mkDist s = .ok d) (hw : WF s) : KeysOk d := by
  match s with
  | .discrete n start => simp only [mkDist, Except.ok.injEq] at h; subst h; trivial
  | .box bounds => obtain ⟨rfl, -⟩ := mkDist_box h; trivial
  | .multiDiscrete nvec => simp only [mkDist, Except.ok.injEq] at h; subst h; exact unique_leaves _ _
  | .multiBinary n => simp only [mkDist, Except.ok.injEq, replicate_eq] at h; subst h; exact unique_leaves _ _
  | .tuple ss =>
    simp only [mkDist] at h
    split at h
    · cases h
    · next ds hds => cases h; exact unique_of_wfList ss hds (by simpa only [WF] using hw)
  | .dict ss =>
    simp only [mkDist] at h
    split at h
    · cases h
    · next ds hds => cases h; exact unique_of_wfDict ss hds (by simpa only [WF] using hw)
  | .other => simp [mkDist] at h
theorem unique_of_wfList (ss : List Space) {ds : List Dist} (h : mkDists ss = .ok ds) (hw : WFList ss) : KeysOkList ds := by
  match ss with
  | [] => simp only [mkDists, Except.ok.injEq] at h; subst h; trivial
  | s :: ss =>
    obtain ⟨d, ds', h1, h2, rfl⟩ := mkDists_cons h
    exact ⟨unique_of_wf s h1 hw.1, unique_of_wfList ss h2 hw.2⟩
theorem unique_of_wfDict (ss : List (String × Space)) {ds : List (String × Dist)} (h : mkDistDict ss = .ok ds) (hw : WFDict ss) : KeysOkDict ds := by
  match ss with
  | [] => simp only [mkDistDict, Except.ok.injEq] at h; subst h; trivial
  | (k, s) :: ss =>
    obtain ⟨d, ds', h1, h2, rfl⟩ := mkDistDict_cons h
    exact ⟨by rw [mkDistDict_keys h2]; exact hw.1, unique_of_wf s h1 hw.2.1, unique_of_wfDict ss h2 hw.2.2⟩
end

section
variable {f : List Nat → Leaf → LeafParams → Except Err (List ℝ)}

mutual
theorem mapDist_ok (hf : ∀ path l p, LeafFits l p → ∃ x, f path l p = .ok x ∧ x.length = l.size) {d : Dist} {t : Tree LeafParams} {ps : List LeafParams} (path : List Nat) (hu : KeysOk d) (h : flat d t = some ps) (hl : ∀ lp ∈ (leaves d).zip ps, LeafFits lp.1 lp.2) :
    ∃ T xs, mapDist f path d t = .ok T ∧ flat d T = some xs ∧ Shaped d T ∧ Each (fun path l p x => f path l p = .ok x) (places path d) (leaves d) ps xs := by
  match d, t with
  | .leaf l, .leaf p =>
    simp only [flat, Option.some.injEq] at h
    subst h
    obtain ⟨x, hx, hs⟩ := hf path l p (hl (l, p) (by simp [leaves]))
    exact ⟨.leaf x, [x], by simp only [mapDist, hx], by simp [flat], by simpa only [Shaped] using hs, .cons hx .nil⟩
  | .list ds, .list ts =>
    obtain ⟨T, xs, h1, h2, h3, h4⟩ := mapDists_ok hf path 0 hu (by simpa only [flat] using h) hl
    exact ⟨.list T, xs, by simp only [mapDist, h1], by simpa only [flat] using h2, by simpa only [Shaped] using h3, h4⟩
  | .dict ds, .dict ts =>
    obtain ⟨T, xs, h1, h2, h3, h4⟩ := mapDistDict_ok hf path 0 hu (by simpa only [flat] using h) hl
    exact ⟨.dict T, xs, by simp only [mapDist, h1], by simpa only [flat] using h2, by simpa only [Shaped] using h3, h4⟩
  | .leaf _, .list _ => simp [flat] at h
  | .leaf _, .dict _ => simp [flat] at h
  | .list _, .leaf _ => simp [flat] at h
  | .list _, .dict _ => simp [flat] at h
  | .dict _, .leaf _ => simp [flat] at h
  | .dict _, .list _ => simp [flat] at h
theorem mapDists_ok (hf : ∀ path l p, LeafFits l p → ∃ x, f path l p = .ok x ∧ x.length = l.size) {ds : List Dist} {ts : List (Tree LeafParams)} {ps : List LeafParams} (path : List Nat) (i : Nat) (hu : KeysOkList ds) (h : flatList ds ts = some ps)
    (hl : ∀ lp ∈ (leavesList ds).zip ps, LeafFits lp.1 lp.2) :
    ∃ T xs, mapDists f path i ds ts = .ok T ∧ flatList ds T = some xs ∧ ShapedList ds T ∧ Each (fun path l p x => f path l p = .ok x) (placesList path i ds) (leavesList ds) ps xs := by
  match ds, ts with
  | [], [] =>
    simp only [flatList, Option.some.injEq] at h
    subst h
    exact ⟨[], [], by simp [mapDists], by simp [flatList], by simp [ShapedList], .nil⟩
  | d :: ds, t :: ts =>
    simp only [flatList, Option.bind_eq_bind, Option.bind_eq_some_iff, Option.pure_def, Option.some.injEq] at h
    obtain ⟨a, ha, b, hb, rfl⟩ := h
    simp only [leavesList] at hl ⊢
    rw [List.zip_append (flat_length ha).symm] at hl
    simp only [KeysOkList] at hu
    obtain ⟨T, xs, h1, h2, h3, h4⟩ := mapDist_ok hf (i :: path) hu.1 ha (fun lp h => hl lp (by simp [h]))
    obtain ⟨T', xs', h1', h2', h3', h4'⟩ := mapDists_ok hf path (i + 1) hu.2 hb (fun lp h => hl lp (by simp [h]))
    exact ⟨T :: T', xs ++ xs', by simp only [mapDists, h1, h1'], by simp [flatList, h2, h2'], by simp only [ShapedList]; exact ⟨h3, h3'⟩, h4.append h4'⟩
  | [], _ :: _ => simp [flatList] at h
  | _ :: _, [] => simp [flatList] at h
theorem mapDistDict_ok (hf : ∀ path l p, LeafFits l p → ∃ x, f path l p = .ok x ∧ x.length = l.size) {ds : List (String × Dist)} {ts : List (String × Tree LeafParams)} {ps : List LeafParams} (path : List Nat) (i : Nat) (hu : KeysOkDict ds) (h : flatDict ds ts = some ps)
    (hl : ∀ lp ∈ (leavesDict ds).zip ps, LeafFits lp.1 lp.2) :
    ∃ T xs, mapDistDict f path i ds ts = .ok T ∧ flatDict ds T = some xs ∧ ShapedDict ds T ∧ Each (fun path l p x => f path l p = .ok x) (placesDict path i ds) (leavesDict ds) ps xs := by
  match ds with
  | [] =>
    simp only [flatDict, Option.some.injEq] at h
    subst h
    exact ⟨[], [], by simp [mapDistDict], by simp [flatDict], by simp [ShapedDict], .nil⟩
  | (k, d) :: ds =>
    simp only [flatDict, Option.bind_eq_bind, Option.bind_eq_some_iff, Option.pure_def, Option.some.injEq] at h
    obtain ⟨t, ht, a, ha, b, hb, rfl⟩ := h
    simp only [leavesDict] at hl ⊢
    rw [List.zip_append (flat_length ha).symm] at hl
    simp only [KeysOkDict] at hu
    obtain ⟨T, xs, h1, h2, h3, h4⟩ := mapDist_ok hf (i :: path) hu.2.1 ha (fun lp h => hl lp (by simp [h]))
    obtain ⟨T', xs', h1', h2', h3', h4'⟩ := mapDistDict_ok hf path (i + 1) hu.2.2 hb (fun lp h => hl lp (by simp [h]))
    refine ⟨(k, T) :: T', xs ++ xs', by simp only [mapDistDict, ht, h1, h1'], ?_, ?_, h4.append h4'⟩
    · simp [flatDict, flatDict_cons hu.1, h2, h2']
    · simp only [ShapedDict, List.lookup_cons, beq_self_eq_true]
      exact ⟨⟨T, rfl, h3⟩, shapedDict_cons hu.1 h3'⟩
end
end

/-! ### The names of the leaves are different -/

mutual
theorem places_length (path : List Nat) (d : Dist) : (places path d).length = (leaves d).length := by
  match d with
  | .leaf l => simp [places, leaves]
  | .list ds => simp only [places, leaves]; exact placesList_length path 0 ds
  | .dict ds => simp only [places, leaves]; exact placesDict_length path 0 ds
theorem placesList_length (path : List Nat) (i : Nat) (ds : List Dist) : (placesList path i ds).length = (leavesList ds).length := by
  match ds with
  | [] => simp [placesList, leavesList]
  | d :: ds => simp only [placesList, leavesList, List.length_append]; rw [places_length, placesList_length]
theorem placesDict_length (path : List Nat) (i : Nat) (ds : List (String × Dist)) : (placesDict path i ds).length = (leavesDict ds).length := by
  match ds with
  | [] => simp [placesDict, leavesDict]
  | (_, d) :: ds => simp only [placesDict, leavesDict, List.length_append]; rw [places_length, placesDict_length]
end

theorem suffix_not {i j : Nat} (h : i ≠ j) {path p : List Nat} (h1 : (i :: path) <:+ p) (h2 : (j :: path) <:+ p) : False := by
  rcases List.suffix_or_suffix_of_suffix h1 h2 with h3 | h3 <;>
    · have := h3.eq_of_length (by simp)
      simp_all

mutual
theorem places_suffix (path : List Nat) (d : Dist) : ∀ p ∈ places path d, path <:+ p := by
  match d with
  | .leaf l => simp [places]
  | .list ds => intro p hp; obtain ⟨j, -, h⟩ := placesList_suffix path 0 ds p hp; exact (List.suffix_cons j path).trans h
  | .dict ds => intro p hp; obtain ⟨j, -, h⟩ := placesDict_suffix path 0 ds p hp; exact (List.suffix_cons j path).trans h
theorem placesList_suffix (path : List Nat) (i : Nat) (ds : List Dist) : ∀ p ∈ placesList path i ds, ∃ j, i ≤ j ∧ (j :: path) <:+ p := by
  match ds with
  | [] => simp [placesList]
  | d :: ds =>
    intro p hp
    simp only [placesList, List.mem_append] at hp
    rcases hp with hp | hp
    · exact ⟨i, le_rfl, places_suffix _ d p hp⟩
    · obtain ⟨j, hj, h⟩ := placesList_suffix path (i + 1) ds p hp
      exact ⟨j, by omega, h⟩
theorem placesDict_suffix (path : List Nat) (i : Nat) (ds : List (String × Dist)) : ∀ p ∈ placesDict path i ds, ∃ j, i ≤ j ∧ (j :: path) <:+ p := by
  match ds with
  | [] => simp [placesDict]
  | (_, d) :: ds =>
    intro p hp
    simp only [placesDict, List.mem_append] at hp
    rcases hp with hp | hp
    · exact ⟨i, le_rfl, places_suffix _ d p hp⟩
    · obtain ⟨j, hj, h⟩ := placesDict_suffix path (i + 1) ds p hp
      exact ⟨j, by omega, h⟩
end

mutual
theorem places_nodup (path : List Nat) (d : Dist) : (places path d).Nodup := by
  match d with
  | .leaf l => simp [places]
  | .list ds => exact placesList_nodup path 0 ds
  | .dict ds => exact placesDict_nodup path 0 ds
theorem placesList_nodup (path : List Nat) (i : Nat) (ds : List Dist) : (placesList path i ds).Nodup := by
  match ds with
  | [] => simp [placesList]
  | d :: ds =>
    simp only [placesList]
    refine List.Nodup.append (places_nodup _ d) (placesList_nodup path (i + 1) ds) ?_
    intro p h1 h2
    obtain ⟨j, hj, h⟩ := placesList_suffix path (i + 1) ds p h2
    exact suffix_not (by omega) (places_suffix _ d p h1) h
theorem placesDict_nodup (path : List Nat) (i : Nat) (ds : List (String × Dist)) : (placesDict path i ds).Nodup := by
  match ds with
  | [] => simp [placesDict]
  | (_, d) :: ds =>
    simp only [placesDict]
    refine List.Nodup.append (places_nodup _ d) (placesDict_nodup path (i + 1) ds) ?_
    intro p h1 h2
    obtain ⟨j, hj, h⟩ := placesDict_suffix path (i + 1) ds p h2
    exact suffix_not (by omega) (places_suffix _ d p h1) h
end

/-! ### The parts of the postprocessed variate -/

/-- The part that comes from a leaf. -/
def PartOf (draw : Draw) (path : List Nat) (l : Leaf) (X : List ℝ) (x : Value) : Prop := l.post draw path X = .ok x

theorem postInts_parts {draw : Draw} (path : List Nat) : ∀ (nvec : List Nat) (i : Nat) (ts : List (Tree (List ℝ))) (xs : List Int),
    ShapedList (nvec.map (fun n => .leaf (.cat n))) ts → postInts draw path i (nvec.map (fun n => .leaf (.cat n))) ts = .ok xs →
    ∃ Xs, flatList (nvec.map (fun n => .leaf (.cat n))) ts = some Xs ∧
      Each (PartOf draw) (placesList path i (nvec.map (fun n => .leaf (.cat n)))) (leavesList (nvec.map (fun n => .leaf (.cat n)))) Xs (xs.map .int)
  | [], i, [], xs, _, h => by
    simp only [List.map_nil, postInts, Except.ok.injEq] at h
    subst h
    exact ⟨[], by simp [flatList], .nil⟩
  | [], i, _ :: _, xs, h, _ => by simp [ShapedList] at h
  | n :: nvec, i, [], xs, h, _ => by simp [ShapedList] at h
  | n :: nvec, i, t :: ts, xs, hs, h => by
    simp only [List.map_cons, ShapedList] at hs
    cases t with
    | list _ => simp [Shaped] at hs
    | dict _ => simp [Shaped] at hs
    | leaf X =>
      simp only [List.map_cons, postInts] at h
      split at h
      · cases h
      · next x hx =>
        split at h
        · cases h
        · next ys hy =>
          cases h
          obtain ⟨Xs, h1, h2⟩ := postInts_parts path nvec (i + 1) ts ys hs.2 hy
          refine ⟨X :: Xs, by simp [flatList, flat, h1], ?_⟩
          simp only [List.map_cons, placesList, leavesList, places, leaves, List.singleton_append]
          exact .cons hx h2
      · cases h

theorem partsDict_cons {k : String} {u : Value} : ∀ {ss : List (String × Space)} {xs : List (String × Value)}, k ∉ ss.map Prod.fst → partsDict ss ((k, u) :: xs) = partsDict ss xs
  | [], _, _ => by simp [partsDict]
  | (k', d) :: ss, xs, h => by
    simp only [List.map_cons, List.mem_cons, not_or] at h
    simp only [partsDict, lookup_cons_ne (Ne.symm h.1), partsDict_cons h.2]

mutual
theorem post_parts {draw : Draw} (s : Space) (path : List Nat) {d : Dist} {t : Tree (List ℝ)} {y : Value} (h : mkDist s = .ok d) (hw : WF s) (ht : Shaped d t) (hy : post draw path s d t = .ok y) :
    ∃ Xs ys, flat d t = some Xs ∧ parts s y = some ys ∧ Each (PartOf draw) (places path d) (leaves d) Xs ys := by
  match s with
  | .discrete n start =>
    simp only [mkDist, Except.ok.injEq] at h
    subst h
    cases t with
    | leaf X =>
      simp only [post] at hy
      obtain ⟨x, rfl⟩ : ∃ x : Int, y = .int x := by
        simp only [Leaf.post] at hy
        split at hy
        · cases hy
        · split at hy
          · cases hy; exact ⟨_, rfl⟩
          · cases hy
      exact ⟨[X], [.int x], by simp [flat], by simp [parts], .cons hy .nil⟩
    | list l => simp [Shaped] at ht
    | dict l => simp [Shaped] at ht
  | .box bounds =>
    obtain ⟨rfl, hc⟩ := mkDist_box h
    cases t with
    | leaf X =>
      simp only [post] at hy
      obtain ⟨x, rfl⟩ : ∃ x, y = .floats x := by
        simp only [Leaf.post] at hy
        split at hy
        · cases hy
        · cases hy; exact ⟨_, rfl⟩
      exact ⟨[X], [.floats x], by simp [flat], by simp [parts], .cons hy .nil⟩
    | list l => simp [Shaped] at ht
    | dict l => simp [Shaped] at ht
  | .multiDiscrete nvec =>
    simp only [mkDist, Except.ok.injEq] at h
    subst h
    cases t with
    | leaf X => simp [Shaped] at ht
    | dict l => simp [Shaped] at ht
    | list ts =>
      simp only [post] at hy
      split at hy
      · cases hy
      · next xs hx =>
        have : y = .ints xs := by cases xs <;> simp [stack] at hy; exact hy.symm
        subst this
        obtain ⟨Xs, h1, h2⟩ := postInts_parts path nvec 0 ts xs (by simpa only [Shaped] using ht) hx
        exact ⟨Xs, _, by simpa only [flat] using h1, by simp only [parts], h2⟩
  | .multiBinary n =>
    simp only [mkDist, Except.ok.injEq, replicate_eq] at h
    subst h
    cases t with
    | leaf X => simp [Shaped] at ht
    | dict l => simp [Shaped] at ht
    | list ts =>
      simp only [post] at hy
      split at hy
      · cases hy
      · next xs hx =>
        have : y = .ints xs := by cases xs <;> simp [stack] at hy; exact hy.symm
        subst this
        obtain ⟨Xs, h1, h2⟩ := postInts_parts path (List.replicate n 2) 0 ts xs (by simpa only [Shaped] using ht) hx
        exact ⟨Xs, _, by simpa only [flat] using h1, by simp only [parts], h2⟩
  | .tuple ss =>
    simp only [mkDist] at h
    split at h
    · cases h
    · next ds hds =>
      cases h
      cases t with
      | leaf X => simp [Shaped] at ht
      | dict l => simp [Shaped] at ht
      | list ts =>
        simp only [post] at hy
        split at hy
        · cases hy
        · next xs hx =>
          cases hy
          obtain ⟨Xs, ys, h1, h2, h3⟩ := post_partsList ss path 0 hds (by simpa only [WF] using hw) (by simpa only [Shaped] using ht) hx
          exact ⟨Xs, ys, by simpa only [flat] using h1, by simpa only [parts] using h2, h3⟩
  | .dict ss =>
    simp only [mkDist] at h
    split at h
    · cases h
    · next ds hds =>
      cases h
      cases t with
      | leaf X => simp [Shaped] at ht
      | list l => simp [Shaped] at ht
      | dict ts =>
        simp only [post] at hy
        split at hy
        · cases hy
        · next xs hx =>
          cases hy
          obtain ⟨Xs, ys, h1, h2, h3⟩ := post_partsDict ss path 0 hds (by simpa only [WF] using hw) (by simpa only [Shaped] using ht) hx
          exact ⟨Xs, ys, by simpa only [flat] using h1, by simpa only [parts] using h2, h3⟩
  | .other => simp [mkDist] at h
theorem post_partsList {draw : Draw} (ss : List Space) (path : List Nat) (i : Nat) {ds : List Dist} {ts : List (Tree (List ℝ))} {y : List Value} (h : mkDists ss = .ok ds) (hw : WFList ss)
    (ht : ShapedList ds ts) (hy : postList draw path i ss ds ts = .ok y) :
    ∃ Xs ys, flatList ds ts = some Xs ∧ partsList ss y = some ys ∧ Each (PartOf draw) (placesList path i ds) (leavesList ds) Xs ys := by
  match ss with
  | [] =>
    simp only [mkDists, Except.ok.injEq] at h
    subst h
    cases ts with
    | cons _ _ => simp [ShapedList] at ht
    | nil =>
      simp only [postList, Except.ok.injEq] at hy
      subst hy
      exact ⟨[], [], by simp [flatList], by simp [partsList], .nil⟩
  | s :: ss =>
    obtain ⟨d, ds', h1, h2, rfl⟩ := mkDists_cons h
    simp only [WFList] at hw
    cases ts with
    | nil => simp [ShapedList] at ht
    | cons t ts =>
      simp only [ShapedList] at ht
      simp only [postList] at hy
      split at hy
      · cases hy
      · next x hx =>
        split at hy
        · cases hy
        · next xs hxs =>
          cases hy
          obtain ⟨Xs, ys, k1, k2, k3⟩ := post_parts s (i :: path) h1 hw.1 ht.1 hx
          obtain ⟨Xs', ys', k1', k2', k3'⟩ := post_partsList ss path (i + 1) h2 hw.2 ht.2 hxs
          exact ⟨Xs ++ Xs', ys ++ ys', by simp [flatList, k1, k1'], by simp only [partsList, k2, k2'], k3.append k3'⟩
theorem post_partsDict {draw : Draw} (ss : List (String × Space)) (path : List Nat) (i : Nat) {ds : List (String × Dist)} {ts : List (String × Tree (List ℝ))} {y : List (String × Value)}
    (h : mkDistDict ss = .ok ds) (hw : WFDict ss) (ht : ShapedDict ds ts) (hy : postDict draw path i ss ds ts = .ok y) :
    ∃ Xs ys, flatDict ds ts = some Xs ∧ partsDict ss y = some ys ∧ Each (PartOf draw) (placesDict path i ds) (leavesDict ds) Xs ys := by
  match ss with
  | [] =>
    simp only [mkDistDict, Except.ok.injEq] at h
    subst h
    exact ⟨[], [], by simp [flatDict], by simp [partsDict], .nil⟩
  | (k, s) :: ss =>
    obtain ⟨d, ds', h1, h2, rfl⟩ := mkDistDict_cons h
    simp only [WFDict] at hw
    simp only [ShapedDict] at ht
    obtain ⟨⟨t, hl, ht1⟩, ht2⟩ := ht
    simp only [postDict, hl] at hy
    split at hy
    · cases hy
    · next x hx =>
      split at hy
      · cases hy
      · next xs hxs =>
        cases hy
        obtain ⟨Xs, ys, k1, k2, k3⟩ := post_parts s (i :: path) h1 hw.2.1 ht1 hx
        obtain ⟨Xs', ys', k1', k2', k3'⟩ := post_partsDict ss path (i + 1) h2 hw.2.2 ht2 hxs
        refine ⟨Xs ++ Xs', ys ++ ys', by simp [flatDict, hl, k1, k1'], ?_, k3.append k3'⟩
        simp only [partsDict, List.lookup_cons, beq_self_eq_true, partsDict_cons hw.1, k2, k2']
end

end Coax.Dists
