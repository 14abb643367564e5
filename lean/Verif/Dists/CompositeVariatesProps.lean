import Verif.Dists.CompositeVariates
import Verif.Dists.CompositeProps

/-! Property C76: preprocessing and postprocessing of variates of nested spaces. -/

namespace Coax.Dists

/-! ### Specification -/

/-- An entry of a Box within a bound that may be infinite. -/
def Within (b : Option ℝ × Option ℝ) (x : ℝ) : Prop := (∀ l, b.1 = some l → l ≤ x) ∧ ∀ h, b.2 = some h → x ≤ h

mutual
/-- `x in space`, as gymnasium defines it. -/
def Mem : Space → Value → Prop
  | .discrete n start, .int x => start ≤ x ∧ x < start + n
  | .box bounds, .floats xs => List.Forall₂ Within bounds xs
  | .multiDiscrete nvec, .ints xs => List.Forall₂ (fun (n : Nat) (x : Int) => 0 ≤ x ∧ x < n) nvec xs
  | .multiBinary n, .ints xs => xs.length = n ∧ ∀ x ∈ xs, x = 0 ∨ x = 1
  | .tuple ss, .tuple xs => MemList ss xs
  | .dict ss, .dict xs => (∀ k, k ∈ xs.map Prod.fst ↔ k ∈ ss.map Prod.fst) ∧ MemDict ss xs
  | _, _ => False
def MemList : List Space → List Value → Prop
  | [], [] => True
  | s :: ss, x :: xs => Mem s x ∧ MemList ss xs
  | _, _ => False
def MemDict : List (String × Space) → List (String × Value) → Prop
  | [], _ => True
  | (k, s) :: ss, xs => (∃ x, xs.lookup k = some x ∧ Mem s x) ∧ MemDict ss xs
end

mutual
/-- Spaces as gymnasium builds them, in which all Discrete spaces start at 0 and no MultiDiscrete or MultiBinary is empty. -/
def WF : Space → Prop
  | .discrete n start => 0 < n ∧ start = 0
  | .box _ => True
  | .multiDiscrete nvec => nvec ≠ [] ∧ ∀ n ∈ nvec, 0 < n
  | .multiBinary n => 0 < n
  | .tuple ss => WFList ss
  | .dict ss => WFDict ss
  | .other => False
def WFList : List Space → Prop
  | [] => True
  | s :: ss => WF s ∧ WFList ss
def WFDict : List (String × Space) → Prop
  | [] => True
  | (k, s) :: ss => k ∉ ss.map Prod.fst ∧ WF s ∧ WFDict ss
end

/-- `y` is the number closest to `x` between the bounds and within -256 and 256, up to 1e-13 of the width of that interval. -/
def CloseEntry (b : Option ℝ × Option ℝ) (x y : ℝ) : Prop :=
  ∃ lo hi, lo = max (b.1.getD (-256)) (-256) ∧ hi = min (b.2.getD 256) 256 ∧ |y - min (max x lo) hi| ≤ 1e-13 * (hi - lo)

mutual
/-- The same member, up to rounding errors of the entries of Boxes. -/
def Close : Space → Value → Value → Prop
  | .box bounds, .floats xs, .floats ys => xs.length = bounds.length ∧ ys.length = bounds.length ∧ ∀ (i : Nat) b x y, bounds[i]? = some b → xs[i]? = some x → ys[i]? = some y → CloseEntry b x y
  | .tuple ss, .tuple xs, .tuple ys => CloseList ss xs ys
  | .dict ss, .dict xs, .dict ys => CloseDict ss xs ys
  | .discrete _ _, x, y => x = y
  | .multiDiscrete _, x, y => x = y
  | .multiBinary _, x, y => x = y
  | _, _, _ => False
def CloseList : List Space → List Value → List Value → Prop
  | [], [], [] => True
  | s :: ss, x :: xs, y :: ys => Close s x y ∧ CloseList ss xs ys
  | _, _, _ => False
def CloseDict : List (String × Space) → List (String × Value) → List (String × Value) → Prop
  | [], _, _ => True
  | (k, s) :: ss, xs, ys => (∃ x y, xs.lookup k = some x ∧ ys.lookup k = some y ∧ Close s x y) ∧ CloseDict ss xs ys
end

mutual
/-- A raw variate with the structure of the distribution and arrays of the right size. -/
def Shaped : Dist → Tree (List ℝ) → Prop
  | .leaf l, .leaf x => x.length = l.size
  | .list ds, .list ts => ShapedList ds ts
  | .dict ds, .dict ts => ShapedDict ds ts
  | _, _ => False
def ShapedList : List Dist → List (Tree (List ℝ)) → Prop
  | [], [] => True
  | d :: ds, t :: ts => Shaped d t ∧ ShapedList ds ts
  | _, _ => False
def ShapedDict : List (String × Dist) → List (String × Tree (List ℝ)) → Prop
  | [], _ => True
  | (k, d) :: ds, ts => (∃ t, ts.lookup k = some t ∧ Shaped d t) ∧ ShapedDict ds ts
end

/-- The random choices are among the candidates. -/
def DrawsAll (draw : Draw) : Prop := ∀ path n, Draws (draw path n)

/-! ### Leaves -/

theorem checkVec_ok {n : Nat} {z : List ℝ} (h : z.length = n) : checkVec n z = .ok (fun k : Fin n => z.getD k 0) := by
  unfold checkVec vec
  simp [h]

theorem leaf_pre_cat {n : Nat} (x : Int) : (Leaf.cat n).pre (.int x) = .ok (List.ofFn (fun k : Fin n => if (k.1 : Int) = x then (1 : ℝ) else 0)) := by
  simp [Leaf.pre, preprocess]

theorem ofFn_getD {n : Nat} (f : Fin n → ℝ) : (fun k : Fin n => (List.ofFn f).getD k 0) = f := by
  funext k
  simp

theorem leaf_post_cat {n : Nat} (hn : 0 < n) {draw : Draw} (hd : DrawsAll draw) (path : List Nat) {X : List ℝ} (hX : X.length = n) :
    ∃ a : Fin n, (Leaf.cat n).post draw path X = .ok (.int a.1) ∧ ∀ j : Fin n, X.getD j 0 ≤ X.getD a 0 := by
  obtain ⟨a, ha, hmax⟩ := argmax_spec (hd path n) hn (fun k : Fin n => X.getD k 0)
  refine ⟨a, ?_, hmax⟩
  simp only [Leaf.post]
  rw [checkVec_ok hX]
  simp only [ha]

theorem leaf_round_cat {n : Nat} {draw : Draw} (hd : DrawsAll draw) (path : List Nat) {x : Int} (h0 : 0 ≤ x) (h1 : x < n) :
    ∃ X, (Leaf.cat n).pre (.int x) = .ok X ∧ X.length = n ∧ (Leaf.cat n).post draw path X = .ok (.int x) := by
  have hn : 0 < n := by omega
  refine ⟨_, leaf_pre_cat x, by simp, ?_⟩
  obtain ⟨a, ha, hmax⟩ := leaf_post_cat hn hd path (X := List.ofFn (fun k : Fin n => if (k.1 : Int) = x then (1 : ℝ) else 0)) (by simp)
  rw [ha]
  have := hmax ⟨x.toNat, by omega⟩
  have e := ofFn_getD (fun k : Fin n => if (k.1 : Int) = x then (1 : ℝ) else 0)
  have e1 := congrFun e ⟨x.toNat, by omega⟩
  have e2 := congrFun e a
  simp only at e1 e2
  rw [e1, e2, if_pos (by omega)] at this
  split at this
  · next h => rw [h]
  · norm_num at this

theorem boxConfig_init {bounds : List (Option ℝ × Option ℝ)} {c : NormalConfig bounds.length} (h : (boxConfig bounds).init = .ok c) : c = boxConfig bounds ∧ (boxConfig bounds).init = .ok (boxConfig bounds) := by
  have := h
  unfold NormalConfig.init at h
  split at h
  · cases h; exact ⟨rfl, this⟩
  · cases h

theorem leaf_post_normal {bounds : List (Option ℝ × Option ℝ)} (hc : (boxConfig bounds).init = .ok (boxConfig bounds)) (draw : Draw) (path : List Nat) {X : List ℝ} (hX : X.length = bounds.length) :
    ∃ ys, (Leaf.normal _ (boxConfig bounds)).post draw path X = .ok (.floats ys) ∧ List.Forall₂ Within bounds ys := by
  refine ⟨_, by simp only [Leaf.post]; rw [checkVec_ok hX], ?_⟩
  rw [List.forall₂_iff_get]
  refine ⟨by simp, fun i h1 h2 => ?_⟩
  have := (C50_postprocess_in_box hc (fun k => X.getD k 0)).1 ⟨i, h1⟩
  simpa [Within, boxConfig] using this

theorem clip_preprocess {d : Nat} {c : NormalConfig d} (hc : c.init = .ok c) (x : Fin d → ℝ) :
    normalPreprocess c x = normalPreprocess c (fun i => min (max (x i) (c.low i)) (c.high i)) := by
  have h := (C50_init c).1.1 hc
  funext i
  unfold normalPreprocess
  have : clip (x i) (c.low i) (c.high i) = clip (min (max (x i) (c.low i)) (c.high i)) (c.low i) (c.high i) := by
    unfold clip
    have := (h i).le
    rw [max_eq_left (le_min (le_max_right _ _) this), min_assoc, min_self]
  simp only [this]

theorem leaf_round_normal {bounds : List (Option ℝ × Option ℝ)} (hc : (boxConfig bounds).init = .ok (boxConfig bounds)) {xs : List ℝ} (hx : xs.length = bounds.length) :
    ∃ X, (Leaf.normal _ (boxConfig bounds)).pre (.floats xs) = .ok X ∧ X.length = bounds.length ∧
      ∀ draw path, ∃ y, (Leaf.normal _ (boxConfig bounds)).post draw path X = .ok y ∧ Close (.box bounds) (.floats xs) y := by
  have h := (C50_init _).1.1 hc
  refine ⟨_, by simp only [Leaf.pre]; rw [checkVec_ok hx], by simp, fun draw path => ⟨_, by simp only [Leaf.post]; rw [checkVec_ok (by simp), ofFn_getD], ?_⟩⟩
  simp only [Close]
  refine ⟨hx, by simp, fun i b x y hb hx' hy => ?_⟩
  have hi : i < bounds.length := (List.getElem?_eq_some_iff.1 hb).1
  have hb' : bounds.get ⟨i, hi⟩ = b := by simpa [hi] using hb
  have hxi : xs.getD i 0 = x := by simp [List.getD_eq_getElem?_getD, hx']
  simp only [List.getElem?_ofFn, hi, dif_pos, Option.some.injEq] at hy
  have hlo : (boxConfig bounds).low ⟨i, hi⟩ = max (b.1.getD (-256)) (-256) := by
    simp only [NormalConfig.low, boxConfig, hb']
    cases b.1 <;> simp
  have hhi : (boxConfig bounds).high ⟨i, hi⟩ = min (b.2.getD 256) 256 := by
    simp only [NormalConfig.high, boxConfig, hb']
    cases b.2 <;> simp
  refine ⟨_, _, rfl, rfl, ?_⟩
  rw [← hlo, ← hhi, ← hy, ← hxi, clip_preprocess hc]
  exact C50_action_round_trip hc rfl _ (fun j => ⟨le_min (le_max_right _ _) (h j).le, min_le_right _ _⟩) ⟨i, hi⟩

/-! ### Lists of integers -/

theorem postInts_ok {draw : Draw} (hd : DrawsAll draw) (path : List Nat) : ∀ (nvec : List Nat) (i : Nat) (ts : List (Tree (List ℝ))), (∀ n ∈ nvec, 0 < n) →
    ShapedList (nvec.map (fun n => .leaf (.cat n))) ts →
    ∃ xs, postInts draw path i (nvec.map (fun n => .leaf (.cat n))) ts = .ok xs ∧ List.Forall₂ (fun (n : Nat) (x : Int) => 0 ≤ x ∧ x < n) nvec xs
  | [], i, ts, _, _ => ⟨[], by simp [postInts], by simp⟩
  | n :: nvec, i, [], _, h => by simp [ShapedList] at h
  | n :: nvec, i, t :: ts, hn, h => by
    simp only [List.map_cons, ShapedList] at h
    obtain ⟨h1, h2⟩ := h
    cases t with
    | leaf X =>
      simp only [Shaped] at h1
      obtain ⟨a, ha, -⟩ := leaf_post_cat (hn n (by simp)) hd (i :: path) h1
      obtain ⟨xs, hxs, hm⟩ := postInts_ok hd path nvec (i + 1) ts (fun m hm => hn m (by simp [hm])) h2
      refine ⟨(a.1 : Int) :: xs, ?_, ?_⟩
      · simp only [List.map_cons, postInts, ha, hxs]
      · simp only [List.forall₂_cons, hm, and_true]
        have := a.2
        omega
    | list l => simp [Shaped] at h1
    | dict l => simp [Shaped] at h1

theorem roundInts : ∀ (nvec : List Nat) (xs : List Int), List.Forall₂ (fun (n : Nat) (x : Int) => 0 ≤ x ∧ x < n) nvec xs →
    ∃ ts, preInts (nvec.map (fun n => .leaf (.cat n))) xs = .ok ts ∧ ShapedList (nvec.map (fun n => .leaf (.cat n))) ts ∧
      ∀ draw path i, DrawsAll draw → postInts draw path i (nvec.map (fun n => .leaf (.cat n))) ts = .ok xs
  | [], [], _ => ⟨[], by simp [preInts], by simp [ShapedList], fun _ _ _ _ => by simp [postInts]⟩
  | n :: nvec, x :: xs, h => by
    simp only [List.forall₂_cons] at h
    obtain ⟨ts, h1, h2, h3⟩ := roundInts nvec xs h.2
    have key := fun draw path (hd : DrawsAll draw) => leaf_round_cat hd path h.1.1 h.1.2
    have e := leaf_pre_cat (n := n) x
    refine ⟨.leaf (List.ofFn (fun k : Fin n => if (k.1 : Int) = x then (1 : ℝ) else 0)) :: ts, by simp only [List.map_cons, preInts, e, h1], ?_, fun draw path i hd => ?_⟩
    · simp only [List.map_cons, ShapedList, Shaped, h2, and_true, List.length_ofFn]
    · obtain ⟨X, k1, -, k3⟩ := key draw (i :: path) hd
      rw [e, Except.ok.injEq] at k1
      subst k1
      simp only [List.map_cons, postInts, k3, h3 draw path (i + 1) hd]

theorem replicate_eq (n : Nat) : List.replicate n (Dist.leaf (.cat 2)) = (List.replicate n 2).map (fun n => .leaf (.cat n)) := by simp

theorem binary_iff (n : Nat) (xs : List Int) : List.Forall₂ (fun (n : Nat) (x : Int) => 0 ≤ x ∧ x < n) (List.replicate n 2) xs ↔ xs.length = n ∧ ∀ x ∈ xs, x = 0 ∨ x = 1 := by
  induction n generalizing xs with
  | zero => cases xs <;> simp
  | succ n ih =>
    cases xs with
    | nil => simp [List.replicate_succ]
    | cons x xs =>
      rw [List.replicate_succ, List.forall₂_cons, ih]
      simp only [List.length_cons, Nat.add_right_cancel_iff, List.mem_cons, forall_eq_or_imp]
      have : (0 ≤ x ∧ x < ((2 : Nat) : Int)) ↔ (x = 0 ∨ x = 1) := by omega
      rw [this]
      tauto

theorem stack_ok {xs : List Int} (h : xs ≠ []) : stack xs = .ok (.ints xs) := by
  cases xs <;> simp_all [stack]

/-! ### Dicts -/

theorem mkDistDict_keys : ∀ {ss : List (String × Space)} {ds : List (String × Dist)}, mkDistDict ss = .ok ds → ds.map Prod.fst = ss.map Prod.fst
  | [], ds, h => by simp only [mkDistDict, Except.ok.injEq] at h; subst h; rfl
  | (k, s) :: ss, ds, h => by
    simp only [mkDistDict] at h
    split at h
    · cases h
    · split at h
      · cases h
      · next h' =>
        cases h
        simp [mkDistDict_keys h']

theorem lookup_cons_ne {α : Type _} {k k' : String} (h : k' ≠ k) (u : α) (ts : List (String × α)) : ((k, u) :: ts).lookup k' = ts.lookup k' := by
  have : (k' == k) = false := by simpa using h
  simp [List.lookup_cons, this]

theorem memDict_cons {k : String} {u : Value} : ∀ {ss : List (String × Space)} {xs : List (String × Value)}, k ∉ ss.map Prod.fst → MemDict ss xs → MemDict ss ((k, u) :: xs)
  | [], _, _, _ => trivial
  | (k', s) :: ss, xs, h, hm => by
    simp only [List.map_cons, List.mem_cons, not_or] at h
    simp only [MemDict] at hm ⊢
    rw [lookup_cons_ne (Ne.symm h.1)]
    exact ⟨hm.1, memDict_cons h.2 hm.2⟩

theorem shapedDict_cons {k : String} {u : Tree (List ℝ)} : ∀ {ds : List (String × Dist)} {ts : List (String × Tree (List ℝ))}, k ∉ ds.map Prod.fst → ShapedDict ds ts → ShapedDict ds ((k, u) :: ts)
  | [], _, _, _ => trivial
  | (k', s) :: ss, xs, h, hm => by
    simp only [List.map_cons, List.mem_cons, not_or] at h
    simp only [ShapedDict] at hm ⊢
    rw [lookup_cons_ne (Ne.symm h.1)]
    exact ⟨hm.1, shapedDict_cons h.2 hm.2⟩

theorem closeDict_cons {k : String} {u : Value} : ∀ {ss : List (String × Space)} {xs ys : List (String × Value)}, k ∉ ss.map Prod.fst → CloseDict ss xs ys → CloseDict ss xs ((k, u) :: ys)
  | [], _, _, _, _ => trivial
  | (k', s) :: ss, xs, ys, h, hm => by
    simp only [List.map_cons, List.mem_cons, not_or] at h
    simp only [CloseDict] at hm ⊢
    rw [lookup_cons_ne (Ne.symm h.1)]
    exact ⟨hm.1, closeDict_cons h.2 hm.2⟩

theorem postDict_cons (draw : Draw) (path : List Nat) {k : String} {u : Tree (List ℝ)} : ∀ (i : Nat) {ss : List (String × Space)} {ds : List (String × Dist)} {ts : List (String × Tree (List ℝ))},
    k ∉ ds.map Prod.fst → postDict draw path i ss ds ((k, u) :: ts) = postDict draw path i ss ds ts
  | i, [], [], ts, h => by simp [postDict]
  | i, [], _ :: _, ts, h => by simp [postDict]
  | i, _ :: _, [], ts, h => by simp [postDict]
  | i, (_, s) :: ss, (k', d) :: ds, ts, h => by
    simp only [List.map_cons, List.mem_cons, not_or] at h
    simp only [postDict]
    rw [lookup_cons_ne (Ne.symm h.1), postDict_cons draw path (i + 1) h.2]

/-! ### The theorems -/

theorem mkDist_tuple {ss : List Space} {d : Dist} (h : mkDist (.tuple ss) = .ok d) : ∃ ds, mkDists ss = .ok ds ∧ d = .list ds := by
  simp only [mkDist] at h
  split at h
  · cases h
  · next ds h' => cases h; exact ⟨ds, h', rfl⟩

theorem mkDist_dict {ss : List (String × Space)} {d : Dist} (h : mkDist (.dict ss) = .ok d) : ∃ ds, mkDistDict ss = .ok ds ∧ d = .dict ds := by
  simp only [mkDist] at h
  split at h
  · cases h
  · next ds h' => cases h; exact ⟨ds, h', rfl⟩

theorem mkDists_cons {s : Space} {ss : List Space} {ds : List Dist} (h : mkDists (s :: ss) = .ok ds) : ∃ d ds', mkDist s = .ok d ∧ mkDists ss = .ok ds' ∧ ds = d :: ds' := by
  simp only [mkDists] at h
  split at h
  · cases h
  · next d h' =>
    split at h
    · cases h
    · next ds' h'' => cases h; exact ⟨d, ds', h', h'', rfl⟩

theorem mkDistDict_cons {k : String} {s : Space} {ss : List (String × Space)} {ds : List (String × Dist)} (h : mkDistDict ((k, s) :: ss) = .ok ds) :
    ∃ d ds', mkDist s = .ok d ∧ mkDistDict ss = .ok ds' ∧ ds = (k, d) :: ds' := by
  simp only [mkDistDict] at h
  split at h
  · cases h
  · next d h' =>
    split at h
    · cases h
    · next ds' h'' => cases h; exact ⟨d, ds', h', h'', rfl⟩

theorem mkDist_box {bounds : List (Option ℝ × Option ℝ)} {d : Dist} (h : mkDist (.box bounds) = .ok d) :
    d = .leaf (.normal _ (boxConfig bounds)) ∧ (boxConfig bounds).init = .ok (boxConfig bounds) := by
  simp only [mkDist] at h
  split at h
  · cases h
  · next c h' =>
    cases h
    obtain ⟨rfl, h''⟩ := boxConfig_init h'
    exact ⟨rfl, h''⟩

theorem forall₂_ne_nil {α β : Type _} {R : α → β → Prop} {l : List α} {m : List β} (h : List.Forall₂ R l m) (hl : l ≠ []) : m ≠ [] := by
  rintro rfl
  cases h
  exact hl rfl

mutual
theorem clean {draw : Draw} (hd : DrawsAll draw) (s : Space) (path : List Nat) {d : Dist} {t : Tree (List ℝ)} (h : mkDist s = .ok d) (hw : WF s) (ht : Shaped d t) :
    ∃ y, post draw path s d t = .ok y ∧ Mem s y := by
  match s with
  | .discrete n start =>
    simp only [mkDist, Except.ok.injEq] at h
    subst h
    simp only [WF] at hw
    cases t with
    | leaf X =>
      obtain ⟨a, ha, -⟩ := leaf_post_cat hw.1 hd path (X := X) (by simpa [Shaped] using ht)
      refine ⟨_, by simp only [post]; exact ha, ?_⟩
      simp only [Mem, hw.2]
      have := a.2
      omega
    | list l => simp [Shaped] at ht
    | dict l => simp [Shaped] at ht
  | .box bounds =>
    obtain ⟨rfl, hc⟩ := mkDist_box h
    cases t with
    | leaf X =>
      obtain ⟨ys, hy, hm⟩ := leaf_post_normal hc draw path (X := X) (by simpa [Shaped] using ht)
      exact ⟨_, by simp only [post]; exact hy, by simpa only [Mem] using hm⟩
    | list l => simp [Shaped] at ht
    | dict l => simp [Shaped] at ht
  | .multiDiscrete nvec =>
    simp only [mkDist, Except.ok.injEq] at h
    subst h
    simp only [WF] at hw
    cases t with
    | leaf X => simp [Shaped] at ht
    | dict l => simp [Shaped] at ht
    | list ts =>
      obtain ⟨xs, hx, hm⟩ := postInts_ok hd path nvec 0 ts hw.2 (by simpa only [Shaped] using ht)
      exact ⟨_, by simp only [post, hx]; exact stack_ok (forall₂_ne_nil hm hw.1), by simpa only [Mem] using hm⟩
  | .multiBinary n =>
    simp only [mkDist, Except.ok.injEq, replicate_eq] at h
    subst h
    simp only [WF] at hw
    cases t with
    | leaf X => simp [Shaped] at ht
    | dict l => simp [Shaped] at ht
    | list ts =>
      obtain ⟨xs, hx, hm⟩ := postInts_ok hd path (List.replicate n 2) 0 ts (fun m hm => by rw [(List.mem_replicate.1 hm).2]; omega) (by simpa only [Shaped] using ht)
      refine ⟨_, by simp only [post, hx]; exact stack_ok (forall₂_ne_nil hm (by simp; omega)), ?_⟩
      simp only [Mem]
      exact (binary_iff n xs).1 hm
  | .tuple ss =>
    obtain ⟨ds, hds, rfl⟩ := mkDist_tuple h
    simp only [WF] at hw
    cases t with
    | leaf X => simp [Shaped] at ht
    | dict l => simp [Shaped] at ht
    | list ts =>
      obtain ⟨xs, hx, hm⟩ := cleanList hd ss path 0 hds hw (by simpa only [Shaped] using ht)
      exact ⟨_, by simp only [post, hx]; rfl, by simpa only [Mem] using hm⟩
  | .dict ss =>
    obtain ⟨ds, hds, rfl⟩ := mkDist_dict h
    simp only [WF] at hw
    cases t with
    | leaf X => simp [Shaped] at ht
    | list l => simp [Shaped] at ht
    | dict ts =>
      obtain ⟨xs, hx, hk, hm⟩ := cleanDict hd ss path 0 hds hw (by simpa only [Shaped] using ht)
      refine ⟨_, by simp only [post, hx]; rfl, ?_⟩
      simp only [Mem, hk, implies_true, true_and]
      exact hm
  | .other => simp [mkDist] at h

theorem cleanList {draw : Draw} (hd : DrawsAll draw) (ss : List Space) (path : List Nat) (i : Nat) {ds : List Dist} {ts : List (Tree (List ℝ))} (h : mkDists ss = .ok ds) (hw : WFList ss) (ht : ShapedList ds ts) :
    ∃ ys, postList draw path i ss ds ts = .ok ys ∧ MemList ss ys := by
  match ss with
  | [] =>
    simp only [mkDists, Except.ok.injEq] at h
    subst h
    exact ⟨[], by simp [postList], by simp [MemList]⟩
  | s :: ss =>
    obtain ⟨d, ds', h1, h2, rfl⟩ := mkDists_cons h
    simp only [WFList] at hw
    cases ts with
    | nil => simp [ShapedList] at ht
    | cons t ts =>
      simp only [ShapedList] at ht
      obtain ⟨y, hy, hm⟩ := clean hd s (i :: path) h1 hw.1 ht.1
      obtain ⟨ys, hys, hms⟩ := cleanList hd ss path (i + 1) h2 hw.2 ht.2
      exact ⟨y :: ys, by simp only [postList, hy, hys], by simp only [MemList]; exact ⟨hm, hms⟩⟩

theorem cleanDict {draw : Draw} (hd : DrawsAll draw) (ss : List (String × Space)) (path : List Nat) (i : Nat) {ds : List (String × Dist)} {ts : List (String × Tree (List ℝ))} (h : mkDistDict ss = .ok ds) (hw : WFDict ss)
    (ht : ShapedDict ds ts) : ∃ ys, postDict draw path i ss ds ts = .ok ys ∧ ys.map Prod.fst = ss.map Prod.fst ∧ MemDict ss ys := by
  match ss with
  | [] =>
    simp only [mkDistDict, Except.ok.injEq] at h
    subst h
    exact ⟨[], by simp [postDict], rfl, by simp [MemDict]⟩
  | (k, s) :: ss =>
    obtain ⟨d, ds', h1, h2, rfl⟩ := mkDistDict_cons h
    simp only [WFDict] at hw
    simp only [ShapedDict] at ht
    obtain ⟨⟨t, hl, ht1⟩, ht2⟩ := ht
    obtain ⟨y, hy, hm⟩ := clean hd s (i :: path) h1 hw.2.1 ht1
    obtain ⟨ys, hys, hk, hms⟩ := cleanDict hd ss path (i + 1) h2 hw.2.2 ht2
    refine ⟨(k, y) :: ys, by simp only [postDict, hl, hy, hys], by simp [hk], ?_⟩
    simp only [MemDict, List.lookup_cons, beq_self_eq_true]
    exact ⟨⟨y, rfl, hm⟩, memDict_cons hw.1 hms⟩
end

mutual
theorem round (s : Space) {d : Dist} {x : Value} (h : mkDist s = .ok d) (hw : WF s) (hx : Mem s x) :
    ∃ t, pre s d x = .ok t ∧ Shaped d t ∧ ∀ draw path, DrawsAll draw → ∃ y, post draw path s d t = .ok y ∧ Close s x y := by
  match s with
  | .discrete n start =>
    simp only [mkDist, Except.ok.injEq] at h
    subst h
    simp only [WF] at hw
    obtain ⟨-, rfl⟩ := hw
    cases x with
    | int x =>
      simp only [Mem, zero_add] at hx
      have e := leaf_pre_cat (n := n) x
      refine ⟨.leaf (List.ofFn (fun k : Fin n => if (k.1 : Int) = x then (1 : ℝ) else 0)), by simp only [pre, e], by simp [Shaped], fun draw path hd => ?_⟩
      obtain ⟨X, k1, -, k3⟩ := leaf_round_cat hd path hx.1 hx.2
      rw [e, Except.ok.injEq] at k1
      subst k1
      exact ⟨_, by simp only [post]; exact k3, by simp [Close]⟩
    | _ => simp [Mem] at hx
  | .box bounds =>
    obtain ⟨rfl, hc⟩ := mkDist_box h
    cases x with
    | floats xs =>
      simp only [Mem] at hx
      obtain ⟨X, h1, h2, h3⟩ := leaf_round_normal hc (xs := xs) hx.length_eq.symm
      exact ⟨.leaf X, by simp only [pre, h1], by simpa [Shaped] using h2, fun draw path _ => by simpa only [post] using h3 draw path⟩
    | _ => simp [Mem] at hx
  | .multiDiscrete nvec =>
    simp only [mkDist, Except.ok.injEq] at h
    subst h
    simp only [WF] at hw
    cases x with
    | ints xs =>
      simp only [Mem] at hx
      obtain ⟨ts, h1, h2, h3⟩ := roundInts nvec xs hx
      exact ⟨.list ts, by simp only [pre, h1], by simpa only [Shaped] using h2, fun draw path hd => ⟨.ints xs, by simp only [post, h3 draw path 0 hd]; exact stack_ok (forall₂_ne_nil hx hw.1), by simp [Close]⟩⟩
    | _ => simp [Mem] at hx
  | .multiBinary n =>
    simp only [mkDist, Except.ok.injEq, replicate_eq] at h
    subst h
    simp only [WF] at hw
    cases x with
    | ints xs =>
      simp only [Mem] at hx
      have hx' := (binary_iff n xs).2 hx
      obtain ⟨ts, h1, h2, h3⟩ := roundInts (List.replicate n 2) xs hx'
      exact ⟨.list ts, by simp only [pre, h1], by simpa only [Shaped] using h2, fun draw path hd =>
        ⟨.ints xs, by simp only [post, h3 draw path 0 hd]; exact stack_ok (forall₂_ne_nil hx' (by simp; omega)), by simp [Close]⟩⟩
    | _ => simp [Mem] at hx
  | .tuple ss =>
    obtain ⟨ds, hds, rfl⟩ := mkDist_tuple h
    simp only [WF] at hw
    cases x with
    | tuple xs =>
      simp only [Mem] at hx
      obtain ⟨ts, h1, h2, h3⟩ := roundList ss hds hw hx
      refine ⟨.list ts, by simp only [pre, h1], by simpa only [Shaped] using h2, fun draw path hd => ?_⟩
      obtain ⟨ys, hy, hc⟩ := h3 draw path 0 hd
      exact ⟨.tuple ys, by simp only [post, hy], by simpa only [Close] using hc⟩
    | _ => simp [Mem] at hx
  | .dict ss =>
    obtain ⟨ds, hds, rfl⟩ := mkDist_dict h
    simp only [WF] at hw
    cases x with
    | dict xs =>
      simp only [Mem] at hx
      obtain ⟨ts, h1, h2, h3⟩ := roundDict ss hds hw hx.2
      refine ⟨.dict ts, by simp only [pre, h1], by simpa only [Shaped] using h2, fun draw path hd => ?_⟩
      obtain ⟨ys, hy, hc⟩ := h3 draw path 0 hd
      exact ⟨.dict ys, by simp only [post, hy], by simpa only [Close] using hc⟩
    | _ => simp [Mem] at hx
  | .other => simp [mkDist] at h

theorem roundList (ss : List Space) {ds : List Dist} {xs : List Value} (h : mkDists ss = .ok ds) (hw : WFList ss) (hx : MemList ss xs) :
    ∃ ts, preList ss ds xs = .ok ts ∧ ShapedList ds ts ∧ ∀ draw path i, DrawsAll draw → ∃ ys, postList draw path i ss ds ts = .ok ys ∧ CloseList ss xs ys := by
  match ss with
  | [] =>
    simp only [mkDists, Except.ok.injEq] at h
    subst h
    cases xs with
    | nil => exact ⟨[], by simp [preList], by simp [ShapedList], fun _ _ _ _ => ⟨[], by simp [postList], by simp [CloseList]⟩⟩
    | cons => simp [MemList] at hx
  | s :: ss =>
    obtain ⟨d, ds', h1, h2, rfl⟩ := mkDists_cons h
    simp only [WFList] at hw
    cases xs with
    | nil => simp [MemList] at hx
    | cons x xs =>
      simp only [MemList] at hx
      obtain ⟨t, k1, k2, k3⟩ := round s h1 hw.1 hx.1
      obtain ⟨ts, m1, m2, m3⟩ := roundList ss h2 hw.2 hx.2
      refine ⟨t :: ts, by simp only [preList, k1, m1], by simp only [ShapedList]; exact ⟨k2, m2⟩, fun draw path i hd => ?_⟩
      obtain ⟨y, hy, hc⟩ := k3 draw (i :: path) hd
      obtain ⟨ys, hys, hcs⟩ := m3 draw path (i + 1) hd
      exact ⟨y :: ys, by simp only [postList, hy, hys], by simp only [CloseList]; exact ⟨hc, hcs⟩⟩

theorem roundDict (ss : List (String × Space)) {ds : List (String × Dist)} {xs : List (String × Value)} (h : mkDistDict ss = .ok ds) (hw : WFDict ss) (hx : MemDict ss xs) :
    ∃ ts, preDict ss ds xs = .ok ts ∧ ShapedDict ds ts ∧ ∀ draw path i, DrawsAll draw → ∃ ys, postDict draw path i ss ds ts = .ok ys ∧ CloseDict ss xs ys := by
  match ss with
  | [] =>
    simp only [mkDistDict, Except.ok.injEq] at h
    subst h
    exact ⟨[], by simp [preDict], by simp [ShapedDict], fun _ _ _ _ => ⟨[], by simp [postDict], by simp [CloseDict]⟩⟩
  | (k, s) :: ss =>
    obtain ⟨d, ds', h1, h2, rfl⟩ := mkDistDict_cons h
    simp only [WFDict] at hw
    simp only [MemDict] at hx
    obtain ⟨⟨x, hl, hx1⟩, hx2⟩ := hx
    have hk : k ∉ ds'.map Prod.fst := by rw [mkDistDict_keys h2]; exact hw.1
    obtain ⟨t, k1, k2, k3⟩ := round s h1 hw.2.1 hx1
    obtain ⟨ts, m1, m2, m3⟩ := roundDict ss h2 hw.2.2 hx2
    refine ⟨(k, t) :: ts, by simp only [preDict, hl, k1, m1], ?_, fun draw path i hd => ?_⟩
    · simp only [ShapedDict, List.lookup_cons, beq_self_eq_true]
      exact ⟨⟨t, rfl, k2⟩, shapedDict_cons hk m2⟩
    · obtain ⟨y, hy, hc⟩ := k3 draw (i :: path) hd
      obtain ⟨ys, hys, hcs⟩ := m3 draw path (i + 1) hd
      refine ⟨(k, y) :: ys, ?_, ?_⟩
      · simp only [postDict, List.lookup_cons, beq_self_eq_true, hy, postDict_cons draw path (i + 1) hk, hys]
      · simp only [CloseDict, List.lookup_cons, beq_self_eq_true]
        exact ⟨⟨x, y, hl, rfl, hc⟩, closeDict_cons hw.1 hcs⟩
end

mutual
theorem shaped_flat {d : Dist} {t : Tree (List ℝ)} (h : Shaped d t) : ∃ xs, flat d t = some xs ∧ List.Forall₂ (fun l (x : List ℝ) => x.length = l.size) (leaves d) xs := by
  match d, t with
  | .leaf l, .leaf x => exact ⟨[x], by simp [flat], by simpa [leaves, Shaped] using h⟩
  | .list ds, .list ts =>
    simp only [Shaped] at h
    obtain ⟨xs, h1, h2⟩ := shaped_flatList h
    exact ⟨xs, by simpa only [flat] using h1, by simpa only [leaves] using h2⟩
  | .dict ds, .dict ts =>
    simp only [Shaped] at h
    obtain ⟨xs, h1, h2⟩ := shaped_flatDict h
    exact ⟨xs, by simpa only [flat] using h1, by simpa only [leaves] using h2⟩
  | .leaf _, .list _ => simp [Shaped] at h
  | .leaf _, .dict _ => simp [Shaped] at h
  | .list _, .leaf _ => simp [Shaped] at h
  | .list _, .dict _ => simp [Shaped] at h
  | .dict _, .leaf _ => simp [Shaped] at h
  | .dict _, .list _ => simp [Shaped] at h
theorem shaped_flatList {ds : List Dist} {ts : List (Tree (List ℝ))} (h : ShapedList ds ts) : ∃ xs, flatList ds ts = some xs ∧ List.Forall₂ (fun l (x : List ℝ) => x.length = l.size) (leavesList ds) xs := by
  match ds, ts with
  | [], [] => exact ⟨[], by simp [flatList], by simp [leavesList]⟩
  | d :: ds, t :: ts =>
    simp only [ShapedList] at h
    obtain ⟨x, h1, h2⟩ := shaped_flat h.1
    obtain ⟨xs, h3, h4⟩ := shaped_flatList h.2
    exact ⟨x ++ xs, by simp [flatList, h1, h3], by simp only [leavesList]; exact List.rel_append h2 h4⟩
  | [], _ :: _ => simp [ShapedList] at h
  | _ :: _, [] => simp [ShapedList] at h
theorem shaped_flatDict {ds : List (String × Dist)} {ts : List (String × Tree (List ℝ))} (h : ShapedDict ds ts) : ∃ xs, flatDict ds ts = some xs ∧ List.Forall₂ (fun l (x : List ℝ) => x.length = l.size) (leavesDict ds) xs := by
  match ds with
  | [] => exact ⟨[], by simp [flatDict], by simp [leavesDict]⟩
  | (k, d) :: ds =>
    simp only [ShapedDict] at h
    obtain ⟨⟨t, hl, ht⟩, h'⟩ := h
    obtain ⟨x, h1, h2⟩ := shaped_flat ht
    obtain ⟨xs, h3, h4⟩ := shaped_flatDict h'
    exact ⟨x ++ xs, by simp [flatDict, hl, h1, h3], by simp only [leavesDict]; exact List.rel_append h2 h4⟩
end

/-- C76: whatever raw variate of the right shape is postprocessed, the result is a member of the space.  (Missing: Discrete spaces that do not start at 0, for which it is false.) -/
theorem C76_clean_partial {s : Space} {d : Dist} (h : mkDist s = .ok d) (hw : WF s) {draw : Draw} (hd : DrawsAll draw) {t : Tree (List ℝ)} (ht : Shaped d t) : ∃ y, post draw [] s d t = .ok y ∧ Mem s y :=
  clean hd s [] h hw ht

/-- C76: a member of the space that is preprocessed and postprocessed again is the same member; entries of Boxes are restricted to the interval from -256 to 256 and agree up to 1e-13 of the
width of the Box.  The preprocessed member is a variate for which the distribution, with any parameters of the right shape, has a log-probability.  (Missing: Discrete spaces that do not
start at 0, for which it is false.) -/
theorem C76_round_trip_partial {s : Space} {d : Dist} (h : mkDist s = .ok d) (hw : WF s) {x : Value} (hx : Mem s x) :
    ∃ t, pre s d x = .ok t ∧ (∀ draw, DrawsAll draw → ∃ y, post draw [] s d t = .ok y ∧ Close s x y) ∧
      ∀ p ps, Fits d p ps → ∀ k, ∃ lp, d.logProba k p t = .ok lp := by
  obtain ⟨t, h1, h2, h3⟩ := round s h hw hx
  refine ⟨t, h1, fun draw hd => h3 draw [] hd, fun p ps hp k => ?_⟩
  obtain ⟨xs, hf, hl⟩ := shaped_flat h2
  let o : Outcome (leaves d) := fun i j => (xs.getD i []).getD j 0
  refine ⟨_, logProba_eq hp k o (X := t) ?_⟩
  rw [hf]
  congr 1
  refine List.ext_getElem ?_ ?_
  · rw [← hl.length_eq]; simp [arrays]
  · intro i h4 h5
    have hi : i < (leaves d).length := by rw [hl.length_eq]; exact h4
    have h6 := hl.get hi h4
    have h7 := arrays_getD o ⟨i, hi⟩
    simp only [List.getD_eq_getElem?_getD, List.getElem?_eq_getElem h5, Option.getD_some] at h7
    rw [h7]
    simp only [List.get_eq_getElem] at h6
    refine List.ext_getElem (by simpa using h6) (fun j h8 h9 => ?_)
    simp [o, h4, h8]

/-- For a Discrete space of any size that does not start at 0 both claims are false: some member does not survive the round trip, and some variate is postprocessed to a number that is not
a member. -/
theorem C76_counterexample {n : Nat} (hn : 0 < n) {start : Int} (hs : start ≠ 0) {draw : Draw} (hd : DrawsAll draw) :
    ∃ d x t y t' y', mkDist (.discrete n start) = .ok d ∧ Mem (.discrete n start) x ∧ pre (.discrete n start) d x = .ok t ∧
      post draw [] (.discrete n start) d t = .ok y ∧ ¬ Close (.discrete n start) x y ∧
      Shaped d t' ∧ post draw [] (.discrete n start) d t' = .ok y' ∧ ¬ Mem (.discrete n start) y' := by
  obtain ⟨x, hx, hx'⟩ : ∃ x : Int, (start ≤ x ∧ x < start + n) ∧ ¬ (0 ≤ x ∧ x < n) := by
    by_cases h : 0 < start
    · exact ⟨start + n - 1, by omega, by omega⟩
    · exact ⟨start, by omega, by omega⟩
  obtain ⟨z, hz, hz'⟩ : ∃ z : Int, (0 ≤ z ∧ z < n) ∧ ¬ (start ≤ z ∧ z < start + n) := by
    by_cases h : 0 < start
    · exact ⟨0, by omega, by omega⟩
    · exact ⟨n - 1, by omega, by omega⟩
  obtain ⟨a, ha, -⟩ := leaf_post_cat (n := n) hn hd [] (X := List.ofFn (fun k : Fin n => if (k.1 : Int) = x then (1 : ℝ) else 0)) (by simp)
  obtain ⟨X, -, h2, h3⟩ := leaf_round_cat (n := n) hd [] (x := z) hz.1 hz.2
  refine ⟨_, .int x, .leaf (List.ofFn (fun k : Fin n => if (k.1 : Int) = x then (1 : ℝ) else 0)), .int a.1, .leaf X, .int z, rfl, by simpa [Mem] using hx, by simp only [pre, leaf_pre_cat],
    by simp only [post]; exact ha, ?_, by simpa [Shaped] using h2, by simp only [post]; exact h3, by simpa only [Mem] using hz'⟩
  simp only [Close, Value.int.injEq]
  have := a.2
  omega

theorem mem_dict {ss : List (String × Space)} {xs : List (String × Value)} (h1 : ∀ k, k ∈ xs.map Prod.fst ↔ k ∈ ss.map Prod.fst) (h2 : MemDict ss xs) : Mem (.dict ss) (.dict xs) := by
  simp only [Mem]; exact ⟨h1, h2⟩

theorem mem_dict_cons {k : String} {s : Space} {ss : List (String × Space)} {xs : List (String × Value)} {x : Value} (h1 : xs.lookup k = some x) (h2 : Mem s x) (h3 : MemDict ss xs) : MemDict ((k, s) :: ss) xs := by
  simp only [MemDict]; exact ⟨⟨x, h1, h2⟩, h3⟩

/-- The hypotheses of `C76_round_trip_partial` can be met by a nested space. -/
example : ∃ (d : Dist) (x : Value), mkDist (.dict [("a", .discrete 3 0), ("b", .tuple [.box [(some (-1), some 1)], .multiDiscrete [2, 5]])]) = .ok d ∧
    WF (.dict [("a", .discrete 3 0), ("b", .tuple [.box [(some (-1), some 1)], .multiDiscrete [2, 5]])]) ∧
    Mem (.dict [("a", .discrete 3 0), ("b", .tuple [.box [(some (-1), some 1)], .multiDiscrete [2, 5]])]) x := by
  have hc : (boxConfig [(some (-1), some 1)]).init = .ok (boxConfig [(some (-1), some 1)]) := by
    rw [(C50_init _).1]
    intro i
    have hi : i = ⟨0, by simp⟩ := Fin.ext (Nat.lt_one_iff.1 i.2)
    subst hi
    simp [boxConfig, NormalConfig.low, NormalConfig.high]
  refine ⟨_, .dict [("b", .tuple [.floats [0.5], .ints [1, 4]]), ("a", .int 2)], by simp only [mkDist, mkDists, mkDistDict, hc]; rfl, ?_, ?_⟩
  · simp [WF, WFList, WFDict]
  · refine mem_dict (fun k => by simp [or_comm]) (mem_dict_cons (x := .int 2) rfl ?_ (mem_dict_cons (x := .tuple [.floats [0.5], .ints [1, 4]]) rfl ?_ ?_))
    · simp [Mem]
    · simp only [Mem, MemList, and_true]
      refine ⟨?_, by simp⟩
      simp only [List.forall₂_cons, List.forall₂_nil_left_iff, and_true, Within]
      norm_num
    · simp [MemDict]

end Coax.Dists
