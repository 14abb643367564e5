import Verif.Replay.PrioritizedLemmas
import Verif.SegmentTree.SetAll

namespace Coax.Replay

open Coax.SegmentTree (readAt writeAll lastW lastW_none lastW_nil lastW_cons writeAll_ok lastAssigned denotes Inv IdxArg
  readAt_of_some unital_add mapM_ok mapM_error broadcast Reachable)

variable {σ : Type _}

/-- The slot of an identifier.  (`coax/experience_replay/_prioritized.py:201`.) -/
def slotOf (cap : Nat) (i : Int) : Nat := (i % (cap : Int)).toNat

/-- The live identifier in a filled slot.  (`coax/experience_replay/_prioritized.py:202-206`.) -/
def liveId (cap L p : Nat) : Nat := p + cap * ((L - 1 - p) / cap)

theorem liveId_spec {cap L p : Nat} (hc : 0 < cap) (hp : p < cap) (hL : p < L) :
    liveId cap L p < L ∧ L ≤ liveId cap L p + cap ∧ liveId cap L p % cap = p := by
  unfold liveId
  refine ⟨?_, ?_, ?_⟩
  · have := Nat.mul_div_le (L - 1 - p) cap
    omega
  · have h1 := Nat.div_add_mod (L - 1 - p) cap
    have h2 := Nat.mod_lt (L - 1 - p) hc
    omega
  · rw [Nat.add_mul_mod_self_left, Nat.mod_eq_of_lt hp]

theorem slotOf_lt {cap : Nat} (hc : 0 < cap) (i : Int) : slotOf cap i < cap := SegmentTree.emod_toNat_lt hc i

theorem slotOf_nat {cap : Nat} (i : Nat) : slotOf cap (i : Int) = i % cap := by
  exact (congrArg Int.toNat (Int.natCast_mod i cap).symm).trans (Int.toNat_natCast _)

theorem slotOf_eq_iff {cap : Nat} (hc : 0 < cap) (i j : Int) : slotOf cap i = slotOf cap j ↔ i % (cap : Int) = j % (cap : Int) := by
  unfold slotOf
  have h1 := Int.emod_nonneg i (show (cap : Int) ≠ 0 by omega)
  have h2 := Int.emod_nonneg j (show (cap : Int) ≠ 0 by omega)
  omega

variable {cap : Nat} {s : PSys σ} {sp : PSpec σ}

theorem assign_snoc (pairs : List (Int × ℝ)) (q : Int × ℝ) :
    sp.assign cap (pairs ++ [q]) =
      if sp.Live cap q.1 then (sp.assign cap pairs).set q.1.toNat (|q.2| + sp.epsilon) else sp.assign cap pairs := by
  unfold PSpec.assign
  rw [List.foldl_append]; rfl

theorem assign_nil : sp.assign cap [] = sp.doc := rfl

theorem assign_length (pairs : List (Int × ℝ)) : (sp.assign cap pairs).length = sp.doc.length := by
  induction pairs using List.reverseRecOn with
  | nil => rfl
  | append_singleton ps q ih => rw [assign_snoc]; split <;> simp [ih]

theorem assign_not_mem {i : Nat} (pairs : List (Int × ℝ)) (h : ∀ q ∈ pairs, q.1 ≠ (i : Int)) :
    (sp.assign cap pairs)[i]? = sp.doc[i]? := by
  induction pairs using List.reverseRecOn with
  | nil => rfl
  | append_singleton ps q ih =>
    have h1 := h q (by simp)
    have h2 := ih (fun q' hq' => h q' (by simp [hq']))
    rw [assign_snoc]
    split
    · rename_i hl
      have : q.1.toNat ≠ i := by
        have := hl.1
        omega
      rw [List.getElem?_set_ne this, h2]
    · exact h2

theorem clean_snoc {l : List Int} {j : Int} (h : sp.Clean cap (l ++ [j])) :
    sp.Clean cap l ∧ (¬ sp.Live cap j → ∀ i ∈ l, sp.Live cap i → i % (cap : Int) ≠ j % (cap : Int)) := by
  constructor
  · intro a b i j' hab hi hj
    have hb : b < l.length := (List.getElem?_eq_some_iff.1 hj).1
    exact h a b i j' hab (by rw [List.getElem?_append_left (by omega)]; exact hi)
      (by rw [List.getElem?_append_left hb]; exact hj)
  · intro hn i hi hli he
    obtain ⟨a, ha, e⟩ := List.getElem_of_mem hi
    exact hn (h a l.length i j ha (by rw [List.getElem?_append_left ha, List.getElem?_eq_getElem ha, e])
      (by simp) hli he)

/-- What `update` writes for one listed pair.  (`coax/experience_replay/_prioritized.py:202-206`.) -/
noncomputable def written (cap : Nat) (sp : PSpec σ) (q : Int × ℝ) : Nat × ℝ :=
  (slotOf cap q.1,
   if ((liveId cap sp.log.length (slotOf cap q.1) : Nat) : Int) = q.1 then (|q.2| + sp.epsilon) ^ sp.alpha
   else (sp.base[liveId cap sp.log.length (slotOf cap q.1)]?.getD 0) ^ sp.alpha)

theorem live_nat {i : Nat} : sp.Live cap (i : Int) ↔ i < sp.log.length ∧ sp.log.length ≤ i + cap := by
  unfold PSpec.Live; omega

theorem overwrite_length (pairs : List (Int × ℝ)) : (sp.overwrite cap pairs).length = sp.base.length := by
  simp [PSpec.overwrite]

theorem overwrite_pos (he : 0 < sp.epsilon) (hb : ∀ x ∈ sp.base, 0 < x) (pairs : List (Int × ℝ)) :
    ∀ x ∈ sp.overwrite cap pairs, 0 < x := by
  intro y hy
  unfold PSpec.overwrite at hy
  obtain ⟨i, hi, rfl⟩ := List.mem_mapIdx.1 hy
  have := hb _ (List.getElem_mem hi)
  split
  · split
    · split
      · positivity
      · exact this
    · exact this
  · exact this

/-- The new base of a live identifier. -/
theorem overwrite_live {i : Nat} (hi : sp.Live cap (i : Int)) {x : ℝ} (hx : sp.base[i]? = some x)
    (pairs : List (Int × ℝ)) : (sp.overwrite cap pairs)[i]? = some
      (match (pairs.filter (fun q => decide (q.1 % (cap : Int) = (i : Int) % (cap : Int)))).getLast? with
      | some q => if q.1 = i then |q.2| + sp.epsilon else x
      | none => x) := by
  unfold PSpec.overwrite
  rw [List.getElem?_mapIdx, hx, Option.map_some, if_pos hi]
  rfl

theorem overwrite_snoc {i : Nat} (hi : sp.Live cap (i : Int)) {x : ℝ} (hx : sp.base[i]? = some x)
    (ps : List (Int × ℝ)) (q : Int × ℝ) : (sp.overwrite cap (ps ++ [q]))[i]? =
      if q.1 % (cap : Int) = (i : Int) % (cap : Int) then some (if q.1 = i then |q.2| + sp.epsilon else x)
      else (sp.overwrite cap ps)[i]? := by
  rw [overwrite_live hi hx, overwrite_live hi hx, List.filter_append]
  by_cases h : q.1 % (cap : Int) = (i : Int) % (cap : Int)
  · simp [h]
  · simp [h]

theorem assign_eq_overwrite (hc : 0 < cap) (hb : sp.doc = sp.base) (hbl : sp.base.length = sp.log.length)
    (pairs : List (Int × ℝ)) (hcl : sp.Clean cap (pairs.map (·.1))) : sp.assign cap pairs = sp.overwrite cap pairs := by
  apply List.ext_getElem?
  intro i
  by_cases hi : i < sp.base.length
  · obtain ⟨x, hx⟩ : ∃ x, sp.base[i]? = some x := ⟨_, List.getElem?_eq_getElem hi⟩
    by_cases hl : sp.Live cap (i : Int)
    · have hl' := live_nat.1 hl
      induction pairs using List.reverseRecOn with
      | nil => rw [overwrite_live hl hx, assign_nil, hb, hx]; rfl
      | append_singleton ps q ih =>
        obtain ⟨j, a⟩ := q
        rw [List.map_append] at hcl
        obtain ⟨hcl1, hcl2⟩ := clean_snoc hcl
        have ih := ih hcl1
        rw [overwrite_snoc hl hx, assign_snoc]
        dsimp only
        by_cases hslot : j % (cap : Int) = (i : Int) % (cap : Int)
        · rw [if_pos hslot]
          by_cases hji : j = i
          · subst hji
            rw [if_pos hl, if_pos rfl]
            have : i < (sp.assign cap ps).length := by rw [assign_length, hb]; omega
            simp [this]
          · have hnl : ¬ sp.Live cap j := by
              intro hlj
              obtain ⟨j', rfl⟩ : ∃ j' : Nat, j = j' := ⟨j.toNat, by have := hlj.1; omega⟩
              have hl'' := live_nat.1 hlj
              rw [← slotOf_eq_iff hc, slotOf_nat, slotOf_nat] at hslot
              exact hji (by rw [live_unique hl''.1 hl''.2 hl'.1 hl'.2 hslot])
            rw [if_neg hnl, if_neg hji, assign_not_mem, hb, hx]
            intro q hq he
            exact hcl2 hnl q.1 (List.mem_map.2 ⟨q, hq, rfl⟩) (he ▸ hl) (by rw [he, hslot])
        · rw [if_neg hslot]
          split
          · rename_i hlj
            have : j.toNat ≠ i := by
              rintro rfl
              apply hslot
              rw [Int.toNat_of_nonneg hlj.1]
            rw [List.getElem?_set_ne this]; exact ih
          · exact ih
    · have h1 : (sp.overwrite cap pairs)[i]? = some x := by
        unfold PSpec.overwrite
        rw [List.getElem?_mapIdx, hx, Option.map_some, if_neg hl]
      rw [h1]
      clear hcl h1
      induction pairs using List.reverseRecOn with
      | nil => rw [assign_nil, hb, hx]
      | append_singleton ps q ih =>
        rw [assign_snoc]
        split
        · rename_i hlj
          have : q.1.toNat ≠ i := by
            rintro rfl
            apply hl
            rw [Int.toNat_of_nonneg hlj.1]; exact hlj
          rw [List.getElem?_set_ne this]; exact ih
        · exact ih
  · rw [List.getElem?_eq_none (by rw [assign_length, hb]; omega), List.getElem?_eq_none (by rw [overwrite_length]; omega)]

theorem update_value (hc : 0 < cap) {i : Nat} (hi : i < sp.log.length)
    (hi2 : sp.log.length ≤ i + cap) {x : ℝ} (hx : sp.base[i]? = some x) (pairs : List (Int × ℝ)) :
    ∃ x', (sp.overwrite cap pairs)[i]? = some x' ∧
      (lastW (pairs.map (written cap sp)) (i % cap)).or (some (x ^ sp.alpha)) = some (x' ^ sp.alpha) := by
  have hm : i % cap < cap := Nat.mod_lt _ hc
  have hlive : sp.Live cap (i : Int) := live_nat.2 ⟨hi, hi2⟩
  have hlid : liveId cap sp.log.length (i % cap) = i := by
    have hle := Nat.mod_le i cap
    obtain ⟨h1, h2, h3⟩ := liveId_spec (L := sp.log.length) hc hm (by omega)
    exact live_unique h1 h2 hi hi2 h3
  induction pairs using List.reverseRecOn with
  | nil => exact ⟨x, by rw [overwrite_live hlive hx]; rfl, by simp [lastW_nil]⟩
  | append_singleton ps q ih =>
    obtain ⟨j, a⟩ := q
    rw [overwrite_snoc hlive hx, List.map_append, List.map_singleton, lastW_snoc]
    by_cases hslot : slotOf cap j = i % cap
    · have hw : (written cap sp (j, a)).1 = i % cap := hslot
      rw [if_pos hw, if_pos (by rw [← slotOf_eq_iff hc, hslot, slotOf_nat])]
      refine ⟨_, rfl, ?_⟩
      by_cases hji : j = i
      · subst hji
        simp [written, hslot, hlid]
      · have hne : ¬ ((i : Int) = j) := fun e => hji e.symm
        simp [written, hslot, hlid, hne, hji, hx]
    · have hw : (written cap sp (j, a)).1 ≠ i % cap := hslot
      rw [if_neg hw, if_neg (by rw [← slotOf_eq_iff hc, slotOf_nat]; exact hslot)]
      exact ih

theorem PHolds.storedId (h : PHolds cap s sp) {p : Nat} (hp : p < cap) (hL : p < sp.log.length) :
    s.storedId p = .ok ((liveId cap sp.log.length p : Nat) : Int) := by
  obtain ⟨h1, h2, h3⟩ := liveId_spec h.cap_pos hp hL
  obtain ⟨r, row, e1, e2, e3⟩ := h.full _ h1 h2
  rw [h3] at e1
  simp [PSys.storedId, e1, e3]

theorem PHolds.storedId_empty (h : PHolds cap s sp) {p : Nat} (hp : p < cap) (hL : sp.log.length ≤ p) :
    s.storedId p = .error .attributeError := by
  simp [PSys.storedId, h.empty p hp hL]

theorem update_lists {γ : Type _} (idx : List Int) (Adv : List ℝ) (hlen : idx.length = Adv.length) (slot : Int → Nat)
    (g : Nat → Int) (old : Nat → γ) (pr : ℝ → γ) :
    List.zipWith (fun (m : Bool) (v : γ × γ) => if m then v.1 else v.2)
      (List.zipWith (fun i j => decide (i = j)) ((idx.map slot).map g) idx) ((Adv.map pr).zip ((idx.map slot).map old)) =
    (idx.zip Adv).map (fun q => if g (slot q.1) = q.1 then pr q.2 else old (slot q.1)) := by
  induction idx generalizing Adv with
  | nil => simp
  | cons i idx ih =>
    cases Adv with
    | nil => simp at hlen
    | cons a Adv =>
      have := ih Adv (by simpa using hlen)
      simp only [List.map_cons, List.zip_cons_cons, List.zipWith_cons_cons, this, decide_eq_true_eq]

/-- The outcome of an accepted `update`, without the cleanness condition. -/
theorem PHolds.update_run (h : PHolds cap s sp) {idx : List Int} {Adv : List ℝ} (hacc : sp.Accepts cap idx Adv) :
    ∃ tree', s.update idx Adv = ({ s with buf := { s.buf with tree := tree' } }, none) ∧
      Inv cap (· + ·) 0 tree' ∧ Reachable cap (· + ·) 0 tree' ∧
      ∀ p, p < cap → tree'.values[p]? = (lastW ((idx.zip Adv).map (written cap sp)) p).or s.buf.tree.values[p]? := by
  have hc := h.cap_pos
  obtain ⟨hlen, hne, hfill⟩ := hacc
  have hfill' : ∀ p ∈ idx.map (slotOf cap), p < cap ∧ p < sp.log.length := by
    intro p hp
    obtain ⟨i, hi, rfl⟩ := List.mem_map.1 hp
    have h1 := hfill i hi
    have h2 := Int.emod_nonneg i (show (cap : Int) ≠ 0 by omega)
    exact ⟨slotOf_lt hc i, by unfold slotOf; omega⟩
  have e1 : (idx.map (slotOf cap)).mapM s.storedId =
      .ok ((idx.map (slotOf cap)).map (fun p => ((liveId cap sp.log.length p : Nat) : Int))) :=
    mapM_ok (fun p hp => h.storedId (hfill' p hp).1 (hfill' p hp).2)
  have e2 : (idx.map (slotOf cap)).mapM (readAt s.buf.tree.values) =
      .ok ((idx.map (slotOf cap)).map (fun p => (sp.base[liveId cap sp.log.length p]?.getD 0) ^ sp.alpha)) := by
    apply mapM_ok
    intro p hp
    obtain ⟨h1, h2, h3⟩ := liveId_spec hc (hfill' p hp).1 (hfill' p hp).2
    obtain ⟨x, hx1, hx2⟩ := h.vals _ h1 h2
    rw [h3] at hx2
    rw [readAt_of_some hx2, hx1]; rfl
  have e3 := update_lists idx Adv hlen (slotOf cap) (fun p => ((liveId cap sp.log.length p : Nat) : Int))
    (fun p => (sp.base[liveId cap sp.log.length p]?.getD 0) ^ sp.alpha) s.buf.priority
  generalize hnew : (idx.zip Adv).map (fun q => if ((liveId cap sp.log.length (slotOf cap q.1) : Nat) : Int) = q.1 then
    s.buf.priority q.2 else (sp.base[liveId cap sp.log.length (slotOf cap q.1)]?.getD 0) ^ sp.alpha) = new at e3
  have hnl : new.length = idx.length := by rw [← hnew]; simp [hlen]
  obtain ⟨tree', etr, hinv', _, hv⟩ := h.tree.setValues_ok
    (idx := .arr ((idx.map (slotOf cap)).map (fun (p : Nat) => (p : Int))))
    (by
      simp only [IdxArg.toList, List.mem_map]
      rintro _ ⟨_, ⟨i, _, rfl⟩, rfl⟩
      have := slotOf_lt hc i
      omega)
    (vals := new) (vals' := new) (by
      unfold broadcast
      rw [if_pos (by simp [IdxArg.toList, hnl])])
  refine ⟨tree', ?_, hinv', reachable_step h.reach etr, ?_⟩
  · unfold PSys.update
    rw [if_neg (by simpa using hlen), if_neg (by simpa using hne)]
    rw [h.cap_eq]
    change (match (idx.map (slotOf cap)).mapM s.storedId with
      | .error e => _
      | .ok ids => _) = _
    rw [e1]
    dsimp only
    change (match (idx.map (slotOf cap)).mapM (readAt s.buf.tree.values) with
      | .error e => _
      | .ok old => _) = _
    rw [e2]
    dsimp only
    rw [e3]
    change (match s.buf.tree.setValues (.arr ((idx.map (slotOf cap)).map (fun (p : Nat) => (p : Int)))) new with
      | .error e => _
      | .ok old => _) = _
    rw [etr]
  · intro p hp
    rw [hv p hp]
    simp only [IdxArg.toList]
    rw [lastAssigned_nat _ _ hp]
    congr 2
    rw [← hnew]
    clear e3 hnew hnl etr hv e1 e2 hfill' hfill hne
    induction idx generalizing Adv with
    | nil => simp
    | cons i idx ih =>
      cases Adv with
      | nil => simp at hlen
      | cons a Adv =>
        simp only [List.map_cons, List.zip_cons_cons]
        rw [ih (by simpa using hlen)]
        simp [written, PBuf.priority, h.alpha_eq, h.eps_eq]

theorem PHolds.update (h : PHolds cap s sp) {idx : List Int} {Adv : List ℝ}
    (hacc : sp.Accepts cap idx Adv) :
    PHolds cap (s.update idx Adv).1 { sp with
        base := sp.overwrite cap (idx.zip Adv)
        doc := sp.assign cap (idx.zip Adv)
        tame := sp.tame ∧ sp.Clean cap idx } ∧ (s.update idx Adv).2 = none := by
  have hc := h.cap_pos
  obtain ⟨tree', e, hinv', hre, hv⟩ := h.update_run hacc
  have hfst : (idx.zip Adv).map (·.1) = idx := by
    rw [List.map_fst_zip]; exact hacc.1.le
  rw [e]
  refine ⟨{ h with base_len := ?_, base_pos := ?_, tree := hinv', reach := hre, vals := ?_, zeros := ?_, tame_eq := ?_ }, rfl⟩
  · simp [overwrite_length, h.base_len]
  · exact overwrite_pos h.eps_pos h.base_pos _
  · intro i h1 h2
    obtain ⟨x, hx, hxv⟩ := h.vals i h1 h2
    obtain ⟨x', e1, e2⟩ := update_value (sp := sp) hc h1 h2 hx (idx.zip Adv)
    refine ⟨x', e1, ?_⟩
    dsimp only at h1 h2 ⊢
    rw [hv _ (Nat.mod_lt _ hc), hxv]
    exact e2
  · intro p h1 h2
    dsimp only at h2 ⊢
    rw [hv p h1, lastW_none]
    · simpa using h.zeros p h1 h2
    · intro q hq he
      obtain ⟨⟨i, a⟩, hia, rfl⟩ := List.mem_map.1 hq
      have h3 := hacc.2.2 i (List.of_mem_zip hia).1
      have h4 := Int.emod_nonneg i (show (cap : Int) ≠ 0 by omega)
      simp only [written, slotOf] at he
      omega
  · rintro ⟨ht, hcl⟩
    exact assign_eq_overwrite hc (h.tame_eq ht) h.base_len _ (by rw [hfst]; exact hcl)

theorem PHolds.updateRejected (h : PHolds cap s sp) {idx : List Int} {Adv : List ℝ} (hacc : ¬ sp.Accepts cap idx Adv) :
    ∃ e, s.update idx Adv = (s, some e) ∧
      (idx.length ≠ Adv.length → e = .assertionError) ∧
      (idx.length = Adv.length → idx ≠ [] → e = .attributeError) := by
  have hc := h.cap_pos
  unfold PSys.update
  by_cases h1 : idx.length = Adv.length
  · rw [if_neg (by simpa using h1)]
    by_cases h2 : idx = []
    · rw [if_pos (by simpa using h2)]
      exact ⟨_, rfl, fun hn => absurd h1 hn, fun _ hn => absurd h2 hn⟩
    · rw [if_neg (by simpa using h2)]
      have h3 : ∃ i ∈ idx, ¬ i % (cap : Int) < sp.log.length := by
        by_contra hcon
        push Not at hcon
        exact hacc ⟨h1, h2, hcon⟩
      rw [h.cap_eq]
      refine ⟨.attributeError, ?_, fun hn => absurd h1 hn, fun _ _ => rfl⟩
      change (match (idx.map (slotOf cap)).mapM s.storedId with
        | .error e => _
        | .ok ids => _) = _
      have : (idx.map (slotOf cap)).mapM s.storedId = .error .attributeError := by
        apply mapM_error
        · intro p hp
          obtain ⟨i, _, rfl⟩ := List.mem_map.1 hp
          have hlt := slotOf_lt hc i
          by_cases hL : slotOf cap i < sp.log.length
          · exact .inl ⟨_, h.storedId hlt hL⟩
          · exact .inr (h.storedId_empty hlt (by omega))
        · obtain ⟨i, hi, hn⟩ := h3
          refine ⟨slotOf cap i, List.mem_map.2 ⟨i, hi, rfl⟩, h.storedId_empty (slotOf_lt hc i) ?_⟩
          unfold slotOf; omega
      rw [this]
  · rw [if_pos (by simpa using h1)]
    exact ⟨_, rfl, fun _ => rfl, fun hn => absurd hn h1⟩

open Classical in
/-- What the setter of `alpha` does to a positive weight `x ^ alpha`. -/
theorem rescale {x a a' : ℝ} (hx : 0 < x) (ha : 0 < a) :
    Real.exp (Real.log (max (x ^ a) 1e-15) * (a' / a)) = (if x ^ a < 1e-15 then (1e-15 : ℝ) ^ (1 / a) else x) ^ a' := by
  split
  · rename_i h
    rw [max_eq_right h.le, ← Real.rpow_mul (by norm_num), Real.rpow_def_of_pos (by norm_num)]
    congr 1
    ring
  · rename_i h
    rw [max_eq_left (not_lt.1 h), Real.log_rpow hx, Real.rpow_def_of_pos hx]
    congr 1
    field_simp

theorem PHolds.setAlpha (h : PHolds cap s sp) {a : ℝ} (ha : 0 < a) (hclose : ¬ isClose a sp.alpha) :
    PHolds cap (s.setAlpha a).1
      { sp with alpha := a, base := sp.clamped, tame := sp.tame ∧ ∀ x ∈ sp.doc, 1e-15 ≤ x ^ sp.alpha } ∧
      (s.setAlpha a).2 = none := by
  have hc := h.cap_pos
  obtain ⟨tree', e, hinv', hv⟩ := h.tree.set_all (vals := s.buf.tree.values.map (fun v =>
      if v ≤ 0 then 0 else Real.exp (Real.log (max v 1e-15) * (a / s.buf.alpha)))) (by
    simp [h.tree.values_length])
  have hrun : s.setAlpha a = ({ s with buf := { s.buf with tree := tree', alpha := a } }, none) := by
    unfold PSys.setAlpha
    rw [if_neg (by simpa using ha), if_neg (by rw [h.alpha_eq]; exact hclose)]
    dsimp only
    rw [e]
  rw [hrun]
  refine ⟨{ h with
    alpha_eq := rfl, alpha_pos := ha, tree := hinv', reach := reachable_step h.reach e
    base_len := ?_, base_pos := ?_, vals := ?_, zeros := ?_, tame_eq := ?_ }, rfl⟩
  · simp [PSpec.clamped, h.base_len]
  · intro y hy
    obtain ⟨x, hx, rfl⟩ := List.mem_map.1 hy
    have := h.base_pos x hx
    split <;> positivity
  · intro i h1 h2
    obtain ⟨x, hx, hxv⟩ := h.vals i h1 h2
    refine ⟨_, by rw [PSpec.clamped, List.getElem?_map, hx, Option.map_some], ?_⟩
    have hxpos := h.base_pos x (List.mem_of_getElem? hx)
    have hnp : ¬ x ^ sp.alpha ≤ 0 := not_le.2 (Real.rpow_pos_of_pos hxpos _)
    dsimp only
    rw [hv, List.getElem?_map, hxv, Option.map_some, if_neg hnp, h.alpha_eq, rescale hxpos h.alpha_pos]
  · intro p h1 h2
    dsimp only
    rw [hv, List.getElem?_map, h.zeros p h1 h2]
    simp
  · rintro ⟨ht, hbig⟩
    rw [h.tame_eq ht] at hbig ⊢
    symm
    unfold PSpec.clamped
    refine (List.map_congr_left (g := id) ?_).trans (List.map_id _)
    intro x hx
    exact if_neg (not_lt.2 (hbig x hx))

theorem PHolds.clear (h : PHolds cap s sp) : PHolds cap s.clear { sp with log := [], base := [], doc := [], tame := True } := by
  have hi : PSys.init s.heap (cap : Int) sp.alpha sp.beta sp.epsilon = .ok s.clear := by
    unfold PSys.init
    rw [if_pos ⟨by have := h.cap_pos; omega, h.alpha_pos, h.beta_pos, h.eps_pos⟩]
    simp [PSys.clear, PBuf.clear, h.cap_eq, h.alpha_eq, h.beta_eq, h.eps_eq]
  exact PHolds.init hi

theorem PHistory.holds (h : PHistory cap s sp) : PHolds cap s sp := by
  induction h with
  | init hi => exact PHolds.init hi
  | new rows _ ih => exact ih.new _
  | add _ ho hf hl ih => exact (ih.add ho hf hl).1
  | addRejected _ hr ih => exact (ih.addRejected hr).1
  | update _ hacc ih => exact (ih.update hacc).1
  | updateRejected _ hacc ih =>
    obtain ⟨e, he, _⟩ := ih.updateRejected hacc
    rw [he]; exact ih
  | setAlpha a _ ha hcl ih => exact (ih.setAlpha ha hcl).1
  | setAlphaNoop a _ hn ih =>
    unfold PSys.setAlpha
    rcases hn with hn | hn
    · rw [if_pos hn]; exact ih
    · by_cases ha : 0 < a
      · rw [if_neg (by simpa using ha), if_pos (by rw [ih.alpha_eq]; exact hn)]; exact ih
      · rw [if_pos ha]; exact ih
  | setBeta b _ ih =>
    unfold PSys.setBeta
    by_cases hb : 0 < b
    · rw [if_pos hb, if_pos hb]; exact { ih with beta_eq := rfl, beta_pos := hb }
    · rw [if_neg hb, if_neg hb]; exact ih
  | setEpsilon e _ ih =>
    unfold PSys.setEpsilon
    by_cases he : 0 < e
    · rw [if_pos he, if_pos he]; exact { ih with eps_eq := rfl, eps_pos := he }
    · rw [if_neg he, if_neg he]; exact ih
  | clear _ ih => exact ih.clear

end Coax.Replay
