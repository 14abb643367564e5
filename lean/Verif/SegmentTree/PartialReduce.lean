import Verif.SegmentTree.Reduce

/-! The loop of `partial_reduce`. -/

namespace Coax.SegmentTree

variable {α : Type _} {cap : Nat} {red : α → α → α} {init : α} {t : Tree α}

/-- What is known about a lane that works at level `L` (with `d = height - 1 - L`) and that has to deliver `res`. -/
structure LaneInv (red : α → α → α) (init : α) (leaves : List α) (L d : Nat) (res : α) (ln : Lane α) : Prop where
  i_ge : 2 ^ L - 1 ≤ ln.i
  i_le : ln.i ≤ ln.j
  j_lt : ln.j < 2 ^ L - 1 + 2 ^ L
  isDone : ln.done = true → red ln.a ln.b = res
  notDone : ln.done = false → ln.i < ln.j ∧ ∃ s e,
    s ≤ (ln.i - (2 ^ L - 1) + 1) * 2 ^ d ∧ (ln.j - (2 ^ L - 1)) * 2 ^ d ≤ e ∧
    ln.a = reduce red init (slice leaves s ((ln.i - (2 ^ L - 1) + 1) * 2 ^ d)) ∧
    ln.b = reduce red init (slice leaves ((ln.j - (2 ^ L - 1)) * 2 ^ d) e) ∧
    res = reduce red init (slice leaves s e)

/-- The lane with its `done` flag updated at the top of the loop. -/
def mark (off offp : Nat) (ln : Lane α) : Lane α :=
  { ln with done := ln.done || decide ((ln.i - off) / 2 + offp = (ln.j - off) / 2 + offp) }

theorem mark_inv (hu : IsUnital red init) {leaves : List α} {level d : Nat} {res : α} {ln : Lane α}
    (h : LaneInv red init leaves (level + 1) d res ln) :
    LaneInv red init leaves (level + 1) d res (mark (2 ^ (level + 1) - 1) (2 ^ level - 1) ln) := by
  refine ⟨h.i_ge, h.i_le, h.j_lt, ?_, ?_⟩
  · intro hd
    cases hdone : ln.done with
    | true => exact h.isDone hdone
    | false =>
      obtain ⟨hij, s, e, h1, h2, ha, hb, hr⟩ := h.notDone hdone
      simp only [mark, hdone, Bool.false_or, decide_eq_true_eq] at hd
      have hi := h.i_ge
      have hadj : ln.i - (2 ^ (level + 1) - 1) + 1 = ln.j - (2 ^ (level + 1) - 1) := by omega
      simp only [mark]
      rw [ha, hb, hr, ← hadj, ← reduce_slice_split hu]
      · exact h1
      · rw [hadj]; exact h2
  · intro hd
    simp only [mark, Bool.or_eq_false_iff] at hd
    exact h.notDone hd.1

/-- What a lane does to reach the parent level (the pure part of `Lane.accumulate`). -/
theorem accumulate_ok (hu : IsUnital red init) (hcomm : ∀ a b, red a b = red b a) (h : Inv cap red init t)
    {level d : Nat} (hl : level + 1 + d + 1 = t.height) {res : α} {ln : Lane α}
    (hi : LaneInv red init t.leaves (level + 1) d res (mark (2 ^ (level + 1) - 1) (2 ^ level - 1) ln))
    (hread : ln.i + 1 < t.arr.length) :
    ∃ ln', Lane.accumulate red t.arr (2 ^ (level + 1) - 1) (2 ^ level - 1)
        (mark (2 ^ (level + 1) - 1) (2 ^ level - 1) ln) = .ok ln' ∧
      LaneInv red init t.leaves level (d + 1) res ln' := by
  generalize hm : mark (2 ^ (level + 1) - 1) (2 ^ level - 1) ln = m at hi ⊢
  have hmi : m.i = ln.i := by rw [← hm]; rfl
  have hpw : 2 ^ (level + 1) = 2 * 2 ^ level := by rw [Nat.pow_succ]; ring
  have hpos := Nat.two_pow_pos level
  have hlen := h.len
  have hpl : 2 ^ (level + 2) ≤ 2 ^ t.height := Nat.pow_le_pow_right (by omega) (by omega)
  have hpl' : 2 ^ (level + 2) = 2 * 2 ^ (level + 1) := by rw [Nat.pow_succ]; ring
  have hj := hi.j_lt
  have hr1 : t.arr[m.i + 1]? = some t.arr[m.i + 1] := by simp
  have hjlt : m.j - 1 < t.arr.length := by omega
  have hr2 : t.arr[m.j - 1]? = some t.arr[m.j - 1] := by simp
  let ln' : Lane α :=
    { i := (m.i - (2 ^ (level + 1) - 1)) / 2 + (2 ^ level - 1)
      j := (m.j - (2 ^ (level + 1) - 1)) / 2 + (2 ^ level - 1)
      done := m.done
      a := if m.i % 2 = 1 ∧ m.done = false then red m.a t.arr[m.i + 1] else m.a
      b := if m.j % 2 = 0 ∧ m.done = false then red m.b t.arr[m.j - 1] else m.b }
  refine ⟨ln', ?_, ?_⟩
  · simp only [Lane.accumulate, readAt_of_some hr1, readAt_of_some hr2]
    rfl
  have hige := hi.i_ge
  have hile := hi.i_le
  refine ⟨by simp only [ln']; omega, by simp only [ln']; omega, by simp only [ln']; omega, ?_, ?_⟩
  · intro hd
    have hd' : m.done = true := hd
    simp only [ln', hd']
    simpa using hi.isDone hd'
  · intro hd
    have hd' : m.done = false := hd
    obtain ⟨hij, s, e, h1, h2, ha, hb, hres⟩ := hi.notDone hd'
    have hne : (m.i - (2 ^ (level + 1) - 1)) / 2 ≠ (m.j - (2 ^ (level + 1) - 1)) / 2 := by
      have := hd'
      rw [← hm] at this
      simp only [mark, Bool.or_eq_false_iff, decide_eq_false_iff_not] at this
      have hmj : m.j = ln.j := by rw [← hm]; rfl
      rw [hmi, hmj]
      omega
    refine ⟨by simp only [ln']; omega, s, e, ?_⟩
    have ei : ln'.i - (2 ^ level - 1) = (m.i - (2 ^ (level + 1) - 1)) / 2 := by simp only [ln']; omega
    have ej : ln'.j - (2 ^ level - 1) = (m.j - (2 ^ (level + 1) - 1)) / 2 := by simp only [ln']; omega
    rw [ei, ej]
    obtain ⟨ki, hki⟩ : ∃ ki, ki = m.i - (2 ^ (level + 1) - 1) := ⟨_, rfl⟩
    obtain ⟨kj, hkj⟩ : ∃ kj, kj = m.j - (2 ^ (level + 1) - 1) := ⟨_, rfl⟩
    rw [← hki] at h1 ha hne ⊢
    rw [← hkj] at h2 hb hne ⊢
    have hmi2 : m.i = 2 ^ (level + 1) - 1 + ki := by omega
    have hmj2 : m.j = 2 ^ (level + 1) - 1 + kj := by omega
    have hkjlt : kj < 2 ^ (level + 1) := by omega
    have hpd : 2 ^ (d + 1) = 2 * 2 ^ d := by rw [Nat.pow_succ]; ring
    have E1 : ki % 2 = 0 → (ki / 2 + 1) * 2 ^ (d + 1) = (ki + 1 + 1) * 2 ^ d := by
      intro hk
      have : ki + 1 + 1 = 2 * (ki / 2 + 1) := by omega
      rw [this, hpd]; ring
    have E2 : ki % 2 = 1 → (ki / 2 + 1) * 2 ^ (d + 1) = (ki + 1) * 2 ^ d := by
      intro hk
      have : ki + 1 = 2 * (ki / 2 + 1) := by omega
      rw [this, hpd]; ring
    have F1 : kj % 2 = 1 → (kj / 2) * 2 ^ (d + 1) = (kj - 1) * 2 ^ d := by
      intro hk
      have : kj - 1 = 2 * (kj / 2) := by omega
      rw [this, hpd]; ring
    have F2 : kj % 2 = 0 → (kj / 2) * 2 ^ (d + 1) = kj * 2 ^ d := by
      intro hk
      have : kj = 2 * (kj / 2) := by omega
      conv_rhs => rw [this]
      rw [hpd]; ring
    have hA : ln'.a = reduce red init (slice t.leaves s ((ki / 2 + 1) * 2 ^ (d + 1))) ∧
        s ≤ (ki / 2 + 1) * 2 ^ (d + 1) := by
      by_cases hk : ki % 2 = 0
      · have hodd : m.i % 2 = 1 := by omega
        have hv := h.node_value hu d (level + 1) (ki + 1) (by omega) (by omega)
        have hidx : 2 ^ (level + 1) - 1 + (ki + 1) = m.i + 1 := by omega
        rw [hidx, hr1] at hv
        simp only [Option.some.injEq] at hv
        rw [E1 hk]
        have hle : (ki + 1) * 2 ^ d ≤ (ki + 1 + 1) * 2 ^ d := Nat.mul_le_mul_right _ (by omega)
        refine ⟨?_, by omega⟩
        simp only [ln', hodd, hd', and_self, if_true]
        rw [ha, hv, ← reduce_slice_split hu _ h1 hle]
      · have hodd : ¬ m.i % 2 = 1 := by omega
        rw [E2 (by omega)]
        refine ⟨?_, h1⟩
        simp only [ln', hodd, false_and, if_false]
        exact ha
    have hB : ln'.b = reduce red init (slice t.leaves ((kj / 2) * 2 ^ (d + 1)) e) ∧
        (kj / 2) * 2 ^ (d + 1) ≤ e := by
      by_cases hk : kj % 2 = 1
      · have hev : m.j % 2 = 0 := by omega
        have hv := h.node_value hu d (level + 1) (kj - 1) (by omega) (by omega)
        have hidx : 2 ^ (level + 1) - 1 + (kj - 1) = m.j - 1 := by omega
        have hk1 : kj - 1 + 1 = kj := by omega
        rw [hidx, hr2, hk1] at hv
        simp only [Option.some.injEq] at hv
        rw [F1 hk]
        have hle : (kj - 1) * 2 ^ d ≤ kj * 2 ^ d := Nat.mul_le_mul_right _ (by omega)
        refine ⟨?_, by omega⟩
        simp only [ln', hev, hd', and_self, if_true]
        rw [hb, hv, hcomm, ← reduce_slice_split hu _ hle h2]
      · have hev : ¬ m.j % 2 = 0 := by omega
        rw [F2 (by omega)]
        refine ⟨?_, h2⟩
        simp only [ln', hev, false_and, if_false]
        exact hb
    exact ⟨hA.2, hB.2, hA.1, hB.1, hres⟩

/-- Relation between the batch of lanes and the results they have to deliver. -/
def LanesInv (red : α → α → α) (init : α) (leaves : List α) (L d : Nat) (lanes : List (Lane α)) (res : List α) :
    Prop := List.Forall₂ (fun ln r => LaneInv red init leaves L d r ln) lanes res

theorem mapM_accumulate {f : Lane α → Except Err (Lane α)} {P : α → Lane α → Prop} :
    ∀ {lanes : List (Lane α)} {res : List α},
      List.Forall₂ (fun ln r => ∃ ln', f ln = .ok ln' ∧ P r ln') lanes res →
      ∃ lanes', lanes.mapM f = .ok lanes' ∧ List.Forall₂ (fun ln r => P r ln) lanes' res
  | [], [], .nil => ⟨[], rfl, .nil⟩
  | ln :: lanes, r :: res, .cons ⟨ln', e, hp⟩ hrest => by
    obtain ⟨lanes', e', h'⟩ := mapM_accumulate hrest
    exact ⟨ln' :: lanes', by simp [List.mapM_cons, e, e']; rfl, .cons hp h'⟩

theorem forall₂_imp_mem {β γ : Type _} {R S : β → γ → Prop} : ∀ {l₁ : List β} {l₂ : List γ},
    (∀ a ∈ l₁, ∀ b, R a b → S a b) → List.Forall₂ R l₁ l₂ → List.Forall₂ S l₁ l₂
  | _, _, _, .nil => .nil
  | _, _, h, .cons hab hr =>
    .cons (h _ (by simp) _ hab) (forall₂_imp_mem (fun a ha b hr => h a (by simp [ha]) b hr) hr)

theorem forall₂_exists {β γ : Type _} {R : β → γ → Prop} : ∀ {l₁ : List β} {l₂ : List γ},
    List.Forall₂ R l₁ l₂ → ∀ a ∈ l₁, ∃ b, R a b
  | _, _, .nil, _, h => by simp at h
  | _, _, .cons hab hr, a, h => by
    rcases List.mem_cons.1 h with rfl | h
    · exact ⟨_, hab⟩
    · exact forall₂_exists hr a h

theorem all_done_result {leaves : List α} {L d : Nat} : ∀ {lanes : List (Lane α)} {res : List α},
    LanesInv red init leaves L d lanes res → (∀ ln ∈ lanes, ln.done = true) →
    lanes.map (fun ln => red ln.a ln.b) = res
  | _, _, .nil, _ => rfl
  | _, _, .cons hli hr, h => by
    simp only [List.map_cons]
    rw [all_done_result hr (fun x hx => h x (by simp [hx])), hli.isDone (h _ (by simp))]

theorem loop_ok (hu : IsUnital red init) (hcomm : ∀ a b, red a b = red b a) (h : Inv cap red init t) :
    ∀ (L d : Nat) (lanes : List (Lane α)) (res : List α), 0 < L → L + d + 1 = t.height →
      LanesInv red init t.leaves L d lanes res →
      (0 < d ∨ ((∀ ln ∈ lanes, ln.i + 1 < t.arr.length) ∨
        ∀ ln ∈ lanes, (mark (2 ^ L - 1) (2 ^ (L - 1) - 1) ln).done = true)) →
      reduceLoop red t.arr L (2 ^ L - 1) lanes = .ok res
  | 0, _, _, _, h0, _, _, _ => by omega
  | level + 1, d, lanes, res, _, hl, hinv, hread => by
    have hmark : LanesInv red init t.leaves (level + 1) d
        (lanes.map (mark (2 ^ (level + 1) - 1) (2 ^ level - 1))) res := by
      unfold LanesInv
      rw [List.forall₂_map_left_iff]
      exact hinv.imp (fun _ _ hli => mark_inv hu hli)
    simp only [reduceLoop]
    change (if (lanes.map (mark (2 ^ (level + 1) - 1) (2 ^ level - 1))).all (·.done) = true then
        pure ((lanes.map (mark (2 ^ (level + 1) - 1) (2 ^ level - 1))).map (fun ln => red ln.a ln.b))
      else do
        let lanes ← (lanes.map (mark (2 ^ (level + 1) - 1) (2 ^ level - 1))).mapM
          (Lane.accumulate red t.arr (2 ^ (level + 1) - 1) (2 ^ level - 1))
        reduceLoop red t.arr level (2 ^ level - 1) lanes) = _
    by_cases hall : (lanes.map (mark (2 ^ (level + 1) - 1) (2 ^ level - 1))).all (·.done) = true
    · rw [if_pos hall]
      rw [List.all_eq_true] at hall
      have : (lanes.map (mark (2 ^ (level + 1) - 1) (2 ^ level - 1))).map (fun ln => red ln.a ln.b) = res := by
        exact all_done_result hmark (fun x hx => by simpa using hall x hx)
      rw [this]; rfl
    · rw [if_neg hall]
      have hlenp : 2 ^ t.height = 2 ^ (level + 1) * 2 ^ (d + 1) := by rw [← Nat.pow_add]; congr 1; omega
      have hreads : ∀ ln ∈ lanes, ln.i + 1 < t.arr.length := by
        rcases hread with hd | hread | hdone
        · intro ln hln
          obtain ⟨r, hr⟩ : ∃ r, LaneInv red init t.leaves (level + 1) d r ln := forall₂_exists hinv ln hln
          have h1 := hr.i_le
          have h2 := hr.j_lt
          have h3 := h.len
          have h4 : 4 ≤ 2 ^ (d + 1) := by
            calc 4 = 2 ^ 2 := by norm_num
              _ ≤ 2 ^ (d + 1) := Nat.pow_le_pow_right (by omega) (by omega)
          have h5 : 2 ^ (level + 1) * 4 ≤ 2 ^ (level + 1) * 2 ^ (d + 1) := Nat.mul_le_mul_left _ h4
          have := Nat.two_pow_pos (level + 1)
          omega
        · exact hread
        · exfalso
          apply hall
          rw [List.all_eq_true]
          intro x hx
          simp only [List.mem_map] at hx
          obtain ⟨ln, hln, rfl⟩ := hx
          simpa using hdone ln hln
      have hstep : List.Forall₂ (fun ln r => ∃ ln', Lane.accumulate red t.arr (2 ^ (level + 1) - 1) (2 ^ level - 1)
          ln = .ok ln' ∧ LaneInv red init t.leaves level (d + 1) r ln')
          (lanes.map (mark (2 ^ (level + 1) - 1) (2 ^ level - 1))) res := by
        have hmark' := hmark
        unfold LanesInv at hmark'
        rw [List.forall₂_map_left_iff] at hmark' ⊢
        exact forall₂_imp_mem (fun ln hln r hli => accumulate_ok hu hcomm h hl hli (hreads ln hln)) hmark'
      obtain ⟨lanes', e, hlanes'⟩ := mapM_accumulate hstep
      rw [e]
      change reduceLoop red t.arr level (2 ^ level - 1) lanes' = _
      have hlev : 0 < level := by
        rcases Nat.eq_zero_or_pos level with rfl | hp
        · exfalso
          apply hall
          rw [List.all_eq_true]
          intro x hx
          simp only [List.mem_map] at hx
          obtain ⟨ln, hln, rfl⟩ := hx
          obtain ⟨r, hr⟩ : ∃ r, LaneInv red init t.leaves (0 + 1) d r ln := forall₂_exists hinv ln hln
          have h1 := hr.i_ge
          have h2 := hr.i_le
          have h3 := hr.j_lt
          simp only [mark, Bool.or_eq_true, decide_eq_true_eq]
          right
          simp at h1 h3 ⊢
          omega
        · exact hp
      exact loop_ok hu hcomm h level (d + 1) lanes' res hlev (by omega) hlanes' (Or.inl (by omega))

end Coax.SegmentTree
