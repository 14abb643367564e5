import Verif.ConnectFour.Spec
import Mathlib.Tactic.IntervalCases
import Mathlib.Tactic.FinCases

namespace Coax.ConnectFour

/-- The win check of `_done_reward`. -/
def hasWin (s : Fin 6 → Fin 7 → Bool) : Bool :=
  ([2, 1, 0] : List (Fin 3)).any (fun i0 => ([0, 1, 2, 3] : List (Fin 4)).any (fun j0 =>
      filters.any (fun f => decide (tensordot f s i0 j0 = 4))))

theorem hasWin_iff_exists (s : Fin 6 → Fin 7 → Bool) :
    hasWin s = true ↔ ∃ (i0 : Fin 3) (j0 : Fin 4) (f : Fin 4 → Fin 4 → Nat), f ∈ filters ∧ tensordot f s i0 j0 = 4 := by
  unfold hasWin
  simp only [List.any_eq_true, decide_eq_true_eq]
  constructor
  · rintro ⟨i0, _, j0, _, f, h1, h2⟩
    exact ⟨i0, j0, f, h1, h2⟩
  · rintro ⟨i0, j0, f, h1, h2⟩
    refine ⟨i0, ?_, j0, ?_, f, h1, h2⟩
    · fin_cases i0 <;> simp
    · fin_cases j0 <;> simp

theorem four_bools (a b c d : Bool) :
    ((if a then 1 else 0) + (if b then 1 else 0) + (if c then 1 else 0) + (if d then 1 else 0) = 4) ↔
      (a = true ∧ b = true ∧ c = true ∧ d = true) := by
  cases a <;> cases b <;> cases c <;> cases d <;> simp

theorem forall4 (P : Fin 4 → Prop) : (∀ k, P k) ↔ P 0 ∧ P 1 ∧ P 2 ∧ P 3 := by
  constructor
  · intro h; exact ⟨h 0, h 1, h 2, h 3⟩
  · rintro ⟨h0, h1, h2, h3⟩ k
    fin_cases k <;> assumption

theorem exists4 (P : Fin 4 → Prop) : (∃ k, P k) ↔ P 0 ∨ P 1 ∨ P 2 ∨ P 3 := by
  constructor
  · rintro ⟨k, h⟩
    fin_cases k <;> simp_all
  · rintro (h | h | h | h) <;> exact ⟨_, h⟩

theorem val3 : ((3 : Fin 4) : Nat) = 3 := rfl

theorem tensordot_filters (s : Fin 6 → Fin 7 → Bool) (i0 : Fin 3) (j0 : Fin 4) :
    (∃ f ∈ filters, tensordot f s i0 j0 = 4) ↔
      (∃ r : Fin 4, ∀ k : Fin 4, s ⟨i0.val + r.val, by omega⟩ ⟨j0.val + k.val, by omega⟩ = true) ∨
      (∃ c : Fin 4, ∀ k : Fin 4, s ⟨i0.val + k.val, by omega⟩ ⟨j0.val + c.val, by omega⟩ = true) ∨
      (∀ k : Fin 4, s ⟨i0.val + k.val, by omega⟩ ⟨j0.val + k.val, by omega⟩ = true) ∨
      (∀ k : Fin 4, s ⟨i0.val + k.val, by omega⟩ ⟨j0.val + (3 - k.val), by omega⟩ = true) := by
  simp only [filters, List.mem_cons, List.not_mem_nil, or_false, exists_eq_or_imp, exists_eq_left, tensordot,
    Fin.sum_univ_four, Matrix.cons_val, exists4, forall4]
  simp only [zero_mul, one_mul, zero_add, add_zero, four_bools, Fin.val_zero, Fin.val_one, Fin.val_two, val3, Nat.sub_self,
    show 3 - 2 = 1 from rfl, show 3 - 1 = 2 from rfl, Nat.sub_zero]
  simp only [or_assoc]
  constructor
  · rintro (h | h | h | h | h | h | h | h | h | h) <;> simp only [h, and_self, true_or, or_true]
  · rintro (h | h | h | h | h | h | h | h | h | h) <;> simp only [h, and_self, true_or, or_true]

theorem hasWin_iff (b : Board) (p : Nat) : hasWin (fun i j => decide (b i j = p)) = true ↔ FourInRow b p := by
  rw [hasWin_iff_exists]
  have : (∃ (i0 : Fin 3) (j0 : Fin 4) (f : Fin 4 → Fin 4 → Nat), f ∈ filters ∧ tensordot f (fun i j => decide (b i j = p)) i0 j0 = 4) ↔
      ∃ (i0 : Fin 3) (j0 : Fin 4), ∃ f ∈ filters, tensordot f (fun i j => decide (b i j = p)) i0 j0 = 4 := Iff.rfl
  rw [this]
  simp only [tensordot_filters, decide_eq_true_eq]
  constructor
  · rintro ⟨i0, j0, ⟨r, h⟩ | ⟨c, h⟩ | h | h⟩
    · refine ⟨i0 + r, j0, 0, 1, by simp, fun k hk => ⟨_, _, ?_, ?_, h ⟨k, hk⟩⟩⟩ <;> simp
    · refine ⟨i0, j0 + c, 1, 0, by simp, fun k hk => ⟨_, _, ?_, ?_, h ⟨k, hk⟩⟩⟩ <;> simp
    · refine ⟨i0, j0, 1, 1, by simp, fun k hk => ⟨_, _, ?_, ?_, h ⟨k, hk⟩⟩⟩ <;> simp
    · refine ⟨i0, j0 + 3, 1, -1, by simp, fun k hk => ⟨_, _, ?_, ?_, h ⟨k, hk⟩⟩⟩
      · simp
      · simp; omega
  · rintro ⟨i, j, di, dj, hd, h⟩
    obtain ⟨r0, c0, hr0, hc0, h0⟩ := h 0 (by omega)
    obtain ⟨r3, c3, hr3, hc3, h3⟩ := h 3 (by omega)
    have cell : ∀ (k : Nat), k < 4 → ∀ (r : Fin 6) (c : Fin 7), (r.val : Int) = i + k * di → (c.val : Int) = j + k * dj → b r c = p := by
      intro k hk r c hr hc
      obtain ⟨r', c', hr', hc', e⟩ := h k hk
      have e1 : r = r' := Fin.ext (by omega)
      have e2 : c = c' := Fin.ext (by omega)
      rw [e1, e2]; exact e
    have := r0.isLt; have := c0.isLt; have := r3.isLt; have := c3.isLt
    simp only [List.mem_cons, List.not_mem_nil, or_false, Prod.mk.injEq] at hd
    rcases hd with ⟨rfl, rfl⟩ | ⟨rfl, rfl⟩ | ⟨rfl, rfl⟩ | ⟨rfl, rfl⟩
    · refine ⟨⟨min r0.val 2, by omega⟩, ⟨c0, by omega⟩, .inl ⟨⟨r0 - min r0.val 2, by omega⟩, fun k => ?_⟩⟩
      exact cell k k.isLt _ _ (by simp; omega) (by simp; omega)
    · refine ⟨⟨r0, by omega⟩, ⟨min c0.val 3, by omega⟩, .inr (.inl ⟨⟨c0 - min c0.val 3, by omega⟩, fun k => ?_⟩)⟩
      exact cell k k.isLt _ _ (by simp; omega) (by simp; omega)
    · refine ⟨⟨r0, by omega⟩, ⟨c0, by omega⟩, .inr (.inr (.inl fun k => ?_))⟩
      exact cell k k.isLt _ _ (by simp; omega) (by simp; omega)
    · refine ⟨⟨r0, by omega⟩, ⟨c0 - 3, by omega⟩, .inr (.inr (.inr fun k => ?_))⟩
      have := k.isLt
      exact cell k k.isLt _ _ (by simp; omega) (by simp; omega)

theorem column_append (moves : List (Fin 7)) (a j : Fin 7) :
    column (moves ++ [a]) j = column moves j ++ if a = j then [(a, moves.length)] else [] := by
  unfold column
  rw [List.zipIdx_append, List.filter_append]
  congr 1
  by_cases h : a = j <;> simp [h]

theorem mover_ne (t : Nat) : mover t ≠ 0 := by unfold mover; split <;> simp

theorem boardOf_ne_zero (moves : List (Fin 7)) (i : Fin 6) (j : Fin 7) :
    boardOf moves i j ≠ 0 ↔ 5 - i.val < (column moves j).length := by
  unfold boardOf
  cases h : (column moves j)[5 - i.val]? with
  | none =>
    rw [List.getElem?_eq_none_iff] at h
    simp; omega
  | some q =>
    have := (List.getElem?_eq_some_iff.1 h).1
    simp [this, mover_ne]

theorem boardOf_append (moves : List (Fin 7)) (a : Fin 7) (h : (column moves a).length < 6) :
    boardOf (moves ++ [a]) = Function.update (boardOf moves) ⟨5 - (column moves a).length, by omega⟩
      (Function.update (boardOf moves ⟨5 - (column moves a).length, by omega⟩) a (mover moves.length)) := by
  funext i j
  by_cases hi : i = ⟨5 - (column moves a).length, by omega⟩
  · subst hi
    rw [Function.update_self]
    by_cases hj : j = a
    · subst hj
      rw [Function.update_self]
      unfold boardOf
      rw [column_append, if_pos rfl]
      simp only
      rw [show 5 - (5 - (column moves j).length) = (column moves j).length by omega, List.getElem?_append_right (le_refl _)]
      simp
    · rw [Function.update_of_ne hj]
      unfold boardOf
      rw [column_append, if_neg (fun e => hj e.symm), List.append_nil]
  · rw [Function.update_of_ne hi]
    unfold boardOf
    rw [column_append]
    by_cases hj : a = j
    · subst hj
      rw [if_pos rfl]
      have hne : 5 - i.val ≠ (column moves a).length := by
        intro e
        apply hi
        apply Fin.ext
        simp only
        omega
      rcases Nat.lt_or_ge (5 - i.val) (column moves a).length with hlt | hge
      · rw [List.getElem?_append_left hlt]
      · rw [List.getElem?_eq_none_iff.2 hge, List.getElem?_eq_none_iff.2 (by simp; omega)]
    · rw [if_neg hj, List.append_nil]

/-- What the environment knows about the moves made. -/
structure Inv (e : Env) (moves : List (Fin 7)) : Prop where
  players : e.players = if moves.length % 2 = 0 then (1, 2) else (2, 1)
  prev : e.prevAction = moves.getLast?
  height : ∀ j, (column moves j).length ≤ 6
  levels : ∀ j, e.levels j = if (column moves j).length = 6 then 255 else 5 - (column moves j).length
  board : e.board = boardOf moves
  done : e.done = true ↔ FourInRow e.board 1 ∨ FourInRow e.board 2 ∨ Full e.board

theorem mem_available {e : Env} {moves : List (Fin 7)} {j : Fin 7} (hh : (column moves j).length ≤ 6)
    (hl : e.levels j = if (column moves j).length = 6 then 255 else 5 - (column moves j).length) :
    j ∈ e.availableActions ↔ (column moves j).length < 6 := by
  simp only [Env.availableActions, List.mem_filter, List.mem_finRange, true_and, Bool.and_eq_true, decide_eq_true_eq]
  rw [hl]
  split <;> omega

theorem Inv.mem_available {e : Env} {moves : List (Fin 7)} (h : Inv e moves) (j : Fin 7) :
    j ∈ e.availableActions ↔ (column moves j).length < 6 := ConnectFour.mem_available (h.height j) (h.levels j)

theorem init_inv : Inv Env.init [] := by
  refine ⟨rfl, rfl, by simp [column], by intro j; rfl, ?_, ?_⟩
  · funext i j; rfl
  · simp only [Env.init, Bool.false_eq_true, false_iff, not_or]
    refine ⟨?_, ?_, ?_⟩
    · rintro ⟨i, j, di, dj, _, h⟩
      obtain ⟨_, _, _, _, h⟩ := h 0 (by omega)
      cases h
    · rintro ⟨i, j, di, dj, _, h⟩
      obtain ⟨_, _, _, _, h⟩ := h 0 (by omega)
      cases h
    · intro h; exact h 0 0 rfl

theorem Inv.next_player {e : Env} {moves : List (Fin 7)} (h : Inv e moves) : e.players.2 = mover moves.length := by
  rw [h.players]; unfold mover; split <;> rfl

theorem fourInRow_of_update {b : Board} {i : Fin 6} {a : Fin 7} {p q : Nat} (hpq : p ≠ q)
    (h : FourInRow (Function.update b i (Function.update (b i) a p)) q) : FourInRow b q := by
  obtain ⟨i', j, di, dj, hd, h⟩ := h
  refine ⟨i', j, di, dj, hd, fun k hk => ?_⟩
  obtain ⟨r, c, hr, hc, e⟩ := h k hk
  refine ⟨r, c, hr, hc, ?_⟩
  by_cases h1 : r = i
  · subst h1
    rw [Function.update_self] at e
    by_cases h2 : c = a
    · subst h2; rw [Function.update_self] at e; exact absurd e hpq
    · rwa [Function.update_of_ne h2] at e
  · rwa [Function.update_of_ne h1] at e

theorem step_unfold {e : Env} {a : Fin 7} (hd : e.done = false) (ha : a ∈ e.availableActions) (hl : e.levels a < 6) :
    e.step a.val =
      (let e1 : Env := { e with
          players := (e.players.2, e.players.1)
          board := Function.update e.board ⟨e.levels a, hl⟩ (Function.update (e.board ⟨e.levels a, hl⟩) a e.players.2)
          prevAction := some a }
       let e2 : Env := { (e1.doneReward a).1 with done := (e1.doneReward a).2.1 }
       (e2, .ok (e2.state, (e1.doneReward a).2.2, e2.done, e2.stateId))) := by
  unfold Env.step
  rw [if_neg (by simp [hd]), dif_pos ⟨by omega, by omega⟩]
  have hfa : (⟨(a.val : Int).toNat, by omega⟩ : Fin 7) = a := Fin.ext (by simp)
  simp only [hfa]
  rw [if_neg (by simpa using ha), dif_pos hl]

theorem doneReward_eq (e : Env) (a : Fin 7) : e.doneReward a =
    ({ e with levels := Function.update e.levels a (decU8 (e.levels a)) },
      if hasWin (fun i j => decide (e.board i j = e.players.1)) then (true, 1)
      else if ({ e with levels := Function.update e.levels a (decU8 (e.levels a)) } : Env).availableActions.length = 0 then (true, 0)
      else (false, 0)) := by
  unfold Env.doneReward hasWin
  dsimp only
  split
  · rfl
  · split <;> rfl

theorem not_available_iff_full {e : Env} {moves : List (Fin 7)} (hh : ∀ j, (column moves j).length ≤ 6)
    (hm : ∀ j, j ∈ e.availableActions ↔ (column moves j).length < 6) :
    e.availableActions.length = 0 ↔ Full (boardOf moves) := by
  rw [List.length_eq_zero_iff, List.eq_nil_iff_forall_not_mem]
  constructor
  · intro h i j
    rw [boardOf_ne_zero]
    have := (not_congr (hm j)).1 (h j)
    omega
  · intro h j hj
    have := (boardOf_ne_zero moves 0 j).1 (h 0 j)
    have := (hm j).1 hj
    simp at *
    omega

open Classical in
/-- What a successful step does. -/
theorem step_succeeds {e : Env} {a : Fin 7} {moves : List (Fin 7)} (h : Inv e moves)
    (hd : e.done = false) (ha : (column moves a).length < 6) :
    ∃ e', e.step a.val =
      (e', .ok (e'.state, if FourInRow e'.board (mover moves.length) then 1 else 0, e'.done, e'.stateId)) ∧
      Inv e' (moves ++ [a]) := by
  have hla : e.levels a = 5 - (column moves a).length := by rw [h.levels a, if_neg (by omega)]
  have hl : e.levels a < 6 := by omega
  have hcol : ∀ j, (column (moves ++ [a]) j).length = (column moves j).length + if a = j then 1 else 0 := by
    intro j; rw [column_append]; split <;> simp
  have hheight : ∀ j, (column (moves ++ [a]) j).length ≤ 6 := by
    intro j; rw [hcol]
    have := h.height j
    split
    · rename_i e; subst e; omega
    · omega
  have hlev : ∀ j, Function.update e.levels a (decU8 (e.levels a)) j =
      if (column (moves ++ [a]) j).length = 6 then 255 else 5 - (column (moves ++ [a]) j).length := by
    intro j
    rw [hcol]
    by_cases hj : j = a
    · subst hj
      rw [Function.update_self, if_pos rfl, hla]
      unfold decU8
      split <;> omega
    · have hj' : ¬ a = j := fun e => hj e.symm
      rw [Function.update_of_ne hj, h.levels j]
      simp only [hj', if_false, Nat.add_zero]
  have hboard : Function.update e.board ⟨e.levels a, hl⟩ (Function.update (e.board ⟨e.levels a, hl⟩) a (mover moves.length))
      = boardOf (moves ++ [a]) := by
    rw [boardOf_append moves a ha, h.board]
    simp only [hla]
  rw [step_unfold hd ((h.mem_available a).2 ha) hl]
  simp only [doneReward_eq, hasWin_iff, h.next_player, hboard]
  refine ⟨_, Prod.ext rfl ?_, ?_⟩
  · dsimp only
    congr 3
    split
    · rfl
    · split <;> rfl
  · have hdone : ∀ (d : Bool), (d = true ↔ FourInRow (boardOf (moves ++ [a])) 1 ∨ FourInRow (boardOf (moves ++ [a])) 2 ∨ Full (boardOf (moves ++ [a]))) →
        Inv { e with
          players := (mover moves.length, e.players.1)
          board := boardOf (moves ++ [a])
          prevAction := some a
          levels := Function.update e.levels a (decU8 (e.levels a))
          done := d } (moves ++ [a]) := by
      intro d hdd
      refine ⟨?_, by simp, hheight, hlev, rfl, hdd⟩
      rw [h.players]
      simp only [List.length_append, List.length_cons, List.length_nil, mover]
      rcases Nat.mod_two_eq_zero_or_one moves.length with h0 | h0
      · rw [if_pos h0, if_pos h0, if_neg (by omega)]
      · rw [if_neg (by omega), if_neg (by omega), if_pos (by omega)]
    have hno1 : ∀ q, (q = 1 ∨ q = 2) → q ≠ mover moves.length → ¬ FourInRow (boardOf (moves ++ [a])) q := by
      intro q hq hne hf
      rw [← hboard] at hf
      have := fourInRow_of_update (fun e => hne e.symm) hf
      have hnd := (not_congr h.done).1 (by simp [hd])
      rcases hq with rfl | rfl
      · exact hnd (.inl this)
      · exact hnd (.inr (.inl this))
    apply hdone
    have hmov : mover moves.length = 1 ∨ mover moves.length = 2 := by unfold mover; split <;> simp
    have key : FourInRow (boardOf (moves ++ [a])) 1 ∨ FourInRow (boardOf (moves ++ [a])) 2 ↔
        FourInRow (boardOf (moves ++ [a])) (mover moves.length) := by
      constructor
      · rintro (hf | hf)
        · by_cases hq : 1 = mover moves.length
          · rwa [← hq]
          · exact absurd hf (hno1 1 (.inl rfl) hq)
        · by_cases hq : 2 = mover moves.length
          · rwa [← hq]
          · exact absurd hf (hno1 2 (.inr rfl) hq)
      · intro hf
        rcases hmov with hm | hm <;> rw [hm] at hf
        · exact .inl hf
        · exact .inr hf
    rw [← or_assoc, key]
    split
    · rename_i hw; simp [hw]
    · rename_i hw
      split
      · rename_i hw2
        rw [not_available_iff_full hheight (fun j => mem_available (hheight j) (hlev j))] at hw2
        simp [hw2]
      · rename_i hw2
        rw [not_available_iff_full hheight (fun j => mem_available (hheight j) (hlev j))] at hw2
        simp [hw, hw2]

theorem step_done {e : Env} (hd : e.done = true) (a : Int) : e.step a = (e, .error .episodeDone) := by
  unfold Env.step; rw [if_pos hd]

theorem step_invalid {e : Env} (hd : e.done = false) {a : Int} (ha : ¬ (0 ≤ a ∧ a < 7)) : e.step a = (e, .error .valueError) := by
  unfold Env.step; rw [if_neg (by simp [hd]), dif_neg ha]

theorem step_full {e : Env} {moves : List (Fin 7)} (h : Inv e moves) (hd : e.done = false) {a : Fin 7}
    (ha : ¬ (column moves a).length < 6) : e.step a.val = (e, .error .unavailableAction) := by
  unfold Env.step
  rw [if_neg (by simp [hd]), dif_pos ⟨by omega, by omega⟩]
  have hfa : (⟨(a.val : Int).toNat, by omega⟩ : Fin 7) = a := Fin.ext (by simp)
  simp only [hfa]
  rw [if_pos (by rw [h.mem_available]; exact ha)]

theorem Play.inv {e : Env} {moves : List (Fin 7)} (h : Play e moves) : Inv e moves := by
  induction h with
  | init => exact init_inv
  | reset _ _ => exact init_inv
  | @step e e' moves res a _ hs ih =>
    cases hd : e.done with
    | true => rw [step_done hd] at hs; injection hs with _ h; cases h
    | false =>
      by_cases ha : (column moves a).length < 6
      · obtain ⟨e'', h1, h2⟩ := step_succeeds ih hd ha
        rw [h1] at hs
        injection hs with h3 _
        exact h3 ▸ h2
      · rw [step_full ih hd ha] at hs; injection hs with _ h; cases h
  | @stepFails e e' moves err a _ hs ih =>
    cases hd : e.done with
    | true => rw [step_done hd] at hs; injection hs with h _; exact h ▸ ih
    | false =>
      by_cases hr : 0 ≤ a ∧ a < 7
      · obtain ⟨b, rfl⟩ : ∃ b : Fin 7, a = b.val := ⟨⟨a.toNat, by omega⟩, by simp; omega⟩
        by_cases ha : (column moves b).length < 6
        · obtain ⟨e'', h1, h2⟩ := step_succeeds ih hd ha
          rw [h1] at hs
          injection hs with _ h; cases h
        · rw [step_full ih hd ha] at hs; injection hs with h _; exact h ▸ ih
      · rw [step_invalid hd hr] at hs; injection hs with h _; exact h ▸ ih

end Coax.ConnectFour
