import Verif.ConnectFour.Lemmas

/-! Properties C23–C26 and C28: the rules of Connect Four. -/

namespace Coax.ConnectFour

variable {e e' : Env} {moves : List (Fin 7)}

/-- C23, refinement: the position is the one that the rules give for the moves made: every column holds the tokens of the
moves in that column, in order from the bottom up, the players alternating; the previous action is the last move. -/
theorem C23_position (h : Play e moves) : e.board = boardOf moves ∧ e.prevAction = moves.getLast? :=
  ⟨h.inv.board, h.inv.prev⟩

/-- C23: no gaps.  Below a token there are only tokens. -/
theorem C23_no_gaps (h : Play e moves) (i i' : Fin 6) (j : Fin 7) (hi : i < i') (ht : e.board i j ≠ 0) : e.board i' j ≠ 0 := by
  rw [h.inv.board, boardOf_ne_zero] at *
  have : i.val < i'.val := hi
  omega

/-- C23: the available actions are exactly the columns that are not full, each listed once, in ascending order. -/
theorem C23_available (h : Play e moves) :
    (∀ j, j ∈ e.availableActions ↔ ∃ i, e.board i j = 0) ∧ e.availableActions.Pairwise (· < ·) := by
  constructor
  · intro j
    have hh := h.inv.height j
    rw [h.inv.mem_available, h.inv.board]
    constructor
    · intro hl
      refine ⟨0, ?_⟩
      by_contra hc
      have := (boardOf_ne_zero moves 0 j).1 hc
      simp at this
      omega
    · rintro ⟨i, hi⟩
      by_contra hc
      exact (boardOf_ne_zero moves i j).2 (by omega) hi
  · unfold Env.availableActions
    exact List.Pairwise.filter _ (by decide)

theorem tokens_update {b : Board} {i : Fin 6} {a : Fin 7} (h0 : b i a = 0) {p : Nat} (hp : p ≠ 0) (q : Nat) (hq : q ≠ 0) :
    tokens (Function.update b i (Function.update (b i) a p)) q = tokens b q + if p = q then 1 else 0 := by
  unfold tokens
  have hval : ∀ x : Fin 6 × Fin 7, Function.update b i (Function.update (b i) a p) x.1 x.2 = if x = (i, a) then p else b x.1 x.2 := by
    rintro ⟨r, c⟩
    by_cases hr : r = i
    · subst hr
      by_cases hc : c = a
      · subst hc; simp
      · simp [hc]
    · simp [hr]
  simp only [hval]
  by_cases hpq : p = q
  · subst hpq
    have : (Finset.univ.filter fun x : Fin 6 × Fin 7 => (if x = (i, a) then p else b x.1 x.2) = p) =
        insert (i, a) (Finset.univ.filter fun x : Fin 6 × Fin 7 => b x.1 x.2 = p) := by
      ext x
      by_cases hx : x = (i, a) <;> simp [hx]
    rw [this, Finset.card_insert_of_notMem (by simp [h0]; exact fun e => hp e.symm), if_pos rfl]
  · rw [if_neg hpq, Nat.add_zero]
    congr 1
    ext x
    by_cases hx : x = (i, a)
    · subst hx
      simp [hpq, h0]
      exact fun e => hq e.symm
    · simp [hx]

theorem tokens_boardOf (moves : List (Fin 7)) (hh : ∀ j, (column moves j).length ≤ 6) :
    tokens (boardOf moves) 2 = (moves.length + 1) / 2 ∧ tokens (boardOf moves) 1 = moves.length / 2 := by
  induction moves using List.reverseRecOn with
  | nil => decide
  | append_singleton moves a ih =>
    have hcol : ∀ j, (column (moves ++ [a]) j).length = (column moves j).length + if a = j then 1 else 0 := by
      intro j; rw [column_append]; split <;> simp
    have ha : (column moves a).length < 6 := by
      have := hh a; rw [hcol, if_pos rfl] at this; omega
    obtain ⟨h2, h1⟩ := ih (fun j => by have := hh j; rw [hcol] at this; omega)
    rw [boardOf_append moves a ha]
    have h0 : boardOf moves ⟨5 - (column moves a).length, by omega⟩ a = 0 := by
      by_contra hc
      have := (boardOf_ne_zero _ _ _).1 hc
      simp only at this; omega
    rw [tokens_update h0 (mover_ne _) 2 (by decide), tokens_update h0 (mover_ne _) 1 (by decide), h1, h2]
    simp only [List.length_append, List.length_cons, List.length_nil]
    unfold mover
    rcases Nat.mod_two_eq_zero_or_one moves.length with hm | hm
    · simp [hm]; omega
    · simp [hm]; omega

/-- C23: token counts.  After `n` moves player 2 (who starts) has `⌈n/2⌉` tokens and player 1 has `⌊n/2⌋`; so they differ by at
most one. -/
theorem C23_token_counts (h : Play e moves) :
    tokens e.board 2 = (moves.length + 1) / 2 ∧ tokens e.board 1 = moves.length / 2 := by
  rw [h.inv.board]
  exact tokens_boardOf moves h.inv.height

/-- C23: a step puts one token of the player to move into the chosen column, in the lowest empty row, and changes no other
cell. -/
theorem C23_step (h : Play e moves) {a : Fin 7} {res : Obs × Int × Bool × List Nat} (hs : e.step a.val = (e', .ok res)) :
    ∃ i : Fin 6, e.board i a = 0 ∧ (∀ i', i < i' → e.board i' a ≠ 0) ∧ e'.board i a = mover moves.length ∧
      ∀ r c, (r, c) ≠ (i, a) → e'.board r c = e.board r c := by
  have h' := Play.step a h hs
  have hb' := h'.inv.board
  have hcol := h'.inv.height a
  rw [column_append, if_pos rfl, List.length_append, List.length_singleton] at hcol
  rw [boardOf_append moves a (by omega)] at hb'
  refine ⟨⟨5 - (column moves a).length, by omega⟩, ?_, ?_, ?_, ?_⟩
  · by_contra hc
    rw [h.inv.board, ← ne_eq, boardOf_ne_zero] at hc
    simp only at hc; omega
  · intro i' hi
    rw [h.inv.board, boardOf_ne_zero]
    have : 5 - (column moves a).length < i'.val := hi
    omega
  · rw [hb']; simp
  · intro r c hne
    rw [hb', h.inv.board]
    by_cases hr : r = ⟨5 - (column moves a).length, by omega⟩
    · subst hr
      have hc : c ≠ a := fun e => hne (by rw [e])
      rw [Function.update_self, Function.update_of_ne hc]
    · rw [Function.update_of_ne hr]

/-- C24.  A successful step reports a win (done, reward 1) exactly when the player who just moved has four in a row, a draw
(done, reward 0) exactly when they have not and the board is full, and otherwise that the game goes on (not done, reward 0).
The other player never has four in a row at that point. -/
theorem C24_win_detection (h : Play e moves) {a : Fin 7} {obs : Obs} {r : Int} {d : Bool} {sid : List Nat}
    (hs : e.step a.val = (e', .ok (obs, r, d, sid))) :
    ((d = true ∧ r = 1) ↔ FourInRow e'.board (mover moves.length)) ∧
    ((d = true ∧ r = 0) ↔ ¬ FourInRow e'.board (mover moves.length) ∧ Full e'.board) ∧
    ((d = false ∧ r = 0) ↔ ¬ FourInRow e'.board (mover moves.length) ∧ ¬ Full e'.board) ∧
    ¬ FourInRow e'.board (mover (moves.length + 1)) ∧ d = e'.done := by
  have hi := h.inv
  have h' := Play.step a h hs
  cases hd : e.done with
  | true => rw [step_done hd] at hs; injection hs with _ h; cases h
  | false =>
    by_cases ha : (column moves a).length < 6
    · obtain ⟨e'', h1, h2⟩ := step_succeeds hi hd ha
      rw [h1] at hs
      injection hs with h3 h4
      subst h3
      injection h4 with h4
      injection h4 with _ h4
      injection h4 with h4 h5
      injection h5 with h5 _
      subst h5
      have hother : ¬ FourInRow e''.board (mover (moves.length + 1)) := by
        intro hf
        rw [h2.board, boardOf_append moves a ha] at hf
        have hne : mover moves.length ≠ mover (moves.length + 1) := by
          unfold mover
          rcases Nat.mod_two_eq_zero_or_one moves.length with hm | hm
          · rw [if_pos hm, if_neg (by omega)]; decide
          · rw [if_neg (by omega), if_pos (by omega)]; decide
        have hf := fourInRow_of_update hne hf
        rw [← hi.board] at hf
        have hnd := (not_congr hi.done).1 (by simp [hd])
        have : mover (moves.length + 1) = 1 ∨ mover (moves.length + 1) = 2 := by unfold mover; split <;> simp
        rcases this with hm | hm <;> rw [hm] at hf
        · exact hnd (.inl hf)
        · exact hnd (.inr (.inl hf))
      have hdone : e''.done = true ↔ FourInRow e''.board (mover moves.length) ∨ Full e''.board := by
        rw [h2.done]
        rcases Nat.mod_two_eq_zero_or_one moves.length with hm | hm
        · have e1 : mover moves.length = 2 := by unfold mover; rw [if_pos hm]
          have e2 : mover (moves.length + 1) = 1 := by unfold mover; rw [if_neg (by omega)]
          rw [e2] at hother; rw [e1]; simp [hother]
        · have e1 : mover moves.length = 1 := by unfold mover; rw [if_neg (by omega)]
          have e2 : mover (moves.length + 1) = 2 := by unfold mover; rw [if_pos (by omega)]
          rw [e2] at hother; rw [e1]; simp [hother]
      refine ⟨?_, ?_, ?_, hother, rfl⟩
      all_goals
        by_cases hw : FourInRow e''.board (mover moves.length) <;> by_cases hf : Full e''.board <;>
          simp [hw, hf] at hdone h4 ⊢ <;> simp [hdone, ← h4]
    · rw [step_full hi hd ha] at hs; injection hs with _ h; cases h

/-- C25.  An episode has at most 42 moves; while it is not done some action is available; once it is done no step is
accepted. -/
theorem C25_episode_length (h : Play e moves) :
    moves.length ≤ 42 ∧ (e.done = false → e.availableActions ≠ []) ∧
    (e.done = true → ∀ a, e.step a = (e, .error .episodeDone)) ∧ (moves.length = 42 → e.done = true) := by
  have hi := h.inv
  have hlen : ∀ b : Board, tokens b 1 + tokens b 2 ≤ 42 := by
    intro b
    unfold tokens
    rw [← Finset.card_union_of_disjoint]
    · exact le_trans (Finset.card_le_univ _) (by decide)
    · rw [Finset.disjoint_filter]
      intro x _ h1 h2
      rw [h1] at h2; cases h2
  obtain ⟨t2, t1⟩ := C23_token_counts h
  have h42 := hlen e.board
  have hnf : e.done = false → e.availableActions ≠ [] := by
    intro hd hc
    have := (not_available_iff_full hi.height hi.mem_available).1 (by rw [hc]; rfl)
    rw [← hi.board] at this
    have hnd := (not_congr hi.done).1 (by simp [hd])
    exact hnd (.inr (.inr this))
  refine ⟨by omega, hnf, fun hd a => step_done hd a, ?_⟩
  intro hl
  by_contra hc
  have hd : e.done = false := by simpa using hc
  have hne := hnf hd
  obtain ⟨j, hj⟩ := List.exists_mem_of_ne_nil _ hne
  obtain ⟨i, h0⟩ := ((C23_available h).1 j).1 hj
  have : tokens e.board 1 + tokens e.board 2 + 1 ≤ 42 := by
    unfold tokens
    rw [← Finset.card_union_of_disjoint, ← Finset.card_insert_of_notMem (a := (i, j))]
    · exact le_trans (Finset.card_le_univ _) (by decide)
    · simp [h0]
    · rw [Finset.disjoint_filter]
      intro x _ h1 h2
      rw [h1] at h2; cases h2
  omega

/-- C26.  What `step` does for every integer action: `EpisodeDoneError` if the episode is done, else `ValueError` if the
action is not in `0..6`, else `UnavailableActionError` if the column is full, and success otherwise.  A step that raises
leaves the environment as it was. -/
theorem C26_errors (h : Play e moves) (a : Int) :
    (e.done = true → e.step a = (e, .error .episodeDone)) ∧
    (e.done = false → ¬ (0 ≤ a ∧ a ≤ 6) → e.step a = (e, .error .valueError)) ∧
    (∀ j : Fin 7, e.done = false → a = j.val → (∀ i, e.board i j ≠ 0) → e.step a = (e, .error .unavailableAction)) ∧
    (∀ j : Fin 7, e.done = false → a = j.val → (∃ i, e.board i j = 0) → ∃ e' res, e.step a = (e', .ok res)) := by
  have hi := h.inv
  have hav := (C23_available h).1
  refine ⟨fun hd => step_done hd a, fun hd ha => step_invalid hd (by omega), ?_, ?_⟩
  · rintro j hd rfl hf
    apply step_full hi hd
    rw [← hi.mem_available, hav]
    rintro ⟨i, hi⟩
    exact hf i hi
  · rintro j hd rfl hf
    rw [← hav, hi.mem_available] at hf
    obtain ⟨e', h1, _⟩ := step_succeeds hi hd hf
    exact ⟨e', _, h1⟩

/-- C28 as far as it is true: the first row of the observation is the mask of the columns that are not full, in both
channels; channel 0 shows the tokens of the player who has *just moved* (player 1 at the start), channel 1 those of the player
whose turn it is.  Missing: the documentation says that channel 0 belongs to the player whose turn it is, see
`C28_counterexample`. -/
theorem C28_observation_partial (h : Play e moves) (j : Fin 7) (c : Fin 2) :
    e.state 0 j c = (if j ∈ e.availableActions then 1 else 0) ∧
    ∀ i : Fin 6, e.state i.succ j c = if e.board i j = (if c = 0 then mover (moves.length + 1) else mover moves.length) then 1 else 0 := by
  constructor
  · unfold Env.state; simp
  · intro i
    have h1 : e.players.1 = mover (moves.length + 1) := by
      rw [h.inv.players]
      unfold mover
      rcases Nat.mod_two_eq_zero_or_one moves.length with hm | hm
      · rw [if_pos hm, if_neg (by omega)]
      · rw [if_neg (by omega), if_pos (by omega)]
    have h2 := h.inv.next_player
    unfold Env.state
    rw [dif_neg (by simp)]
    simp [h1, h2]

/-- The observation returned by a step is the one of the new position. -/
theorem C28_step_observation (h : Play e moves) {a : Fin 7} {obs : Obs} {r : Int} {d : Bool} {sid : List Nat}
    (hs : e.step a.val = (e', .ok (obs, r, d, sid))) : obs = e'.state ∧ sid = e'.stateId := by
  have hi := h.inv
  cases hd : e.done with
  | true => rw [step_done hd] at hs; injection hs with _ h; cases h
  | false =>
    by_cases ha : (column moves a).length < 6
    · obtain ⟨e'', h1, h2⟩ := step_succeeds hi hd ha
      rw [h1] at hs
      injection hs with h3 h4
      subst h3
      injection h4 with h4
      injection h4 with h4 h5
      injection h5 with _ h5
      injection h5 with _ h5
      exact ⟨h4.symm, h5.symm⟩
    · rw [step_full hi hd ha] at hs; injection hs with _ h; cases h

/-! ### Concrete games -/

/-- The environment after a list of moves. -/
def playAll (moves : List (Fin 7)) : Env := moves.foldl (fun e a => (e.step a.val).1) Env.init

/-- All moves are accepted. -/
def accepts : Env → List (Fin 7) → Bool
  | _, [] => true
  | e, a :: moves => match e.step a.val with
    | (e', .ok _) => accepts e' moves
    | (_, .error _) => false

theorem playAll_play' {e : Env} {before : List (Fin 7)} (he : Play e before) (moves : List (Fin 7)) (h : accepts e moves = true) :
    Play (moves.foldl (fun e a => (e.step a.val).1) e) (before ++ moves) := by
  induction moves generalizing e before with
  | nil => simpa using he
  | cons a moves ih =>
    unfold accepts at h
    split at h
    · rename_i e' res hs
      have := ih (Play.step a he hs) h
      rw [List.foldl_cons, hs]
      simpa using this
    · cases h

theorem playAll_play (moves : List (Fin 7)) (h : accepts Env.init moves = true) : Play (playAll moves) moves :=
  playAll_play' .init moves h

/-- Player 2 wins in column 3. -/
theorem exWin : Play (playAll [3, 0, 3, 0, 3, 0, 3]) [3, 0, 3, 0, 3, 0, 3] := playAll_play _ (by decide +kernel)

example : (playAll [3, 0, 3, 0, 3, 0, 3]).done = true := by decide +kernel

/-- Column 0 is full; the game goes on. -/
theorem exFull : Play (playAll [0, 0, 0, 0, 0, 0]) [0, 0, 0, 0, 0, 0] := playAll_play _ (by decide +kernel)

example : (playAll [0, 0, 0, 0, 0, 0]).done = false ∧ (playAll [0, 0, 0, 0, 0, 0]).availableActions = [1, 2, 3, 4, 5, 6] := by
  decide +kernel

/-- Negation of C28 as documented: after one move (by player 2) it is player 1's turn, but channel 0 shows the token of player
2. -/
theorem C28_counterexample : ∃ (e : Env) (moves : List (Fin 7)), Play e moves ∧ ∃ (i : Fin 6) (j : Fin 7),
    e.board i j ≠ mover moves.length ∧ e.state i.succ j 0 = 1 :=
  ⟨playAll [3], [3], playAll_play _ (by decide +kernel), 5, 3, by decide +kernel, by decide +kernel⟩

/-- A drawn game: 42 moves, nobody has four in a row. -/
def drawMoves : List (Fin 7) :=
  [3, 1, 3, 4, 5, 0, 0, 0, 0, 0, 6, 4, 6, 5, 4, 5, 0, 3, 2, 6, 2, 4, 2, 6, 3, 6, 6, 1, 4, 2, 4, 1, 2, 3, 2, 5, 1, 3, 1, 1, 5, 5]

theorem exDraw : Play (playAll drawMoves) drawMoves := playAll_play _ (by decide +kernel)

example : (playAll drawMoves).done = true := (C25_episode_length exDraw).2.2.2 rfl

end Coax.ConnectFour
