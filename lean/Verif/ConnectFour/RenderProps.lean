import Verif.ConnectFour.Render
import Verif.ConnectFour.Props

/-! Property C123: what `render` prints. -/

namespace Coax.ConnectFour

variable {e : Env} {moves : List (Fin 7)}

/-! ### Specification: a picture of 15 lines of 30 characters -/

/-- The token of a player. -/
def token (p : Nat) : Char := if p = 1 then '●' else if p = 2 then '○' else ' '

/-- The mark for the last action of a player: filled if the tokens of the player are. -/
def arrow (p : Nat) : Char := if p = 1 then '▼' else '▽'

/-- The character at line `r` and place `c`. -/
def At (t : List Char) (r c : Nat) (x : Char) : Prop := t[30 * r + c]? = some x

/-- The picture of a board: rules between the rows, a frame, and the numbers of the actions in the last line. -/
structure Picture (t : List Char) (b : Board) : Prop where
  size : t.length = 450
  breaks : ∀ r < 15, At t r 29 '\n'
  corners : ∀ i < 7, ∀ j < 8, At t (2 * i + 1) (4 * j) '+'
  rules : ∀ i < 7, ∀ c < 29, c % 4 ≠ 0 → At t (2 * i + 1) c '-'
  frame : ∀ i < 6, ∀ j < 8, At t (2 * i + 2) (4 * j) '|'
  cells : ∀ (i : Fin 6) (j : Fin 7), At t (2 * i + 2) (4 * j + 2) (token (b i j))
  spaces : ∀ i < 6, ∀ c < 29, c % 2 = 1 → At t (2 * i + 2) c ' '
  actions : ∀ j : Fin 7, At t 14 (4 * j + 2) (Char.ofNat (48 + j))

theorem symbol_token (p : Nat) : symbol p = token p := by
  unfold symbol token
  have h1 : ((p : Int) = 1) ↔ p = 1 := by omega
  have h2 : ((p : Int) = 2) ↔ p = 2 := by omega
  have h3 : ¬ ((p : Int) = -1) := by omega
  have h4 : ¬ ((p : Int) = -2) := by omega
  simp [h1, h2, h3, h4]

/-- The lines of the text with these marks and cells. -/
def header (mk : Fin 7 → Char) : List Char := [' ', ' '] ++ joinChars [' ', ' ', ' '] ((List.finRange 7).map mk) ++ [' ', ' ', '\n']

def rowLine (cell : Fin 7 → Char) : List Char := ['|', ' '] ++ joinChars [' ', '|', ' '] ((List.finRange 7).map cell) ++ [' ', '|', '\n']

def lines (mk : Fin 7 → Char) (cell : Fin 6 → Fin 7 → Char) : List (List Char) :=
  [header mk, hrule, rowLine (cell 0), hrule, rowLine (cell 1), hrule, rowLine (cell 2), hrule, rowLine (cell 3), hrule, rowLine (cell 4), hrule, rowLine (cell 5), hrule, actionLine]

theorem flatten_at {l : List (List Char)} (h : ∀ x ∈ l, x.length = 30) {r c : Nat} (hc : c < 30) {x : List Char} (hx : l[r]? = some x) : l.flatten[30 * r + c]? = x[c]? := by
  induction l generalizing r with
  | nil => simp at hx
  | cons y l ih =>
    have hy : y.length = 30 := h y (by simp)
    cases r with
    | zero =>
      simp only [List.getElem?_cons_zero, Option.some.injEq] at hx
      subst hx
      rw [List.flatten_cons, Nat.mul_zero, Nat.zero_add, List.getElem?_append_left (by omega)]
    | succ r =>
      rw [List.getElem?_cons_succ] at hx
      rw [List.flatten_cons, List.getElem?_append_right (by omega), ← ih (fun z hz => h z (by simp [hz])) hx]
      congr 1; omega

theorem lines_length (mk : Fin 7 → Char) (cell : Fin 6 → Fin 7 → Char) : ∀ x ∈ lines mk cell, x.length = 30 := by
  intro x hx
  simp only [lines, List.mem_cons, List.not_mem_nil, or_false] at hx
  rcases hx with rfl | rfl | rfl | rfl | rfl | rfl | rfl | rfl | rfl | rfl | rfl | rfl | rfl | rfl | rfl <;> rfl

theorem render_eq (n : Bool) (e : Env) (h : n = true → e.prevAction = none) : e.render n = .ok (lines e.marker fun i j => symbol (e.board i j)).flatten := by
  unfold Env.render
  rw [if_neg (by cases n <;> simp_all)]
  refine congrArg Except.ok ?_
  simp only [lines, List.flatten_cons, List.flatten_nil, header, rowLine, Env.renderRow, List.append_assoc, List.append_nil]
  rw [show List.finRange 6 = [0, 1, 2, 3, 4, 5] from rfl]
  simp only [List.flatMap_cons, List.flatMap_nil, Env.renderRow, List.append_assoc, List.append_nil, List.nil_append]

theorem hrule_at {c : Nat} (hc : c < 29) : hrule[c]? = some (if c % 4 = 0 then '+' else '-') := by
  interval_cases c <;> rfl

theorem rowLine_at (cell : Fin 7 → Char) : (∀ j < 8, (rowLine cell)[4 * j]? = some '|') ∧ (∀ j : Fin 7, (rowLine cell)[4 * j.1 + 2]? = some (cell j)) ∧
    (∀ c < 29, c % 2 = 1 → (rowLine cell)[c]? = some ' ') ∧ (rowLine cell)[29]? = some '\n' := by
  refine ⟨fun j hj => ?_, fun j => ?_, fun c hc h2 => ?_, rfl⟩
  · interval_cases j <;> rfl
  · fin_cases j <;> rfl
  · interval_cases c <;> first | rfl | (exact absurd h2 (by decide))

theorem line_rule (mk : Fin 7 → Char) (cell : Fin 6 → Fin 7 → Char) {i : Nat} (hi : i < 7) : (lines mk cell)[2 * i + 1]? = some hrule := by
  interval_cases i <;> rfl

theorem line_row (mk : Fin 7 → Char) (cell : Fin 6 → Fin 7 → Char) (i : Fin 6) : (lines mk cell)[2 * i.1 + 2]? = some (rowLine (cell i)) := by
  fin_cases i <;> rfl

theorem picture (mk : Fin 7 → Char) (b : Board) : Picture (lines mk fun i j => token (b i j)).flatten b := by
  have hl := lines_length mk fun i j => token (b i j)
  refine ⟨?_, ?_, ?_, ?_, ?_, ?_, ?_, ?_⟩
  · have := List.length_flatten (L := lines mk fun i j => token (b i j))
    rw [this, List.map_congr_left (g := fun _ => 30) hl, List.map_const', List.sum_replicate, show (lines mk fun i j => token (b i j)).length = 15 from rfl]
    simp
  · intro r hr
    obtain ⟨x, hx⟩ : ∃ x, (lines mk fun i j => token (b i j))[r]? = some x := ⟨_, List.getElem?_eq_getElem (show r < (lines mk _).length from hr)⟩
    unfold At
    rw [flatten_at hl (by omega) hx]
    have hmem := List.mem_of_getElem? hx
    simp only [lines, List.mem_cons, List.not_mem_nil, or_false] at hmem
    rcases hmem with rfl | rfl | rfl | rfl | rfl | rfl | rfl | rfl | rfl | rfl | rfl | rfl | rfl | rfl | rfl <;> rfl
  · intro i hi j hj
    unfold At
    rw [flatten_at hl (by omega) (line_rule _ _ hi), hrule_at (by omega), if_pos (by omega)]
  · intro i hi c hc h4
    unfold At
    rw [flatten_at hl (by omega) (line_rule _ _ hi), hrule_at (by omega), if_neg h4]
  · intro i hi j hj
    unfold At
    rw [flatten_at hl (by omega) (line_row _ _ ⟨i, hi⟩)]
    exact (rowLine_at _).1 j hj
  · intro i j
    unfold At
    rw [flatten_at hl (by omega) (line_row _ _ i)]
    exact (rowLine_at _).2.1 j
  · intro i hi c hc h2
    unfold At
    rw [flatten_at hl (by omega) (line_row _ _ ⟨i, hi⟩)]
    exact (rowLine_at _).2.2.1 c hc h2
  · intro j
    unfold At
    rw [flatten_at hl (by omega) (show (lines mk _)[14]? = some actionLine from rfl)]
    fin_cases j <;> rfl

theorem render_ok (n : Bool) (e : Env) (h : n = true → e.prevAction = none) :
    ∃ t, e.render n = .ok t ∧ Picture t e.board ∧ ∀ j : Fin 7, At t 0 (4 * j + 2) (e.marker j) := by
  have hs : (fun i j => symbol (e.board i j)) = fun i j => token (e.board i j) := by
    funext i j; exact symbol_token _
  refine ⟨_, render_eq n e h, hs ▸ picture _ _, fun j => ?_⟩
  unfold At
  rw [flatten_at (lines_length _ _) (by omega) (show (lines _ _)[0]? = some (header e.marker) from rfl)]
  generalize e.marker = mk
  fin_cases j <;> rfl

/-- C123: without numpy integers, `render` shows every token at its place. -/
theorem C123_board_partial (e : Env) : ∃ t, e.render false = .ok t ∧ Picture t e.board :=
  let ⟨t, h, hp, _⟩ := render_ok false e (by simp)
  ⟨t, h, hp⟩

/-- C123: two positions that look alike have the same board. -/
theorem C123_injective {e e' : Env} (h : ∀ i j, e.board i j ≤ 2) (h' : ∀ i j, e'.board i j ≤ 2) (n n' : Bool) {t : List Char} (ht : e.render n = .ok t) (ht' : e'.render n' = .ok t) :
    e.board = e'.board := by
  have key : ∀ {n : Bool} {e : Env}, e.render n = .ok t → Picture t e.board := by
    intro n e ht
    obtain ⟨t1, h1, h2, -⟩ := render_ok n e (by
      intro hn
      by_contra hne
      obtain ⟨a, ha⟩ := Option.ne_none_iff_exists'.1 hne
      simp [Env.render, hn, ha] at ht)
    rw [ht] at h1; cases h1; exact h2
  funext i j
  have a1 := (key ht).cells i j
  have a2 := (key ht').cells i j
  unfold At at a1 a2
  rw [a1] at a2
  have hij := h i j
  have hij' := h' i j
  simp only [Option.some.injEq] at a2
  generalize e.board i j = x at *
  generalize e'.board i j = y at *
  interval_cases x <;> interval_cases y <;> first | rfl | (exact absurd a2 (by decide))

/-- C123: the column of the last action is marked, with the kind of mark that fits the token which was put there; no other column is.  (The comments at the table of symbols name the players the other way round, and the line
that looks up the mark uses the player who did not move; the two cancel.) -/
theorem C123_marker_partial (h : Play e moves) (a : Fin 7) (ha : moves.getLast? = some a) :
    ∃ t, e.render false = .ok t ∧ At t 0 (4 * a + 2) (arrow (mover (moves.length - 1))) ∧ ∀ j : Fin 7, j ≠ a → At t 0 (4 * j + 2) ' ' := by
  obtain ⟨t, h1, -, h3⟩ := render_ok false e (by simp)
  have hp : e.players.2 = mover moves.length := h.inv.next_player
  have ha' : e.prevAction = some a := by rw [h.inv.prev, ha]
  have hpos : moves.length ≠ 0 := by
    intro h0
    rw [List.length_eq_zero_iff.1 h0] at ha
    cases ha
  have hm : e.marker a = arrow (mover (moves.length - 1)) := by
    unfold Env.marker
    rw [if_pos ha', hp]
    rcases Nat.mod_two_eq_zero_or_one moves.length with hl | hl
    · have : (moves.length - 1) % 2 = 1 := by omega
      simp [mover, hl, this, arrow, symbol]
    · have : (moves.length - 1) % 2 = 0 := by omega
      simp [mover, hl, this, arrow, symbol]
  refine ⟨t, h1, hm ▸ h3 a, fun j hj => ?_⟩
  have := h3 j
  rwa [show e.marker j = ' ' by unfold Env.marker; rw [if_neg (by rw [ha']; simpa using Ne.symm hj)]; simp [symbol]] at this

/-- C123 is false: after a step with a numpy integer, `render` raises. -/
theorem C123_numpy_counterexample (h : Play e moves) (hm : moves ≠ []) : e.render true = .error .typeError := by
  have hp := h.inv.prev
  obtain ⟨a, ha⟩ : ∃ a, moves.getLast? = some a := ⟨moves.getLast hm, List.getLast?_eq_some_getLast hm⟩
  simp [Env.render, hp, ha]

/-- C123: before the first move nothing is marked, whatever was passed to `step` before the reset. -/
theorem C123_start (e : Env) (n : Bool) : ∃ t, e.reset.1.render n = .ok t ∧ Picture t (fun _ _ => 0) ∧ ∀ j : Fin 7, At t 0 (4 * j + 2) ' ' := by
  obtain ⟨t, h1, h2, h3⟩ := render_ok n e.reset.1 (fun _ => rfl)
  exact ⟨t, h1, h2, h3⟩

theorem foldl_update (l : List (Fin 7)) (m : Fin 7 → Bool) (j : Fin 7) : l.foldl (fun m j => Function.update m j true) m j = (m j || decide (j ∈ l)) := by
  induction l generalizing m with
  | nil => simp
  | cons a l ih =>
    rw [List.foldl_cons, ih]
    by_cases hj : j = a
    · subst hj; simp
    · simp [hj]

/-- After the moves 3 and 3 of the players 2 and 1: the tokens, and the mark of the last. -/
example : ∃ t, (playAll [3, 3]).render false = .ok t ∧ At t 12 14 '○' ∧ At t 10 14 '●' ∧ At t 0 14 '▼' := by
  obtain ⟨t, h1, h2, h3⟩ := render_ok false (playAll [3, 3]) (by simp)
  exact ⟨t, h1, h2.cells 5 3, h2.cells 4 3, h3 3⟩

/-- C123: the mask is true for the columns with an empty cell, and the observation has the same mask. -/
theorem C123_mask (h : Play e moves) (j : Fin 7) : (e.mask j = true ↔ ∃ i, e.board i j = 0) ∧ ∀ c, e.state 0 j c = if e.mask j then 1 else 0 := by
  have hm : e.mask j = decide (j ∈ e.availableActions) := by
    unfold Env.mask
    rw [foldl_update]; simp
  refine ⟨by rw [hm, decide_eq_true_eq]; exact (C23_available h).1 j, fun c => ?_⟩
  rw [hm, (C28_observation_partial h j c).1]
  simp

end Coax.ConnectFour
