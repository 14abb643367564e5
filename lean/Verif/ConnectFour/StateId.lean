import Verif.ConnectFour.Props
import Mathlib.Data.Nat.Digits.Lemmas

/-! Property C27: `state_id` and `set_state`. -/

namespace Coax.ConnectFour

theorem parseDigits_eq (b : Nat) (s : List Nat) : parseDigits b s = Nat.ofDigits b s.reverse := by
  unfold parseDigits
  rw [Nat.ofDigits_eq_foldr]
  rw [List.foldr_reverse]
  congr 1
  funext acc d
  simp [mul_comm, add_comm]

theorem parse_padLeft (b n L : Nat) (hb : 1 < b) : parseDigits b (padLeft L (digitsOf b n)) = n := by
  rw [parseDigits_eq, padLeft, digitsOf, List.reverse_append, List.reverse_reverse, List.reverse_replicate, Nat.ofDigits_append,
    Nat.ofDigits_digits]
  have : ∀ k, Nat.ofDigits b (List.replicate k 0) = 0 := by
    intro k
    induction k with
    | zero => rfl
    | succ k ih => rw [List.replicate_succ, Nat.ofDigits_cons, ih]; simp
  rw [this]; simp

theorem length_digitsOf {b n L : Nat} (hb : 1 < b) (h : n < b ^ L) : (digitsOf b n).length ≤ L := by
  unfold digitsOf
  rw [List.length_reverse]
  exact (Nat.digits_length_le_iff hb n).2 h

theorem length_padLeft {L : Nat} {s : List Nat} (h : s.length ≤ L) : (padLeft L s).length = L := by
  simp [padLeft]; omega

theorem padLeft_parse {b L : Nat} (hb : 1 < b) {s : List Nat} (hs : ∀ d ∈ s, d < b) (hl : s.length = L) :
    padLeft L (digitsOf b (parseDigits b s)) = s := by
  have hlt : parseDigits b s < b ^ L := by
    rw [parseDigits_eq]
    have := Nat.ofDigits_lt_base_pow_length hb (l := s.reverse) (by simpa using hs)
    simpa [hl] using this
  have hlen := length_padLeft (length_digitsOf hb hlt)
  have h := parse_padLeft b (parseDigits b s) L hb
  rw [parseDigits_eq, parseDigits_eq] at h
  have := Nat.ofDigits_inj_of_len_eq hb (by simp [hl, ← parseDigits_eq, hlen]) ?_ ?_ h
  · rw [← parseDigits_eq] at this
    exact List.reverse_injective this
  · rw [← parseDigits_eq]
    intro d hd
    simp only [padLeft, digitsOf, List.mem_reverse, List.mem_append, List.mem_replicate] at hd
    rcases hd with ⟨_, rfl⟩ | hd
    · omega
    · exact Nat.digits_lt_base hb hd
  · simpa using hs

theorem padLeft_baseRepr (b n L : Nat) (hL : 0 < L) : padLeft L (baseRepr n b) = padLeft L (digitsOf b n) := by
  unfold baseRepr
  split
  · rename_i h
    subst h
    obtain ⟨m, rfl⟩ : ∃ m, L = m + 1 := ⟨L - 1, by omega⟩
    simp [padLeft, digitsOf, List.replicate_succ']
  · rfl

theorem length_baseRepr {b n L : Nat} (hL : 0 < L) (hb : 1 < b) (h : n < b ^ L) : (baseRepr n b).length ≤ L := by
  unfold baseRepr
  split
  · exact hL
  · exact length_digitsOf hb h

theorem boardOf_lt (moves : List (Fin 7)) (i : Fin 6) (j : Fin 7) : boardOf moves i j < 3 := by
  unfold boardOf
  split
  · omega
  · unfold mover; split <;> omega

theorem ravel_length (b : Board) : (ravel b).length = 42 := by simp [ravel]

theorem ravel_lt {b : Board} (h : ∀ i j, b i j < 3) : ∀ d ∈ ravel b, d < 3 := by
  intro d hd
  simp only [ravel, List.mem_ofFn] at hd
  obtain ⟨k, rfl⟩ := hd
  exact h _ _

theorem ravel_get (b : Board) (i : Fin 6) (j : Fin 7) : (ravel b)[7 * i.val + j.val]? = some (b i j) := by
  have hk : 7 * i.val + j.val < 42 := by omega
  unfold ravel
  rw [List.getElem?_ofFn, dif_pos hk]
  congr 2
  · apply Fin.ext; simp only; omega
  · apply Fin.ext; simp only; omega

theorem parse_ravel_lt {b : Board} (h : ∀ i j, b i j < 3) : parseDigits 3 (ravel b) < 3 ^ 42 := by
  rw [parseDigits_eq]
  have := Nat.ofDigits_lt_base_pow_length (b := 3) (by norm_num) (l := (ravel b).reverse) (by simpa using ravel_lt h)
  simpa [ravel_length] using this

theorem Inv.decodeLevel {e : Env} {moves : List (Fin 7)} (h : Inv e moves) (j : Fin 7) :
    decodeLevel [e.board 5 j, e.board 4 j, e.board 3 j, e.board 2 j, e.board 1 j, e.board 0 j] = e.levels j := by
  have hh := h.height j
  rw [h.levels j, h.board]
  have hz : ∀ i : Fin 6, (decide (boardOf moves i j ≠ 0)) = decide (5 - i.val < (column moves j).length) := by
    intro i; exact decide_eq_decide.2 (boardOf_ne_zero moves i j)
  have h0 := hz 0; have h1 := hz 1; have h2 := hz 2; have h3 := hz 3; have h4 := hz 4; have h5 := hz 5
  simp only [show ((0 : Fin 6) : Nat) = 0 from rfl, show ((1 : Fin 6) : Nat) = 1 from rfl, show ((2 : Fin 6) : Nat) = 2 from rfl,
    show ((3 : Fin 6) : Nat) = 3 from rfl, show ((4 : Fin 6) : Nat) = 4 from rfl, show ((5 : Fin 6) : Nat) = 5 from rfl] at h0 h1 h2 h3 h4 h5
  unfold ConnectFour.decodeLevel
  generalize (column moves j).length = n at *
  interval_cases n <;> simp [List.takeWhile, h0, h1, h2, h3, h4, h5, decU8] at *

theorem stateId_eq (e : Env) : e.stateId = e.players.1 :: (if e.done then 1 else 0) ::
    (match e.prevAction with | none => 7 | some a => a.val) :: padLeft 17 (digitsOf 16 (parseDigits 3 (ravel e.board))) := rfl

theorem setState_stateId {e e0 : Env} {moves : List (Fin 7)} (h : Inv e moves) :
    Env.setState (some baseRepr) e0 e.stateId = (e, none) := by
  have hlt3 : ∀ i j, e.board i j < 3 := by rw [h.board]; exact boardOf_lt moves
  have hn := parse_ravel_lt hlt3
  have hp : e.players.1 = 1 ∧ e.players.2 = 2 ∨ e.players.1 = 2 ∧ e.players.2 = 1 := by
    rw [h.players]; split <;> simp
  have ha : (match e.prevAction with | none => 7 | some a => a.val) ≤ 7 := by
    split
    · omega
    · rename_i a _; omega
  have hpl : (e.players.1, 3 - e.players.1) = e.players := by
    apply Prod.ext
    · rfl
    · simp only; omega
  have hdn : decide ((if e.done then 1 else 0) = 1) = e.done := by cases e.done <;> rfl
  have hpa : (if h : (match e.prevAction with | none => 7 | some a => a.val) < 7 then
      some (⟨(match e.prevAction with | none => 7 | some a => a.val), h⟩ : Fin 7) else none) = e.prevAction := by
    cases hq : e.prevAction with
    | none => simp
    | some a => simp
  have hd01 : (if e.done then 1 else 0) = 0 ∨ (if e.done then 1 else 0) = 1 := by cases e.done <;> simp
  rw [stateId_eq]
  generalize (match e.prevAction with | none => 7 | some a => a.val) = a at *
  have hrest : ∀ x ∈ padLeft 17 (digitsOf 16 (parseDigits 3 (ravel e.board))), x < 16 := by
    intro x hx
    simp only [padLeft, digitsOf, List.mem_append, List.mem_replicate, List.mem_reverse] at hx
    rcases hx with ⟨_, rfl⟩ | hx
    · omega
    · exact Nat.digits_lt_base (by norm_num) hx
  have hlen : (padLeft 17 (digitsOf 16 (parseDigits 3 (ravel e.board)))).length = 17 :=
    length_padLeft (length_digitsOf (by norm_num) (lt_trans hn (by norm_num)))
  generalize hdd : (if e.done then 1 else 0) = d at *
  unfold Env.setState
  dsimp only
  rw [if_neg (by omega), if_neg (by omega), if_neg (by omega), if_neg (by omega), if_neg ?_]
  · rw [parse_padLeft 16 _ 17 (by norm_num), if_neg (by have := length_baseRepr (L := 42) (by norm_num) (by norm_num : 1 < 3) hn; omega),
      padLeft_baseRepr _ _ _ (by norm_num), padLeft_parse (by norm_num) (ravel_lt hlt3) (ravel_length _)]
    have hb' : ∀ (i : Fin 6) (j : Fin 7), (ravel e.board)[7 * i.val + j.val]?.getD 0 = e.board i j := by
      intro i j; rw [ravel_get]; rfl
    simp only [hb', h.decodeLevel]
    rw [hpl, hpa, hdn]
  · rintro (h0 | h0)
    · rw [h0] at hlen; simp at hlen
    · rw [List.any_eq_true] at h0
      obtain ⟨x, hx, hx2⟩ := h0
      have := hrest x hx
      simp at hx2
      omega

/-- C27: `state_id` is a string of 20 hexadecimal digits. -/
theorem C27_length {e : Env} {moves : List (Fin 7)} (h : Play e moves) : e.stateId.length = 20 ∧ ∀ d ∈ e.stateId, d < 16 := by
  have hi := h.inv
  have hlt3 : ∀ i j, e.board i j < 3 := by rw [hi.board]; exact boardOf_lt moves
  have hn := parse_ravel_lt hlt3
  have hlen : (padLeft 17 (digitsOf 16 (parseDigits 3 (ravel e.board)))).length = 17 :=
    length_padLeft (length_digitsOf (by norm_num) (lt_trans hn (by norm_num)))
  rw [stateId_eq]
  refine ⟨by simp [hlen], ?_⟩
  intro x hx
  simp only [List.mem_cons] at hx
  rcases hx with rfl | rfl | rfl | hx
  · rw [hi.players]; split <;> simp
  · split <;> simp
  · split
    · omega
    · rename_i a _; omega
  · simp only [padLeft, digitsOf, List.mem_append, List.mem_replicate, List.mem_reverse] at hx
    rcases hx with ⟨_, rfl⟩ | hx
    · omega
    · exact Nat.digits_lt_base (by norm_num) hx

/-- C27: two reachable positions with the same `state_id` are equal in every attribute. -/
theorem C27_injective {e e' : Env} {moves moves' : List (Fin 7)} (h : Play e moves) (h' : Play e' moves')
    (heq : e.stateId = e'.stateId) : e = e' := by
  have h1 := setState_stateId (e0 := Env.init) h.inv
  have h2 := setState_stateId (e0 := Env.init) h'.inv
  rw [heq, h2] at h1
  injection h1 with h1 _
  exact h1.symm

/-- C27, for the code with `np._base_repr` replaced by `np.base_repr`: `set_state` with the `state_id` of any reachable
position, called on any environment, restores that position in every attribute.  Missing: the code as it is cannot do this,
see `C27_set_state_raises`. -/
theorem C27_round_trip_partial {e : Env} {moves : List (Fin 7)} (h : Play e moves) (e0 : Env) :
    Env.setState (some baseRepr) e0 e.stateId = (e, none) := setState_stateId h.inv

theorem setState_missing {e e0 : Env} {f : Nat → Nat → List Nat} {p d a : Nat} {rest : List Nat}
    (h1 : Env.setState (some f) e0 (p :: d :: a :: rest) = (e, none)) :
    Env.setState none e0 (p :: d :: a :: rest) =
      ({ e0 with players := e.players, done := e.done, prevAction := e.prevAction }, some .attributeError) := by
  unfold Env.setState at h1 ⊢
  dsimp only at h1 ⊢
  split at h1
  · injection h1 with _ h; cases h
  rename_i c1
  rw [if_neg c1]
  split at h1
  · injection h1 with _ h; cases h
  rename_i c2
  rw [if_neg c2]
  split at h1
  · injection h1 with _ h; cases h
  rename_i c3
  rw [if_neg c3]
  split at h1
  · injection h1 with _ h; cases h
  rename_i c4
  rw [if_neg c4]
  split at h1
  · injection h1 with _ h; cases h
  split at h1
  · injection h1 with _ h; cases h
  injection h1 with h1 _
  rw [← h1]

/-- C27, negation for the code as it is: with the `state_id` of any reachable position `set_state` raises `AttributeError`,
after it has overwritten the players, the previous action and `done`, but not the board. -/
theorem C27_set_state_raises {e : Env} {moves : List (Fin 7)} (h : Play e moves) (e0 : Env) :
    Env.setState none e0 e.stateId =
      ({ e0 with players := e.players, done := e.done, prevAction := e.prevAction }, some .attributeError) := by
  have h1 := setState_stateId (e0 := e0) h.inv
  rw [stateId_eq] at h1 ⊢
  exact setState_missing h1

/-- Hypotheses are met by the games of `Props.lean`. -/
example : (playAll [3, 0, 3, 0, 3, 0, 3]).stateId.length = 20 := (C27_length exWin).1

end Coax.ConnectFour
