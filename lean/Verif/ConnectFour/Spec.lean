import Verif.ConnectFour.Model

/-! The rules of Connect Four, independent of how the environment represents a position. -/

namespace Coax.ConnectFour

/-- Environments reachable from a fresh one, with the moves made since the last reset.  Any integer may be passed to `step`
at any time; a call that raises leaves no move. -/
inductive Play : Env → List (Fin 7) → Prop
  | init : Play Env.init []
  | reset {e moves} : Play e moves → Play Env.init []
  | step {e e' moves res} (a : Fin 7) : Play e moves → e.step a.val = (e', .ok res) → Play e' (moves ++ [a])
  | stepFails {e e' moves err} (a : Int) : Play e moves → e.step a = (e', .error err) → Play e' moves

/-- The player who makes move number `t` (the first move is number 0, and is made by player 2). -/
def mover (t : Nat) : Nat := if t % 2 = 0 then 2 else 1

/-- The moves in column `j`, from the bottom up, each with its number. -/
def column (moves : List (Fin 7)) (j : Fin 7) : List (Fin 7 × Nat) := moves.zipIdx.filter (fun q => decide (q.1 = j))

/-- The board after `moves`: each column holds the tokens of the moves in that column, stacked from the bottom (row 5) up. -/
def boardOf (moves : List (Fin 7)) (i : Fin 6) (j : Fin 7) : Nat :=
  match (column moves j)[5 - i.val]? with
  | none => 0
  | some (_, t) => mover t

/-- Player `p` has four tokens in a row: horizontally, vertically, or on one of the two diagonals. -/
def FourInRow (b : Board) (p : Nat) : Prop :=
  ∃ (i j di dj : Int), (di, dj) ∈ [((0 : Int), (1 : Int)), (1, 0), (1, 1), (1, -1)] ∧
    ∀ k : Nat, k < 4 → ∃ (r : Fin 6) (c : Fin 7), (r.val : Int) = i + k * di ∧ (c.val : Int) = j + k * dj ∧ b r c = p

/-- Every cell is occupied. -/
def Full (b : Board) : Prop := ∀ i j, b i j ≠ 0

/-- Number of tokens of player `p`. -/
def tokens (b : Board) (p : Nat) : Nat := (Finset.univ.filter (fun q : Fin 6 × Fin 7 => b q.1 q.2 = p)).card

end Coax.ConnectFour
