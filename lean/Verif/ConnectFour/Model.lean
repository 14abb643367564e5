import Verif.Err
import Mathlib.Data.Fin.VecNotation
import Mathlib.Data.Nat.Digits.Defs
import Mathlib.Data.List.FinRange
import Mathlib.Data.Fintype.Prod
import Mathlib.Algebra.BigOperators.Fin

/-!
Model of `coax/envs/_connect_four.py`.

Boards are functions on `Fin 6 × Fin 7` (`num_rows`, `num_cols`, lines 51-52), row 0 is the top row.  `uint8` entries are
natural numbers; the only arithmetic on them, the decrement of `_levels`, wraps around modulo 256 (`decU8`).
Rewards are integers (the code uses `1.0` and `0.0`).  `render` is in `Verif.ConnectFour.Render`.
-/

namespace Coax.ConnectFour

/-- A board: `0` for an empty cell, `1` and `2` for the tokens of the players.  (`coax/envs/_connect_four.py:281-286`.) -/
abbrev Board := Fin 6 → Fin 7 → Nat

/-- The attributes of the environment, `coax/envs/_connect_four.py:281-286`. -/
structure Env where
  prevAction : Option (Fin 7)
  players : Nat × Nat
  board : Board
  levels : Fin 7 → Nat
  done : Bool

/-- `filters`, `coax/envs/_connect_four.py:62-103`. -/
def filters : List (Fin 4 → Fin 4 → Nat) := [
  ![![0, 0, 0, 0], ![0, 0, 0, 0], ![0, 0, 0, 0], ![1, 1, 1, 1]],
  ![![0, 0, 0, 0], ![0, 0, 0, 0], ![1, 1, 1, 1], ![0, 0, 0, 0]],
  ![![1, 0, 0, 0], ![0, 1, 0, 0], ![0, 0, 1, 0], ![0, 0, 0, 1]],
  ![![0, 0, 0, 1], ![0, 0, 1, 0], ![0, 1, 0, 0], ![1, 0, 0, 0]],
  ![![0, 0, 0, 0], ![1, 1, 1, 1], ![0, 0, 0, 0], ![0, 0, 0, 0]],
  ![![1, 1, 1, 1], ![0, 0, 0, 0], ![0, 0, 0, 0], ![0, 0, 0, 0]],
  ![![1, 0, 0, 0], ![1, 0, 0, 0], ![1, 0, 0, 0], ![1, 0, 0, 0]],
  ![![0, 1, 0, 0], ![0, 1, 0, 0], ![0, 1, 0, 0], ![0, 1, 0, 0]],
  ![![0, 0, 1, 0], ![0, 0, 1, 0], ![0, 0, 1, 0], ![0, 0, 1, 0]],
  ![![0, 0, 0, 1], ![0, 0, 0, 1], ![0, 0, 0, 1], ![0, 0, 0, 1]]]

/-- `_init_state`, `coax/envs/_connect_four.py:281-286`, called by `__init__` (lines 105-106) and `reset`
(lines 108-128). -/
def Env.init : Env where
  prevAction := none
  players := (1, 2)
  board := fun _ _ => 0
  levels := fun _ => 5
  done := false

/-- `available_actions`, `coax/envs/_connect_four.py:268-273`. -/
def Env.availableActions (e : Env) : List (Fin 7) :=
  (List.finRange 7).filter (fun j => decide (e.levels j ≥ 0) && decide (e.levels j < 6))

/-- An observation, shape `[num_rows + 1, num_cols, num_players]`.  (`coax/envs/_connect_four.py:222-231`.) -/
abbrev Obs := Fin 7 → Fin 7 → Fin 2 → Nat

/-- `state`, `coax/envs/_connect_four.py:222-231`. -/
def Env.state (e : Env) : Obs := fun r j c =>
  if h : r.val = 0 then
    if j ∈ e.availableActions then 1 else 0
  else
    let i : Fin 6 := ⟨r.val - 1, by omega⟩
    let p := if c = 0 then e.players.1 else e.players.2
    if e.board i j = p then 1 else 0

/-- Python's `int(s, b)` on a string of digits, given as the list of digit values.  (`coax/envs/_connect_four.py:242,247-257`.) -/
def parseDigits (b : Nat) (s : List Nat) : Nat := s.foldl (fun acc d => acc * b + d) 0

/-- Left padding with zeros to length `n`.  (`coax/envs/_connect_four.py:242,258-259`.) -/
def padLeft (n : Nat) (s : List Nat) : List Nat := List.replicate (n - s.length) 0 ++ s

/-- The digits of `n` in base `b`, most significant first.  (`coax/envs/_connect_four.py:242,257`.) -/
def digitsOf (b n : Nat) : List Nat := (Nat.digits b n).reverse

/-- `_state.ravel()`: row-major.  (`coax/envs/_connect_four.py:241`.) -/
def ravel (b : Board) : List Nat :=
  List.ofFn (fun k : Fin 42 => b ⟨k.val / 7, by omega⟩ ⟨k.val % 7, by omega⟩)

/-- `state_id`, `coax/envs/_connect_four.py:233-243`.  The string is the list of the values of its (hexadecimal) digits. -/
def Env.stateId (e : Env) : List Nat :=
  let p := e.players.1
  let d := if e.done then 1 else 0
  let a := match e.prevAction with | none => 7 | some a => a.val
  let s := parseDigits 3 (ravel e.board)
  p :: d :: a :: padLeft 17 (digitsOf 16 s)

/-- `uint8` decrement.  (`coax/envs/_connect_four.py:266,298`.) -/
def decU8 (x : Nat) : Nat := (x + 255) % 256

/-- `np.tensordot(filter, s[i0:i1, j0:j1])` for one filter, `coax/envs/_connect_four.py:301-305`. -/
def tensordot (f : Fin 4 → Fin 4 → Nat) (s : Fin 6 → Fin 7 → Bool) (i0 : Fin 3) (j0 : Fin 4) : Nat :=
  ∑ i : Fin 4, ∑ j : Fin 4, f i j * (if s ⟨i0.val + i.val, by omega⟩ ⟨j0.val + j.val, by omega⟩ then 1 else 0)

/-- `_done_reward`, `coax/envs/_connect_four.py:288-313`: the new environment (levels are updated), `done` and the reward. -/
def Env.doneReward (e : Env) (a : Fin 7) : Env × Bool × Int :=
  let e := { e with levels := Function.update e.levels a (decU8 (e.levels a)) }
  let s : Fin 6 → Fin 7 → Bool := fun i j => decide (e.board i j = e.players.1)
  if ([2, 1, 0] : List (Fin 3)).any (fun i0 => ([0, 1, 2, 3] : List (Fin 4)).any (fun j0 =>
      filters.any (fun f => decide (tensordot f s i0 j0 = 4)))) then (e, true, 1)
  else if e.availableActions.length = 0 then (e, true, 0)
  else (e, false, 0)

/-- `step`, `coax/envs/_connect_four.py:130-188`: the new environment, and the result
`(state, reward, done, info['state_id'])` or the exception. -/
def Env.step (e : Env) (a : Int) : Env × Except Err (Obs × Int × Bool × List Nat) :=
  if e.done then (e, .error .episodeDone)
  else if h : 0 ≤ a ∧ a < 7 then
    let a : Fin 7 := ⟨a.toNat, by omega⟩
    if a ∉ e.availableActions then (e, .error .unavailableAction)
    else
      let e := { e with players := (e.players.2, e.players.1) }
      if hl : e.levels a < 6 then
        let e := { e with
          board := Function.update e.board ⟨e.levels a, hl⟩ (Function.update (e.board ⟨e.levels a, hl⟩) a e.players.1)
          prevAction := some a }
        let (e, done, reward) := e.doneReward a
        let e := { e with done := done }
        (e, .ok (e.state, reward, e.done, e.stateId))
      else (e, .error .indexError)
  else (e, .error .valueError)

/-- The loop over one column in `set_state`, `coax/envs/_connect_four.py:262-266`: `col` is the column from the bottom up. -/
def decodeLevel (col : List Nat) : Nat := (col.takeWhile (fun x => decide (x ≠ 0))).foldl (fun l _ => decU8 l) 5

/-- `set_state`, `coax/envs/_connect_four.py:245-266`.  The code calls `np._base_repr`, which numpy does not have (the
function is `np.base_repr`); `baseRepr` is `none` for the code as it is and `some` function for the code with that name
repaired.  Strings are lists of digit values; characters that are not hexadecimal digits have values `≥ 16`. -/
def Env.setState (baseRepr : Option (Nat → Nat → List Nat)) (e : Env) (stateId : List Nat) : Env × Option Err :=
  match stateId with
  | p :: d :: a :: rest =>
    if 16 ≤ p ∨ 16 ≤ d ∨ 16 ≤ a then (e, some .valueError)
    else if ¬ (p = 1 ∨ p = 2) then (e, some .assertionError)
    else if ¬ (d = 0 ∨ d = 1) then (e, some .assertionError)
    else if ¬ (a < 7 ∨ a = 7) then (e, some .assertionError)
    else
      let e := { e with
        players := (p, 3 - p)
        done := decide (d = 1)
        prevAction := if h : a < 7 then some ⟨a, h⟩ else none }
      match baseRepr with
      | none => (e, some .attributeError)
      | some f =>
        if rest = [] ∨ rest.any (fun x => decide (16 ≤ x)) then (e, some .valueError)
        else
          let s := f (parseDigits 16 rest) 3
          if 42 < s.length then (e, some .valueError)
          else
            let z := padLeft 42 s
            let board : Board := fun i j => z[7 * i.val + j.val]?.getD 0
            ({ e with
                board := board
                levels := fun j => decodeLevel [board 5 j, board 4 j, board 3 j, board 2 j, board 1 j, board 0 j] }, none)
  | _ => (e, some .indexError)

/-- `numpy.base_repr(n, b)`: the digits of `n`, and `"0"` for zero.  (`coax/envs/_connect_four.py:257`.) -/
def baseRepr (n b : Nat) : List Nat := if n = 0 then [0] else digitsOf b n

end Coax.ConnectFour
