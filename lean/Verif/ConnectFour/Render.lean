import Verif.ConnectFour.Model

/-!
Model of `render`, `reset` and `available_actions_mask` of `coax/envs/_connect_four.py`.  Texts are lists of characters.

The attribute `_prev_action` is the object that was passed to `step`: a Python integer, or a numpy integer (`action_space.sample()` and policies return these).  In the second case
`a == self._prev_action` is a numpy boolean, and the operator `-` of these raises TypeError.  The parameter `numpyAction` tells which it is.  `self._players[1]` is a numpy integer of 8 bits; the product
with the Python integer `-1` or `0` is taken to be exact, as in numpy before version 2.
-/

namespace Coax.ConnectFour

/-- `symbol.get(x, " ")`, `coax/envs/_connect_four.py:196-201`. -/
def symbol (x : Int) : Char :=
  if x = 1 then '●' else if x = 2 then '○' else if x = -1 then '▽' else if x = -2 then '▼' else ' '

/-- `sep.join(...)` of single characters, `coax/envs/_connect_four.py:206-217`. -/
def joinChars (sep : List Char) : List Char → List Char
  | [] => []
  | [c] => [c]
  | c :: cs => c :: (sep ++ joinChars sep cs)

/-- `hrule`, `coax/envs/_connect_four.py:204`. -/
def hrule : List Char := (List.replicate 7 ['+', '-', '-', '-']).flatten ++ ['+', '\n']

/-- One column of the first line, `coax/envs/_connect_four.py:207`. -/
def Env.marker (e : Env) (a : Fin 7) : Char := symbol (-(if e.prevAction = some a then 1 else 0) * (e.players.2 : Int))

/-- The lines of one row of the board, `coax/envs/_connect_four.py:212-217`. -/
def Env.renderRow (e : Env) (i : Fin 6) : List Char :=
  ['|', ' '] ++ joinChars [' ', '|', ' '] ((List.finRange 7).map fun j => symbol (e.board i j)) ++ [' ', '|', '\n'] ++ hrule

/-- The last line, `coax/envs/_connect_four.py:218`. -/
def actionLine : List Char := [
  ' ', ' ', '0', ' ', ' ', ' ', '1', ' ', ' ', ' ', '2', ' ', ' ', ' ', '3', ' ', ' ', ' ', '4', ' ', ' ', ' ', '5', ' ', ' ', ' ', '6', ' ', ' ', '\n']

/-- The text that `render` prints, `coax/envs/_connect_four.py:190-220`, without the line break that `print` adds. -/
def Env.render (numpyAction : Bool) (e : Env) : Except Err (List Char) :=
  if numpyAction && e.prevAction.isSome then .error .typeError
  else .ok ([' ', ' '] ++ joinChars [' ', ' ', ' '] ((List.finRange 7).map e.marker) ++ [' ', ' ', '\n'] ++ hrule ++ (List.finRange 6).flatMap e.renderRow ++
    actionLine)

/-- `reset`, `coax/envs/_connect_four.py:127-128`: the new environment and the observation. -/
def Env.reset (_ : Env) : Env × Obs := (Env.init, Env.init.state)

/-- `available_actions_mask`, `coax/envs/_connect_four.py:275-279`. -/
def Env.mask (e : Env) : Fin 7 → Bool := e.availableActions.foldl (fun m j => Function.update m j true) fun _ => false

end Coax.ConnectFour
