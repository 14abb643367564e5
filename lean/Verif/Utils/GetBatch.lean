import Verif.Utils.Preprocess

/-!
Model of `get_transition_batch`, `coax/utils/_array.py:587-642`.

The environment is reduced to its two spaces, because nothing else of it is used.  Random numbers are arguments: `Draws` gives the `k`-th number of each kind.
-/

namespace Coax.Utils

open Coax.Dists (Space)

/-- Apply a function to all elements, `none` if one of the results is (`jax.tree_map` at `coax/utils/_array.py:630`). -/
def collect {α β : Type _} (f : α → Option β) : List α → Option (List β)
  | [] => some []
  | x :: xs => match f x, collect f xs with
    | some y, some ys => some (y :: ys)
    | _, _ => none

/-- An integer leaf (`coax/utils/_array.py:630`). -/
def Inp.asInt : Inp → Option Int
  | .int x => some x
  | _ => none

/-- An array of `n` integers (`coax/utils/_array.py:630`; `onp.stack` needs equal shapes). -/
def Inp.asInts (n : Nat) : Inp → Option (List Int)
  | .ints l => if l.length = n then some l else none
  | _ => none

/-- An array of `n` numbers (`coax/utils/_array.py:630`; `onp.stack` needs equal shapes). -/
def Inp.asFloats (n : Nat) : Inp → Option (List ℝ)
  | .floats l => if l.length = n then some l else none
  | _ => none

/-- A tuple (`coax/utils/_array.py:630`). -/
def Inp.asTuple : Inp → Option (List Inp)
  | .tuple l => some l
  | _ => none

/-- A dict (`coax/utils/_array.py:630`). -/
def Inp.asDict : Inp → Option (List (String × Inp))
  | .dict l => some l
  | _ => none

/-- The first element and the rest (`coax/utils/_array.py:630`). -/
def uncons {α : Type _} : List α → Option (α × List α)
  | [] => none
  | x :: xs => some (x, xs)

/-- The value of the first entry, which must have the key `k`, and the rest (`coax/utils/_array.py:630`; jax needs equal keys). -/
def unconsKey (k : String) : List (String × Inp) → Option (Inp × List (String × Inp))
  | [] => none
  | (k', x) :: xs => if k' = k then some (x, xs) else none

mutual
/-- `jax.tree_map(lambda *leaves: onp.stack(leaves, axis=0), x, *xs)`, `coax/utils/_array.py:630`.  `none` for different structures, and for arrays with more axes than the model has. -/
def stackInp : Inp → List Inp → Option Inp
  | .int a, xs => (collect Inp.asInt xs).map fun l => .ints (a :: l)
  | .ints l, xs => (collect (Inp.asInts l.length) xs).map fun ls => .ints2 (l :: ls)
  | .floats l, xs => (collect (Inp.asFloats l.length) xs).map fun ls => .floats2 (l :: ls)
  | .tuple l, xs => (collect Inp.asTuple xs).bind fun ls => (stackInpList l ls).map .tuple
  | .dict l, xs => (collect Inp.asDict xs).bind fun ls => (stackInpDict l ls).map .dict
  | .ints2 _, _ => none
  | .floats2 _, _ => none

/-- The elements of tuples, `coax/utils/_array.py:630`. -/
def stackInpList : List Inp → List (List Inp) → Option (List Inp)
  | [], ls => if ls.all List.isEmpty then some [] else none
  | x :: r, ls => match collect uncons ls with
    | none => none
    | some us => match stackInp x (us.map Prod.fst), stackInpList r (us.map Prod.snd) with
      | some y, some ys => some (y :: ys)
      | _, _ => none

/-- The entries of dicts, `coax/utils/_array.py:630`. -/
def stackInpDict : List (String × Inp) → List (List (String × Inp)) → Option (List (String × Inp))
  | [], ls => if ls.all List.isEmpty then some [] else none
  | (k, x) :: r, ls => match collect (unconsKey k) ls with
    | none => none
    | some us => match stackInp x (us.map Prod.fst), stackInpDict r (us.map Prod.snd) with
      | some y, some ys => some ((k, y) :: ys)
      | _, _ => none
end

/-- The list comprehension of `batch_sample`, `coax/utils/_array.py:629`: one seed for each row. -/
noncomputable def sampleRows (s : Space) : List Rnd → Except Err (List Inp)
  | [] => .ok []
  | r :: rs => match safeSample r [] s with
    | .error e => .error e
    | .ok x => match sampleRows s rs with
      | .error e => .error e
      | .ok xs => .ok (x :: xs)

/-- `batch_sample(space)`, `coax/utils/_array.py:627-630`; without rows `jax.tree_map` lacks an argument. -/
noncomputable def batchSample (s : Space) (rnds : List Rnd) : Except Err Inp :=
  match sampleRows s rnds with
  | .error e => .error e
  | .ok [] => .error .typeError
  | .ok (x :: xs) => (stackInp x xs).elim (.error .valueError) .ok

/-- The arguments `batch_size` and `gamma`: integers, floats (`none` is NaN), anything else (`coax/utils/_array.py:620-623`).  Bools, which Python counts as integers, are left out. -/
inductive NumArg where
  | int (z : Int)
  | float (x : Option ℝ)
  | other

/-- `isinstance(batch_size, int) and batch_size > 0`, `coax/utils/_array.py:620`. -/
def NumArg.positiveInt : NumArg → Option Nat
  | .int z => if 0 < z then some z.toNat else none
  | _ => none

open Classical in
/-- `isinstance(gamma, (int, float)) and 0 <= gamma <= 1`, `coax/utils/_array.py:622`. -/
noncomputable def NumArg.unitInterval : NumArg → Option ℝ
  | .int z => if 0 ≤ z ∧ z ≤ 1 then some z else none
  | .float (some x) => if 0 ≤ x ∧ x ≤ 1 then some x else none
  | _ => none

/-- The random numbers (`coax/utils/_array.py:625-641`): what the seeds give, uniform numbers, normal numbers, and choices between two values. -/
structure Draws where
  rnd : Nat → Rnd
  unif : Nat → ℝ
  normal : Nat → ℝ
  choice : Nat → Bool

/-- `onp.clip(x, lo, hi)` (`coax/utils/_array.py:635,636,640,641`). -/
noncomputable def clipTo (lo hi x : ℝ) : ℝ := min (max x lo) hi

/-- `onp.log(onp.clip(u, 0.01, 0.99))`, `coax/utils/_array.py:635,640`. -/
noncomputable def logPEntry (u : ℝ) : ℝ := Real.log (clipTo 0.01 0.99 u)

open Classical in
/-- `onp.clip(a / b, 0.01, 100.)`, `coax/utils/_array.py:641`, for `a` and `b` that are not negative: division by zero gives infinity or NaN, and `clip` keeps NaN (`none`). -/
noncomputable def weightEntry (a b : ℝ) : Option ℝ :=
  if b = 0 then if a = 0 then none else some 100 else some (clipTo 0.01 100 (a / b))

/-- The batch, `coax/utils/_array.py:632-642`. -/
structure ExBatch where
  S : Inp
  A : Inp
  logP : List ℝ
  Rn : List ℝ
  In : List ℝ
  S_next : Inp
  A_next : Inp
  logP_next : List ℝ
  W : List (Option ℝ)

/-- `get_transition_batch(env, batch_size, gamma)`, `coax/utils/_array.py:587-642`. -/
noncomputable def getTransitionBatch (obs act : Space) (batchSize gamma : NumArg) (d : Draws) : Except Err ExBatch :=
  match batchSize.positiveInt with
  | none => .error .typeError
  | some B => match gamma.unitInterval with
    | none => .error .typeError
    | some g =>
      let rows (k : Nat) : List Nat := (List.range B).map (k * B + ·)
      match batchSample obs ((rows 0).map d.rnd) with
      | .error e => .error e
      | .ok S => match batchSample act ((rows 1).map d.rnd) with
        | .error e => .error e
        | .ok A => match batchSample obs ((rows 2).map d.rnd) with
          | .error e => .error e
          | .ok S_next => match batchSample act ((rows 3).map d.rnd) with
            | .error e => .error e
            | .ok A_next => .ok
              { S := S, A := A, S_next := S_next, A_next := A_next,
                logP := (rows 0).map fun i => logPEntry (d.unif i),
                Rn := (rows 0).map fun i => clipTo (-5) 5 (d.normal i),
                In := (rows 0).map fun i => if d.choice i then g else 0,
                logP_next := (rows 1).map fun i => logPEntry (d.unif i),
                W := (rows 2).map fun i => weightEntry (d.unif i) (d.unif (i + B)) }

end Coax.Utils
