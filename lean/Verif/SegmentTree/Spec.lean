import Verif.SegmentTree.Model

/-!
Specification vocabulary for the segment tree: what a user of `coax.utils.SegmentTree` thinks of, without reference to
the way the tree is stored.
-/

namespace Coax.SegmentTree

variable {α : Type _}

/-- `functools.reduce(reducer, xs, init_value)`. -/
def reduce (reducer : α → α → α) (init : α) (xs : List α) : α := xs.foldl reducer init

/-- The Python slice `xs[start:stop]` for `0 ≤ start ≤ stop`. -/
def slice (xs : List α) (start stop : Nat) : List α := (xs.take stop).drop start

/-- "`init` is the unit element relative to the reducer" (class docstring), and the reducer is associative. -/
structure IsUnital (reducer : α → α → α) (init : α) : Prop where
  assoc : ∀ a b c, reducer (reducer a b) c = reducer a (reducer b c)
  unit_left : ∀ a, reducer init a = a
  unit_right : ∀ a, reducer a init = a

/-- The position that a Python index `k` denotes in a sequence of length `n` (negative indices count from the end). -/
def denotes (n : Nat) (k : Int) (p : Nat) : Prop := k = p ∨ k + n = p

instance (n : Nat) (k : Int) (p : Nat) : Decidable (denotes n k p) := by unfold denotes; infer_instance

/-- The value that the assignment `values[idx] = vals` gives to position `p`, if any: the last one listed. -/
def lastAssigned (n : Nat) (idx : List Int) (vals : List α) (p : Nat) : Option α :=
  (((idx.zip vals).filter (fun kv => decide (denotes n kv.1 p))).getLast?).map (·.2)

/-- One call made by a user of the tree. -/
structure Call (α : Type _) where
  idx : IdxArg
  values : List α

/-- Run a history of `set_values` calls; a call that raises leaves the tree as it is (the caller catches the
exception and goes on). -/
def run (t : Tree α) (calls : List (Call α)) : Tree α :=
  calls.foldl (fun t c => match t.setValues c.idx c.values with
    | .ok t' => t'
    | .error _ => t) t

/-- The trees a user can get: a new tree followed by any history of calls. -/
def Reachable (capacity : Nat) (reducer : α → α → α) (init : α) (t : Tree α) : Prop :=
  ∃ calls, t = run (Tree.init capacity reducer init) calls

/-- Sum of the first `i` values (for the cumulative distribution function). -/
def cumsum {K : Type _} [Field K] (xs : List K) (i : Nat) : K := (xs.take i).sum

end Coax.SegmentTree
