import Verif.Err

/-!
Model of `coax.wrappers.FrameStacking` (`coax/wrappers/_frame_stacking.py`).  The wrapped environment is arbitrary: what
its `step` or `reset` returns or raises is an argument.
-/

namespace Coax.FrameStacking

variable {O R : Type _}

/-- The argument `num_frames`: an int, or anything else.  (`coax/wrappers/_frame_stacking.py:45-47`.) -/
inductive NumFrames where
  | int (n : Int)
  | other

/-- The attribute `_frames`, a deque with `maxlen`; oldest first.  (`coax/wrappers/_frame_stacking.py:51`.) -/
structure Stack (O : Type _) where
  frames : List O
  maxlen : Nat

/-- `__init__`, `coax/wrappers/_frame_stacking.py:45-51`. -/
def new : NumFrames → Except Err (Stack O)
  | .int n => if 0 < n then .ok { frames := [], maxlen := n.toNat } else .error .typeError
  | .other => .error .typeError

/-- `deque.append` on a deque with `maxlen`: an element is discarded at the left when the deque is full.  (`coax/wrappers/_frame_stacking.py:55`.) -/
def append (maxlen : Nat) (q : List O) (o : O) : List O :=
  if q.length < maxlen then q ++ [o] else (q ++ [o]).tail

/-- `deque.extend`.  (`coax/wrappers/_frame_stacking.py:60`.) -/
def extend (maxlen : Nat) (q : List O) (os : List O) : List O := os.foldl (append maxlen) q

/-- `step`, `coax/wrappers/_frame_stacking.py:53-56`; `R` is the rest of the returned tuple. -/
def Stack.step (w : Stack O) (inner : Except Err (O × R)) : Stack O × Except Err (List O × R) :=
  match inner with
  | .error e => (w, .error e)
  | .ok (o, r) =>
    let w := { w with frames := append w.maxlen w.frames o }
    (w, .ok (w.frames, r))

/-- `reset`, `coax/wrappers/_frame_stacking.py:58-61`. -/
def Stack.reset (w : Stack O) (inner : Except Err (O × R)) : Stack O × Except Err (List O × R) :=
  match inner with
  | .error e => (w, .error e)
  | .ok (o, r) =>
    let w := { w with frames := extend w.maxlen w.frames (List.replicate w.maxlen o) }
    (w, .ok (w.frames, r))

end Coax.FrameStacking
