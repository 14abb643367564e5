import Verif.Replay.Simple

/-! Specification vocabulary for the replay buffers. -/

namespace Coax.Replay

variable {τ G : Type _}

/-- The last `n` entries of a list. -/
def lastN {β : Type _} (n : Nat) (l : List β) : List β := l.drop (l.length - n)

/-- `History cap s log`: the process can be in state `s`, having added the transitions `log` (one row each) to the
buffer since the buffer was made or last cleared.  Users make objects (`new`), add objects to the buffer, clear it, draw
samples, and other code uses the global generator.  The one rule for users: do not add a single-transition *object*
that is still in the buffer. -/
inductive History (draw : G → Nat → Nat → List Nat × G) (cap : Int) : Sys τ G → List τ → Prop
  | init (heap : Heap τ) (g : G) : History draw cap (Sys.init heap cap g) []
  | new {s : Sys τ G} {log : List τ} (rows : List τ) : History draw cap s log →
      History draw cap { s with heap := s.heap ++ [Obj.new rows] } log
  | add {s : Sys τ G} {log : List τ} {r : Ref} {o : Obj τ} : History draw cap s log → s.heap[r]? = some o →
      (o.rows.length = 1 → r ∉ s.buf.storage) → History draw cap (s.add r).1 (log ++ o.rows)
  | clear {s : Sys τ G} {log : List τ} : History draw cap s log → History draw cap s.clear []
  | sample {s : Sys τ G} {log : List τ} (k : Int) : History draw cap s log → History draw cap (s.sample draw k).1 log
  | tamper {s : Sys τ G} {log : List τ} (g : G) : History draw cap s log →
      History draw cap { s with globalRandom := g } log

/-- What the documentation of `random.sample` promises: `k` distinct positions out of `n`. -/
def DrawsDistinct (draw : G → Nat → Nat → List Nat × G) : Prop :=
  ∀ g n k, k ≤ n → (draw g n k).1.length = k ∧ (draw g n k).1.Nodup ∧ ∀ p ∈ (draw g n k).1, p < n

/-- Things that happen in a process using one buffer, for the independence property. -/
inductive Event (τ G : Type _) where
  | new (rows : List τ)
  | add (r : Ref)
  | clear
  | sample (k : Int)
  /-- other code seeds, draws from, or sets the global generator -/
  | tamper (g : G)

/-- What an event shows to the caller: the raised error, or the sampled batch. -/
inductive Shown (τ : Type _) where
  | silent
  | raised (e : Err)
  | batch (o : Obj τ)

/-- One event. -/
def Sys.step (draw : G → Nat → Nat → List Nat × G) (s : Sys τ G) : Event τ G → Sys τ G × Shown τ
  | .new rows => ({ s with heap := s.heap ++ [Obj.new rows] }, .silent)
  | .add r => let (s', e) := s.add r; (s', match e with | none => .silent | some e => .raised e)
  | .clear => (s.clear, .silent)
  | .sample k => let (s', res) := s.sample draw k; (s', match res with | .ok o => .batch o | .error e => .raised e)
  | .tamper g => ({ s with globalRandom := g }, .silent)

/-- What a sequence of events shows, leaving out the tampering events. -/
def Sys.shows (draw : G → Nat → Nat → List Nat × G) : Sys τ G → List (Event τ G) → List (Shown τ)
  | _, [] => []
  | s, .tamper g :: es => Sys.shows draw (s.step draw (.tamper g)).1 es
  | s, e :: es => (s.step draw e).2 :: Sys.shows draw (s.step draw e).1 es

end Coax.Replay
