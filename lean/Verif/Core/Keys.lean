import Verif.Err

/-!
Model of the random keys of function approximators: `coax/_base/mixins/_random_state.py`, and `copy`, `coax/_base/mixins/_copy.py`.

Keys are idealised: `jax.random.split` returns two new keys, and keys that are made in different ways are different (32-bit hashes can collide, seeds wrap around).
-/

namespace Coax.Core

/-- Random keys: `jax.random.PRNGKey(seed)` and the two keys that `jax.random.split` returns (`coax/_base/mixins/_random_state.py:15,19`). -/
inductive Key where
  | root (seed : Nat)
  | fst (k : Key)
  | snd (k : Key)
  deriving DecidableEq, Repr

/-- `jax.random.split(key)` (`coax/_base/mixins/_random_state.py:19`). -/
def Key.split (k : Key) : Key × Key := (k.fst, k.snd)

/-- The attributes of `RandomStateMixin`, `coax/_base/mixins/_random_state.py:14-15`. -/
structure Rng where
  randomSeed : Nat
  randomKey : Key
  deriving DecidableEq, Repr

/-- The setter of `random_seed`, `coax/_base/mixins/_random_state.py:11-15`.  For `None` the argument is the number that numpy draws. -/
def Rng.ofSeed (seed : Nat) : Rng := { randomSeed := seed, randomKey := .root seed }

/-- `rng`, `coax/_base/mixins/_random_state.py:17-20`. -/
def Rng.rng (r : Rng) : Rng × Key := ({ r with randomKey := r.randomKey.split.1 }, r.randomKey.split.2)

/-- What can happen to the objects of a program: a new object, a (deep or shallow) copy of object `i`, a use of `rng` of object `i`, a new seed for object `i`
(`coax/_core/base_func.py:71`, `coax/_base/mixins/_copy.py:23`, `coax/_base/mixins/_random_state.py:11,18`). -/
inductive KeyEvent where
  | new (seed : Nat)
  | copy (i : Nat)
  | use (i : Nat)
  | seed (i : Nat) (seed : Nat)
  deriving DecidableEq, Repr

/-- One event, `coax/_base/mixins/_random_state.py:11-20`, `coax/_base/mixins/_copy.py:5-23`; `none` for an object that does not exist.  The result of `use` is the key. -/
def keyStep (objs : List Rng) : KeyEvent → Option (List Rng × Option Key)
  | .new s => some (objs ++ [Rng.ofSeed s], none)
  | .copy i => objs[i]?.map fun r => (objs ++ [r], none)
  | .use i => objs[i]?.map fun r => (objs.set i r.rng.1, some r.rng.2)
  | .seed i s => objs[i]?.map fun _ => (objs.set i (Rng.ofSeed s), none)

/-- A whole program, `coax/_base/mixins/_random_state.py:11-20`: the objects, and the keys handed out, in order. -/
def keyRun (es : List KeyEvent) : Option (List Rng × List Key) :=
  es.foldl (fun st e => st.bind fun p => (keyStep p.1 e).map fun q => (q.1, p.2 ++ q.2.toList)) (some ([], []))

end Coax.Core
