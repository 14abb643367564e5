import Verif.Replay.Prioritized

/-!
Model of the random generators of `coax/experience_replay/_prioritized.py` and of the `SumTree` inside it
(`coax/utils/_segment_tree.py`), on top of the model of the buffer.

Not modelled: how `numpy.random.RandomState` works.  What it promises is a parameter (`Numpy`): a state for each seed, a
state made from the entropy of the machine if there is no seed, and numbers with a next state.
-/

namespace Coax.Replay

/-- `numpy.random.RandomState` with states `R`; `E` is what the machine offers as entropy.
(`coax/utils/_segment_tree.py:308-310, 340`.) -/
structure Numpy (R E : Type _) where
  /-- `RandomState(k)` for a number `k` -/
  seeded : Int → R
  /-- `RandomState(None)`, which uses up entropy -/
  fresh : E → R × E
  /-- `rnd.rand(n)` -/
  rand : R → Nat → List ℝ × R

variable {σ R E : Type _}

/-- `RandomState(random_seed)`.  (`coax/experience_replay/_prioritized.py:83`, `coax/utils/_segment_tree.py:309`.) -/
def Numpy.make (N : Numpy R E) (seed : Option Int) (e : E) : R × E :=
  match seed with
  | some k => (N.seeded k, e)
  | none => N.fresh e

/-- A prioritized buffer with its generators: its own one (`self._rnd`, made and never used), that of its tree, the
seeds, and the entropy of the machine.  (`coax/experience_replay/_prioritized.py:82-84, 211`,
`coax/utils/_segment_tree.py:299-310`.) -/
structure SSys (σ R E : Type _) where
  sys : PSys σ
  randomSeed : Option Int
  rnd : R
  treeSeed : Option Int
  treeRnd : R
  entropy : E

/-- The assignment `tree.random_seed = k`.  (`coax/utils/_segment_tree.py:307-310`.) -/
def SSys.setTreeSeed (N : Numpy R E) (s : SSys σ R E) (seed : Option Int) : SSys σ R E :=
  let (g, e) := N.make seed s.entropy
  { s with treeRnd := g, treeSeed := seed, entropy := e }

/-- `clear`, with the new tree and its generator.  (`coax/experience_replay/_prioritized.py:208-212`.) -/
noncomputable def SSys.clear (N : Numpy R E) (s : SSys σ R E) : SSys σ R E :=
  ({ s with sys := s.sys.clear }).setTreeSeed N s.randomSeed

/-- `__init__`, with the generators: first that of the buffer, then, in `clear`, that of the tree.  (Before `clear` is
called there is no tree; the fields of its generator hold placeholders.)
(`coax/experience_replay/_prioritized.py:68-84, 208-212`.) -/
noncomputable def SSys.init (N : Numpy R E) (heap : Heap (Row σ)) (capacity : Int) (alpha beta epsilon : ℝ)
    (seed : Option Int) (e : E) : Except Err (SSys σ R E) :=
  match PSys.init heap capacity alpha beta epsilon with
  | .error err => .error err
  | .ok sys =>
    let (g, e) := N.make seed e
    .ok (SSys.clear N { sys := sys, randomSeed := seed, rnd := g, treeSeed := seed, treeRnd := g, entropy := e })

/-- `sample`: the size is checked, then the numbers are drawn, then everything else happens (and may raise, for instance
when the buffer is empty, with the numbers used up).  (`coax/experience_replay/_prioritized.py:153-178`,
`coax/utils/_segment_tree.py:337-340`.) -/
noncomputable def SSys.sample (N : Numpy R E) (s : SSys σ R E) (batchSize : Int) :
    SSys σ R E × Except Err (Obj (Row σ)) :=
  let res := s.sys.sample batchSize (fun n => (N.rand s.treeRnd n).1)
  (if batchSize > 0 then { s with treeRnd := (N.rand s.treeRnd batchSize.toNat).2 } else s, res)

/-- What can happen to a buffer.  (`coax/experience_replay/_prioritized.py:94-221`.)  `entropy` is other code using the
entropy of the machine. -/
inductive Call (σ E : Type _) where
  | new (rows : List (Row σ))
  | add (r : Ref) (Adv : List ℝ)
  | sample (n : Int)
  | update (idx : List Int) (Adv : List ℝ)
  | setAlpha (a : ℝ)
  | setBeta (b : ℝ)
  | setEpsilon (e : ℝ)
  | clear
  | iterate
  | entropy (e : E)

/-- What a call gives back.  (`coax/experience_replay/_prioritized.py:94-221`.) -/
inductive Answer (σ : Type _) where
  | silent
  | raised (e : Err)
  | batch (o : Obj (Row σ))
  | contents (l : List (Option (Obj (Row σ))))

/-- Nothing or an error.  (`coax/experience_replay/_prioritized.py:94-206`.) -/
def Answer.of : Option Err → Answer σ
  | none => .silent
  | some e => .raised e

/-- A batch or an error.  (`coax/experience_replay/_prioritized.py:153-178`.) -/
def Answer.ofBatch : Except Err (Obj (Row σ)) → Answer σ
  | .ok o => .batch o
  | .error e => .raised e

/-- One call.  (`coax/experience_replay/_prioritized.py:94-221`.) -/
noncomputable def SSys.step (N : Numpy R E) (s : SSys σ R E) : Call σ E → SSys σ R E × Answer σ
  | .new rows => ({ s with sys := { s.sys with heap := s.sys.heap ++ [Obj.new rows] } }, .silent)
  | .add r Adv => ({ s with sys := (s.sys.add r Adv).1 }, .of (s.sys.add r Adv).2)
  | .sample n => ((s.sample N n).1, .ofBatch (s.sample N n).2)
  | .update idx Adv => ({ s with sys := (s.sys.update idx Adv).1 }, .of (s.sys.update idx Adv).2)
  | .setAlpha a => ({ s with sys := (s.sys.setAlpha a).1 }, .of (s.sys.setAlpha a).2)
  | .setBeta b => ({ s with sys := (s.sys.setBeta b).1 }, .of (s.sys.setBeta b).2)
  | .setEpsilon e => ({ s with sys := (s.sys.setEpsilon e).1 }, .of (s.sys.setEpsilon e).2)
  | .clear => (s.clear N, .silent)
  | .iterate => (s, .contents s.sys.iter)
  | .entropy e => ({ s with entropy := e }, .silent)

/-- A sequence of calls.  (`coax/experience_replay/_prioritized.py:94-221`.) -/
noncomputable def SSys.run (N : Numpy R E) (s : SSys σ R E) : List (Call σ E) → SSys σ R E × List (Answer σ)
  | [] => (s, [])
  | c :: cs => ((SSys.run N (s.step N c).1 cs).1, (s.step N c).2 :: (SSys.run N (s.step N c).1 cs).2)

end Coax.Replay
