import Verif.Utils.Preprocess
import Verif.Core.Outputs

/-!
Model of `example_data`: the inputs and outputs from which constructors initialise the parameters of a network, and against which they check it
(`coax/_core/v.py:110-132`, `coax/_core/q.py:209-253`, `coax/_core/base_stochastic_func_type2.py:138-171`, `coax/_core/base_stochastic_func_type1.py:196-246`).

Outputs are reduced to shapes.  The `j`-th call of `safe_sample` has its own random numbers, and the `j`-th call of a preprocessor has the `j`-th key.  Not modelled: environments whose spaces are no
spaces.
-/

namespace Coax.Core

open Coax.Dists (Space)
open Coax.Utils (Inp Rnd safeSample defaultPre)

/-- Preprocessed inputs: a pytree of arrays with a batch axis, the other axes of which are flattened (`coax/_core/q.py:231`). -/
abbrev Feat := Dists.Tree (List (List ℝ))

/-- A preprocessor, which gets the index of its random key (`coax/_core/q.py:230`). -/
abbrev Pre := Nat → Inp → Except Err Feat

mutual
/-- `jax.tree_map(lambda *x: jnp.concatenate(x, axis=0), a, b)` for two trees, `coax/_core/q.py:231`.  Trees with different structures raise `ValueError`, arrays with different trailing axes
`TypeError`.  The keys of dicts are in the order in which jax sorts them.  (An array without rows has no width in the model.) -/
def cat2 : Feat → Feat → Except Err Feat
  | .leaf a, .leaf b => if a.all fun x => b.all fun y => x.length == y.length then .ok (.leaf (a ++ b)) else .error .typeError
  | .list a, .list b => match cat2List a b with
    | .error e => .error e
    | .ok c => .ok (.list c)
  | .dict a, .dict b => match cat2Dict a b with
    | .error e => .error e
    | .ok c => .ok (.dict c)
  | _, _ => .error .valueError

/-- The children of lists and tuples, `coax/_core/q.py:231`. -/
def cat2List : List Feat → List Feat → Except Err (List Feat)
  | [], [] => .ok []
  | a :: as, b :: bs => match cat2 a b with
    | .error e => .error e
    | .ok c => match cat2List as bs with
      | .error e => .error e
      | .ok cs => .ok (c :: cs)
  | _, _ => .error .valueError

/-- The values of dicts, `coax/_core/q.py:231`. -/
def cat2Dict : List (String × Feat) → List (String × Feat) → Except Err (List (String × Feat))
  | [], [] => .ok []
  | (k, a) :: as, (k', b) :: bs => if k = k' then match cat2 a b with
      | .error e => .error e
      | .ok c => match cat2Dict as bs with
        | .error e => .error e
        | .ok cs => .ok ((k, c) :: cs)
    else .error .valueError
  | _, _ => .error .valueError
end

/-- The concatenation of a tree with the remaining ones, `coax/_core/q.py:231`. -/
def catFrom (t : Feat) : List Feat → Except Err Feat
  | [] => .ok t
  | u :: us => match cat2 t u with
    | .error e => .error e
    | .ok c => catFrom c us

/-- `jax.tree_map(lambda *x: jnp.concatenate(x, axis=0), *S)`, `coax/_core/q.py:231`: `tree_map` without trees raises `TypeError`. -/
def catAll : List Feat → Except Err Feat
  | [] => .error .typeError
  | t :: ts => catFrom t ts

/-- `[safe_sample(space, rnd) for _ in range(batch_size)]`, `coax/_core/q.py:229`, from the `i`-th sample on. -/
noncomputable def drawInputs (rnds : Nat → Rnd) (s : Space) : Nat → Nat → Except Err (List Inp)
  | _, 0 => .ok []
  | i, B + 1 => match safeSample (rnds i) [] s with
    | .error e => .error e
    | .ok x => match drawInputs rnds s (i + 1) B with
      | .error e => .error e
      | .ok xs => .ok (x :: xs)

/-- `[preprocessor(next(rngs), s) for s in S]`, `coax/_core/q.py:230`, from the `i`-th key on. -/
def preAll (pre : Pre) : Nat → List Inp → Except Err (List Feat)
  | _, [] => .ok []
  | i, x :: xs => match pre i x with
    | .error e => .error e
    | .ok t => match preAll pre (i + 1) xs with
      | .error e => .error e
      | .ok ts => .ok (t :: ts)

/-- The example inputs for one space, `coax/_core/q.py:229-231` and `coax/_core/q.py:234-236`, from the `i`-th sample and key on. -/
noncomputable def exampleInputs (rnds : Nat → Rnd) (s : Space) (pre : Pre) (i B : Nat) : Except Err Feat :=
  match drawInputs rnds s i B with
  | .error e => .error e
  | .ok xs => match preAll pre i xs with
    | .error e => .error e
    | .ok ts => catAll ts

/-- `if preprocessor is None: preprocessor = default_preprocessor(space)`, `coax/_core/q.py:219-223`.  The default one does not use its key. -/
noncomputable def orDefaultPre (s : Space) (pre : Option Pre) : Pre := pre.getD fun _ => defaultPre s

/-- The example data of a function of states: the inputs and the shapes of the outputs (`coax/_core/v.py:129-132`). -/
structure ExampleS where
  S : Feat
  output : PTree (List Nat)

/-- The example data of a function of states and actions: the inputs, and the shapes of the outputs of both types (`coax/_core/q.py:238-253`). -/
structure ExampleSA where
  S : Feat
  A : Feat
  type1 : PTree (List Nat)
  type2 : Option (PTree (List Nat))

/-- `isinstance(env.action_space, Discrete)` with `env.action_space.n`, `coax/_core/q.py:244,250`. -/
def discreteSize : Space → Option Nat
  | .discrete n _ => some n
  | _ => none

/-- `V.example_data`, `coax/_core/v.py:110-132`. -/
noncomputable def exampleV (rnds : Nat → Rnd) (obs : Space) (pre : Option Pre) (B : Nat) : Except Err ExampleS :=
  match exampleInputs rnds obs (orDefaultPre obs pre) 0 B with
  | .error e => .error e
  | .ok S => .ok ⟨S, FKind.v.example B⟩

/-- `BaseStochasticFuncType2.example_data`, `coax/_core/base_stochastic_func_type2.py:138-171`, with what the defaults of the subclasses are given (`coax/_core/policy.py:152-164`). -/
noncomputable def exampleStochS (rnds : Nat → Rnd) (obs : Space) (pre : Option Pre) (d : DistK) (B : Nat) : Except Err ExampleS :=
  match exampleInputs rnds obs (orDefaultPre obs pre) 0 B with
  | .error e => .error e
  | .ok S => .ok ⟨S, (FKind.stochS d).example B⟩

/-- `Q.example_data`, `coax/_core/q.py:209-253`. -/
noncomputable def exampleQ (rnds : Nat → Rnd) (obs act : Space) (preS preA : Option Pre) (B : Nat) : Except Err ExampleSA :=
  match exampleInputs rnds obs (orDefaultPre obs preS) 0 B with
  | .error e => .error e
  | .ok S => match exampleInputs rnds act (orDefaultPre act preA) B B with
    | .error e => .error e
    | .ok A => .ok ⟨S, A, FKind.q1.example B, (discreteSize act).map fun n => (FKind.q2 n).example B⟩

/-- `BaseStochasticFuncType1.example_data`, `coax/_core/base_stochastic_func_type1.py:196-246`, with what the defaults of the subclasses are given (`coax/_core/stochastic_q.py:111-130`). -/
noncomputable def exampleStochSA (rnds : Nat → Rnd) (obs act : Space) (preS preA : Option Pre) (d : DistK) (B : Nat) : Except Err ExampleSA :=
  match exampleInputs rnds obs (orDefaultPre obs preS) 0 B with
  | .error e => .error e
  | .ok S => match exampleInputs rnds act (orDefaultPre act preA) B B with
    | .error e => .error e
    | .ok A => .ok ⟨S, A, (FKind.stochSA1 d).example B, (discreteSize act).map fun n => (FKind.stochSA2 d n).example B⟩

end Coax.Core
