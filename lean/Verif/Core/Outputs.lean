import Verif.Err

/-!
Model of how constructors check what a network returns: `BaseFunc.__init__` (`coax/_core/base_func.py:71-86`), `_check_output` and the outputs of `example_data` of all function approximators,
`default_priors` of the distributions.

A network is reduced to what it returns for a batch size and a value of `is_training`: a pytree with the shapes and dtypes of the leaves.  (In jax these do not depend on anything else.)
-/

namespace Coax.Core

/-- The nodes of pytrees: tuples, lists, dicts with their sorted keys, and `None` (`coax/_core/base_stochastic_func_type2.py:189-190`). -/
inductive NodeKind where
  | tuple
  | list
  | dict (keys : List String)
  | none
  deriving DecidableEq

/-- Pytrees (`coax/_core/base_stochastic_func_type2.py:189-190`). -/
inductive PTree (α : Type _) where
  | leaf (x : α)
  | node (k : NodeKind) (l : List (PTree α))

/-- A leaf: whether it is a `jnp.ndarray`, whether its dtype is a floating one, its shape (`coax/_core/v.py:150-161`). -/
structure OutLeaf where
  isArray : Bool
  floating : Bool
  shape : List Nat
  deriving DecidableEq

mutual
/-- `jax.tree_util.tree_flatten(tree)[0]`, `coax/_core/base_stochastic_func_type2.py:189-190`. -/
def PTree.leaves {α : Type _} : PTree α → List α
  | .leaf x => [x]
  | .node _ l => PTree.leavesList l

/-- The leaves of the children, `coax/_core/base_stochastic_func_type2.py:189-190`. -/
def PTree.leavesList {α : Type _} : List (PTree α) → List α
  | [] => []
  | t :: ts => t.leaves ++ PTree.leavesList ts
end

mutual
/-- `actual_structure == expected_structure`, `coax/_core/base_stochastic_func_type2.py:193`. -/
def PTree.sameStructure {α β : Type _} : PTree α → PTree β → Bool
  | .leaf _, .leaf _ => true
  | .node k l, .node k' l' => decide (k = k') && PTree.sameStructures l l'
  | _, _ => false

/-- The structures of the children, `coax/_core/base_stochastic_func_type2.py:193`. -/
def PTree.sameStructures {α β : Type _} : List (PTree α) → List (PTree β) → Bool
  | [], [] => true
  | t :: ts, u :: us => t.sameStructure u && PTree.sameStructures ts us
  | _, _ => false
end

mutual
/-- `jax.tree_map(f, tree)`, `coax/_core/base_stochastic_func_type2.py:165-166`. -/
def PTree.map {α β : Type _} (f : α → β) : PTree α → PTree β
  | .leaf x => .leaf (f x)
  | .node k l => .node k (PTree.mapList f l)

/-- The children, `coax/_core/base_stochastic_func_type2.py:165-166`. -/
def PTree.mapList {α β : Type _} (f : α → β) : List (PTree α) → List (PTree β)
  | [] => []
  | t :: ts => t.map f :: PTree.mapList f ts
end

/-- The distributions: categorical, normal (squashed or not) over a Box of a shape, quantiles, and composite ones over tuples and dicts (`coax/proba_dists/_composite.py:42-64`). -/
inductive DistK where
  | cat (n : Nat)
  | normal (shape : List Nat)
  | quantiles (m : Nat)
  | list (ds : List DistK)
  | dict (keys : List String) (ds : List DistK)

mutual
/-- The shapes of `default_priors`: `coax/proba_dists/_categorical.py:126-127`, `coax/proba_dists/_normal.py:180-182`, `coax/proba_dists/_squashed_normal.py:67-68`,
`coax/proba_dists/_empirical_quantile.py:73-75`, `coax/proba_dists/_composite.py:223-233`.  (`DiscretizedIntervalDist` inherits from `CategoricalDist`.) -/
def DistK.priors : DistK → PTree (List Nat)
  | .cat n => .node (.dict ["logits"]) [.leaf [1, n]]
  | .normal shape => .node (.dict ["logvar", "mu"]) [.leaf (1 :: shape), .leaf (1 :: shape)]
  | .quantiles m => .node (.dict ["quantile_fractions", "values"]) [.leaf [1, m], .leaf [1, m]]
  | .list ds => .node .tuple (DistK.priorsList ds)
  | .dict keys ds => .node (.dict keys) (DistK.priorsList ds)

/-- The priors of the parts, `coax/proba_dists/_composite.py:228,231`. -/
def DistK.priorsList : List DistK → List (PTree (List Nat))
  | [] => []
  | d :: ds => d.priors :: DistK.priorsList ds
end

/-- The function approximators: v-functions, q-functions of both types, stochastic functions of states (policies, StochasticV), stochastic functions of states and actions (StochasticQ, reward and
transition models) of both types, and deterministic transition models of both types, with the shapes of preprocessed states (`coax/_core`).  Type 2 has the number of actions
(`coax/_core/q.py:220-253`). -/
inductive FKind where
  | v
  | q1
  | q2 (n : Nat)
  | stochS (d : DistK)
  | stochSA1 (d : DistK)
  | stochSA2 (d : DistK) (n : Nat)
  | model1 (S : PTree (List Nat))
  | model2 (S : PTree (List Nat)) (n : Nat)

/-- The output of `example_data` for `B` rows, reduced to shapes: `coax/_core/v.py:129-132`, `coax/_core/q.py:238-253`, `coax/_core/base_stochastic_func_type2.py:165-171`,
`coax/_core/base_stochastic_func_type1.py:228-246`, `coax/_core/transition_model.py:253-268`.  The leaves are jax arrays of random floats. -/
def FKind.example (B : Nat) : FKind → PTree (List Nat)
  | .v => .leaf [B]
  | .q1 => .leaf [B]
  | .q2 n => .leaf [B, n]
  | .stochS d | .stochSA1 d => d.priors.map fun sh => B :: sh.tail
  | .stochSA2 d n => d.priors.map fun sh => B :: n :: sh.tail
  | .model1 S => S.map fun sh => B :: sh.tail
  | .model2 S n => S.map fun sh => B :: n :: sh.tail

/-- `_check_output` of v- and q-functions, `coax/_core/v.py:149-161`, `coax/_core/q.py:285-297`. -/
def checkScalar (actual : PTree OutLeaf) (expected : List Nat) : Except Err Unit :=
  match actual with
  | .leaf x =>
    if !x.isArray then .error .typeError
    else if !x.floating then .error .typeError
    else if x.shape ≠ expected then .error .typeError
    else .ok ()
  | .node _ _ => .error .typeError

/-- `_check_output` of the other functions: `coax/_core/base_stochastic_func_type2.py:188-208`, `coax/_core/base_stochastic_func_type1.py:412-432`, `coax/_core/transition_model.py:300-320`. -/
def checkTree (actual : PTree OutLeaf) (expected : PTree (List Nat)) : Except Err Unit :=
  if !actual.sameStructure expected then .error .typeError
  else if !actual.leaves.all OutLeaf.isArray then .error .typeError
  else if !(actual.leaves.zip expected.leaves).all fun p => decide (p.1.shape = p.2) then .error .typeError
  else .ok ()

/-- `_check_output(output, example_data.output)` with a batch of one row (e.g. `coax/_core/v.py:145`), `coax/_core/base_func.py:83-86`. -/
def FKind.checkOutput (k : FKind) (actual : PTree OutLeaf) : Except Err Unit :=
  match k, k.example 1 with
  | .v, .leaf s | .q1, .leaf s | .q2 _, .leaf s => checkScalar actual s
  | _, e => checkTree actual e

/-- The constructor: the network is evaluated on one row with `is_training=True`, `coax/_core/base_func.py:71-86`. -/
def construct (k : FKind) (net : Nat → Bool → PTree OutLeaf) : Except Err Unit := k.checkOutput (net 1 true)

end Coax.Core
