# Formal model of coax: design

The property list is in `properties.jsonl`. The Lean 4 model is in `lean/Verif/`. `MANIFEST.json` maps each property to
its theorems. `seeded/LOG.jsonl` records the attempts to break the theorems with wrong programs.

This file says, per property, what is modelled and how it is proved (section 2), where the code does not do what is
documented (section 3), and what has to be trusted (section 4).

## 1. Conventions

* Each Python class or function is modelled by a total Lean function that mirrors it branch by branch.
  Every model definition cites the file and lines it models; simplifications are stated there.
* Exceptions are values (`Except Err`). Where the Python code mutates before raising, the model returns the mutated state
  together with the error.
* Stateful objects are a structure plus one function per method. Histories are lists of operations, failing ones included.
* Object identity matters in three places (transition objects in the replay buffers, counters of the monitor, the
  parameter store); there the model has a heap.
* Randomness is an argument (a stream, a chosen index, a draw `u`). Theorems quantify over it. Statements about
  probabilities are about the measure of the set of draws.
* Floating point is modelled by an exact linearly ordered field (or `ℝ` where exp, log or powers occur).
  Rounding, overflow and infinities are outside the model. NaN is modelled where the code tests for it or where an
  exact computation gives it (`Option`): gradients, division by zero, `jnp.take` outside the array.
* Neural networks are arbitrary functions. "Computes" hypotheses (such as `Computes n q F`) say that the function given by the user handles
  the rows of a batch one by one; they restrict nothing else.
* Files come in groups: model (code), `Spec` (independent specification), lemmas, and `Props` (the property
  theorems, each with an `example` that instantiates its hypotheses).
* If a property is false of the code, a counterexample theorem proves the negation with a witness, and a theorem with suffix
  `_partial` proves what is true. Such properties have status `partial`.

## 2. Properties

What is modelled and how it is proved:

| Id | Model | Proof |
|---|---|---|
| C01-C02 | `SegmentTree/Model`: flat list of `2^h-1` cells, `set_values` with the batched climb, `_check_idx` | invariant "every node is the reduction of its children" by induction over call histories; writes by induction over the write list (last write wins) |
| C03 | same, loop of `partial_reduce` for whole batches (lanes) | loop invariant over the climb; commutative reducers only. Counterexample for non-commutative ones, and for the `IndexError` of some batched calls |
| C04 | same, `_check_start_stop_to_i_j` | false: counterexample; exact characterisation of what is accepted |
| C05-C07 | `SumTree.inverse_cdf`, `sample` | descent invariant; measure of the set of draws; `u = 1` counterexample |
| C08-C09 | `Replay/Simple` over a heap of transition objects (`Replay/Heap`) | refinement to "last N of the history"; sampling as an injective choice of positions, `random` state explicit |
| C10-C14 | `Replay/Prioritized` over the sum tree model, heap of objects | invariant over histories of all methods; same-call stale update (C12) and clamp (C14) counterexamples; real powers |
| C15-C18 | `RewardTracing/NStep`: deques, gammas, `pop`, `flush`, `extra_info` | refinement to the list of episodes, by induction over all interleavings, failing calls included |
| C19-C20 | `RewardTracing/MonteCarlo` | refinement; comparison of complete histories with NStep |
| C21-C22 | `RewardTracing/Transition`, `Batch`: `from_single`, `to_singles`, leafwise concatenation of pytrees | decision logic; list round trip |
| C23-C28 | `ConnectFour/Model` | invariant over action sequences; window/filter arithmetic against a coordinate specification of four in a row; numeral round trip |
| C29 | `Utils/Chunks`: `chunks_pow2` | induction on binary digits |
| C30 | `Utils/Stepwise` | induction on the step list; uniqueness of the interpolation |
| C31 | `Utils/Rolling` | invariant over observations |
| C32-C33 | `Utils/Dicts` | list and vector space algebra |
| C34 | `Utils/EnvAttr` | induction on the wrapper stack |
| C35 | `Wrappers/FrameStacking` | invariant over histories |
| C36-C38, C60 | `Wrappers/TrainMonitor` and, for object identity, `Wrappers/Counters` (heap) | invariants over histories; refinement of the heap model to the plain one; T and snapshot counterexamples |
| C39 | `Wrappers/StreamingSample` | invariant; retention probability as iterated integral |
| C40 | `Wrappers/BoxSpaces` | interval arithmetic; sigmoid |
| C41 | `Utils/ActionNoise` | recurrence; geometric decay; counterexample to the documented clipping |
| C42 | `Values/Transform` | real analysis |
| C43-C44 | `Values/Losses` | real analysis, batches as rows |
| C45-C46 | `TD/Targets`: all deterministic targets | algebra and order; ties counterexample |
| C47 | `TD/Update`: `update`, `apply_grads`, NaN check, setters | state machine, inversion lemma |
| C48 | `Dists/Interval`: C51 projection | finite sums |
| C49, C62 | `Dists/Categorical`: all methods, Gumbel-softmax sampling | finite sums, Gibbs inequality; Gumbel-max by integration over the uniform draws |
| C50-C51, C61 | `Dists/Normal`: normal and squashed normal | densities as push-forward measures (Mathlib Gaussians), integrals for entropies |
| C52-C53, C63 | `Core/ValuePolicy` | finite sums; C63 counterexample from the soft variate |
| C54 | `Core/SoftUpdate` | geometric series over pytrees |
| C55 | `Core/QTypes`: views of type-1 and type-2 functions | list index arithmetic |
| C56, C64 | `Policy/Objectives` | order, derivatives |
| C57, C65 | `Policy/Regularizers` | exact value of the mask, counterexample; Gibbs inequality |
| C58-C59, C66 | `Core/Worker`: rollout, buffer_sample loop, parameter store | induction over the schedule / attribute path |
| C67-C69 | `TD/Loss`: loss_func with autodiff as derivative | derivatives; counterexamples with LogTransform and for the interval loss |
| C70-C71 | `TD/Stochastic`: distributional targets | row algebra; average-of-logits counterexample |
| C72-C73 | `Core/StochasticCalls` | row selection; index and transform counterexamples |
| C74, C76 | `Dists/Composite`, `Dists/CompositeVariates`: nested spaces | mutual structural induction over spaces; product measures |
| C75 | `TD/Loss` again | Gibbs inequality per sample; Huber counterexample |
| C78 | `Dyn/Updater`: loss of ModelUpdater with broadcasting | sum algebra over the batch; second moments of normal samples; shape counterexamples |
| C79 | `Utils/DiffTransform` | binomial sums for every number of frames |
| C80 | `Utils/Quantiles` | symmetry of the uniform product measure; monotone integral bounds; injectivity of cos on [0, pi] |
| C81-C82 | `Utils/Preprocess` | mutual structural induction over spaces and members; counterexamples |
| C83 | `Utils/ArgMax`: argmax with Gumbel noise | range of float32 noise; Gumbel-max theorem of C62 |
| C84 | `TD/Targets` again, iterated | non-expansiveness of max, mean and log-sum-exp; Banach fixed point theorem |
| C85 | `TD/Targets`, `Core/ValuePolicy`, `Dists/Categorical` together | Gibbs inequality, including policies with zeros |
| C86 | `Policy/Objectives` over `Dists/Categorical` | derivative of log-softmax; marginals of a product distribution |
| C87 | `Replay/Prioritized` again | measure of the draws of each identifier; integral over the random number; counterexample with two transitions |
| C88 | `Loop/Dqn`: `RewardTracing/NStep`, `Replay/Simple` and `TD/Targets` put together as in the example scripts | invariant over all events; C08, C15 and the row-wise targets of C46 |
| C89 | `Core/RandomPolicy` | volume of a Box; counterexamples |
| C90 | `Core/TransitionModel` over `Core/QTypes` | consequence of C55 for vector-valued networks |
| C91 | `Wrappers/MetaPolicy` | induction over the meta-actions, against a relation that plays the arms by hand |
| C92 | `Utils/Dmc` | induction over the specifications; histories of calls of make_dmc; counterexamples |
| C93 | `Utils/Tensor`: arrays as a shape and a function of index lists | induction over the arguments; the batched function is characterised by its slices |
| C94 | `Utils/Tensor`; `rng.choice` is an arbitrary list of positions | the drawn positions are shared by all leaves; counterexample for `axis` |
| C95 | `Utils/Tensor` | index arithmetic of stack and tile |
| C96 | `Utils/Diagnostics` | case split on the sign of each feature |
| C97 | `Utils/Diagnostics` | induction over leaves; quantiles through a sorted permutation |
| C98 | `Loop/Per`: events of any number of actors and learners; the updater is a parameter | invariant over events that combines `NHistory` and `PHistory` with the TD errors reported last |
| C99 | `Loop/OnPolicy`: policy and updaters are parameters; `sync` covers both soft updates (PPO) and acting with the learned policy (A2C) | invariant over steps that combines `NHistory` with the contents of the buffer and the rounds so far |
| C100 | `Core/ValuePolicy` (policy call), `Dists/Normal`, `Dists/CompositeSample`, `RewardTracing` | C49 for discrete actions; for normal distributions the sign of the log-density at its mode, and open sets have positive measure. Nested spaces: the supremum of the sum is the sum of the suprema because the parts are independent |
| C101 | `Core/Keys`: keys are chains of splits from a seed, objects are their `_random_seed` and `_random_key` | invariant over events that ties the key of each object to its lineage; a key is a prefix of all keys derived from it |
| C102 | `Core/Construct`: spaces, preprocessors and distributions are abstract; an object is what its constructor decides | case analysis on arguments and signature, stated as equivalences |
| C103 | `Loop/Online`: the loops of the documentation that use a transition at once | C15, C16, C17, C19 give the transition of a step after any continuation; induction on n for the expectation over trajectories |
| C104 | `Loop/Tabular`: the update of a tabular q-function by gradient descent, soft updates of the target network, and the online loop of the documentation | one update moves each entry towards its target by a fraction (C43, C46 give loss and targets); asynchronous fixed point argument: the distance to the solution shrinks by the discount factor every time all entries have been visited and synchronised |
| C105 | `Core/Distributed`: `rollout_loop` and `learn_loop` as processes whose remote calls interleave; the schedule and what the parts of the user do are arguments | invariants over all schedules; termination by a lower bound of the counter and all pending values that rises after every worker has reported |
| C106 | `Core/Distributed` | invariants over all schedules that relate the store to what was added, learned and pushed |
| C107 | `Utils/Jit`: tracing with a cache keyed by shapes and static arguments, storing and loading; on top of it regularizers and updaters with attributes that can be assigned | every result is related to the history of calls by induction; counterexamples for stale attributes |
| C108 | `Utils/Render`: the loops of `generate_gif` and `render_episode` over an arbitrary environment | induction on the number of steps, against an inductive predicate of episodes |
| C109 | `Utils/Reload`: `_reload` with a recursion limit over an arbitrary graph of modules | induction on the recursion with a rank; cycles exclude success for every limit |
| C110 | `Core/Kinds`: classes, predicates, argument checks of the constructors, attribute accesses of update and setters | case analysis on all classes and arguments; acceptance and usability as equivalences |
| C111 | `Core/KeyFlow`: for every updater, objective and regularizer the keys with which states, actions, networks and samples are drawn, as lists; keys are paths in the tree of splits | equivalences by cases on the kinds of functions, with lemmas on disjoint subtrees of keys; whole programs through C101 |
| C112 | `Utils/Checks`: `check_preprocessors` over arbitrary preprocessors and samples with `assert_allclose` on rationals, infinities and NaN; `check_array` over kind, shape and dtype | induction on samples and preprocessors with the number of keys used; complete case analysis |
| C113 | `Utils/GetBatch`: `get_transition_batch` over arbitrary spaces and draws, with NaN for 0/0 | induction on nested spaces: the rows of the stacked sample are the samples |
| C114 | `Wrappers/OrigInfo`: stacks of wrappers around an environment, dicts as references into a heap, whole programs | induction on the stack and on the program |
| C115 | `Core/Outputs`: the checks of outputs for every kind of function, on trees of arrays, with the default parameters of nested distributions as the expected structure | induction on distributions and trees; equivalence with a separate specification of the documented structure |
| C116 | `Core/StochasticSample`: `sample_func_type1/2`, `mode_func_*`, `mean_func_*` and the calls, over distributions on batches; replicas as in C77 | positions in the flattened table of states and actions; independence by composition |
| C117 | `Core/StochasticSample`: `EmpiricalQuantileDist.sample` with `jax.random.choice` along the first axis, `log_proba` with broadcasting | complete description of what is returned; counterexamples |
| C118 | `Policy/NestedRegularizers`: both regularizers over the nested distributions of C74, with default priors | from C74; the priors fit by induction on the structure |
| C119 | `Loop/Schedule`: the loops of C104 with a learning-rate schedule; `Loop/ApproxLemmas`: stochastic approximation; the environment and the agent are a stochastic process described by conditional probabilities | one update is an asynchronous step of the Bellman operator plus a martingale difference; sums of these converge almost surely (bounded martingales), and asynchronous averaging with a vanishing perturbation contracts; exploration by the same martingale lemma along the edges of the environment |
| C120 | `Core/Agent`: all objects of a program (functions, policies derived from q-functions, updaters) with their references and keys, twelve operations, exceptions as results | one lemma on what a single operation may change, lifted to programs by induction; the specification of what an update may see (`Roles`, `Shows`, `IsGiven`) is relational and does not use the model; the loops are refined to DQN and DDPG on plain values |
| C121 | no new code: the Bellman equations of C119, `epsilonGreedyLogits`, `boltzmannLogits`, `policyCall`, `policyMode` (`Core/ValuePolicy`), the loops of `Loop/Schedule` | returns of history-dependent policies by recursion; a state function that nearly satisfies a one-step inequality bounds them up to the error over `1 - gamma`; Gibbs inequality for soft values; C119 and finitely many states give optimality of the learned mode after finitely many updates |
| C122 | no new code: `project`, `affineTransform` (`Dists/Interval`), `stochSarsa`, `stochQLearning` (`TD/Stochastic`), `intervalLoss` | the Cramer distance is the integral of the squared difference of distribution functions; the projection is a linear map of cumulated masses with column sums at most the discount factor (Abel summation, Cauchy-Schwarz); fixed point by completeness; the least expected cross-entropy is the mixture (Gibbs) |
| C123 | `ConnectFour/Render`: `render`, `available_actions_mask`, `reset` | the text is cut into lines of equal length; each character is located by its line and column |
| C124 | `RewardTracing/BatchEq`: `__eq__`, `_to_tuple`, `items`, `__getitem__`, `__new__` | induction over the zipped leaves; broadcasting is modelled on shapes and indices |
| C125 | `Core/WorkerCalls`: the calls that are passed on to a store, state exchange, `_check_env`, `_check_reward_threshold` | stores are older than their workers, so every worker has one root, which no call changes; induction over programs |
| C126 | no new code: `quantile_huber`, `EmpiricalQuantileDist`, the loss of `BaseTDLearning` and the target of `Sarsa` | the loss is convex, so it is least where the pulls of the targets balance; balance is monotone in the targets and shifts with them; least and greatest fixed points by contraction |
| C127 | `Loop/OnlineTarget`: the online loop with a target network; `Loop/ProcessLemmas`, `Loop/EvaluateLemmas`: stochastic approximation with targets that depend on a lagging copy and on random outcomes including the next action | the difference of the table and its lagging copy tends to 0 if the copy moves faster, so double targets differ from max targets by a vanishing error; for Sarsa the next action is part of the random outcome (tower property) |
| C128 | `Loop/TabularV`: `SimpleTD.update` for a table of state values with `optax.sgd`, and the online loop of the actor-critic example without the update of the policy | a table of state values is a q-table with one action, so the loss and its derivatives are those of C104; action and outcome together are the random outcome |
| C129 | the model of C119 with `huber` as the loss | a specification of tables whose entries have the least expected Huber loss for the targets they give; a least and a greatest such table exist because the targets are monotone and the discount factor is below 1; the params come to lie between them as the negative derivative of the loss is the error limited to `delta`, averaged with learning rates of finite squares; false as stated, with a witness |
| C130 | `Loop/Replay`: the loop of the cartpole example with tracer, buffer, updater and target network | an update with a batch of old transitions is an update with the newest transitions of the same weights plus a difference that is small in total, as params move slowly; then as for C119; a path lemma turns the loop into such updates; false as stated if episodes end, with a witness whose limit is computed |
| C131 | `Loop/Closed`: the loop of the q-learning stub with policy, environment and tables | states of the loop have countably many values, so that the law of an action given the past is the law of the policy with the values frozen; with the sampling theorems C52, C53, C62 the agent explores, with a bound of the values for Boltzmann; then C119 and C121 apply; random numbers of the assumed kind are constructed |
| C132 | `SegmentTree/Rounded`: the sum tree with a rounding function applied to each operation; rounding to nearest even with `p` binary digits | nodes are pairwise rounded sums (the invariant of C01 needs no associativity); the descent with errors bounded level by level; on a grid every operation is exact, so that C05 applies; counterexamples in 53 digits by evaluation |
| C133 | `Loop/Clipped`: two tables, two target networks, the coin, the updates of the chosen table with its own count of learning rates | the difference of the tables has mean drift towards zero, as both have the same targets and asymptotically the same rates (law of large numbers for the coin); so the minimum comes close to the greatest value, and the rest is stochastic approximation as in C127 |
| C134 | `RewardTracing/NStep` inside `Loop/OnlineTarget` and `Loop/TabularV` | the loop makes one update for each step, `N` steps late (`onlineU_lookahead`); the noise of a target is a sum of `N` martingale differences at different times (`ChainLemmas`: Abel summation with decreasing rates), the mean is the `N`-fold Bellman operator, a contraction; its fixed point is the value of the policy (`ahead_back`) |
| C135 | as C134 with `qLearning` | as C134; the bounds by monotonicity of the operator; a witness with two states, discount 1/2 and two steps for the negative part |
| C136 | `Loop/Closed` with `sarsa` | `Play.sarsa`: the noise is split into that of the next action (its law depends on the values, `outcome_noise_random`) and that of the outcome; the mean operator of EpsilonGreedy is a non-expansion because the epsilon-greedy policy is the best exploring one for any row (`epsilon_best`), so the operator is a contraction; changes of epsilon are a vanishing drift. For Boltzmann: a limit is a fixed point; two fixed points by the intermediate value theorem |
| C137 | `Loop/Reinforce` | `Climb.run` has policy, environment, tracer and updates in it. The expected return is a smooth function of the logits (`val_smooth`); the expected sum of the updates of an episode, at fixed logits, is `way`, which is the gradient without discounting, and else points upwards if the state is observed (`way_up`, weights between gamma^H and 1). The updates within an episode move the logits a little (a drift that is summable), the rest is a martingale; `Ascent.climbs` is a deterministic theorem on such iterations. Counterexample: two steps that look the same |
| C138 | `Loop/Expected` | `expectedSarsaOf` takes the logits from the rows of `function_type2` at the params of the time, then does what `expectedSarsa` does. With EpsilonGreedy the mean of a row under its own policy is nonexpansive, so `Play.converges` applies; with BoltzmannPolicy it is not, but it lies between the maximum less temperature times log n (`boltzmann_gap`, from the entropy bound) and the maximum, and one-sided stochastic approximation (`settles_below`) gives the interval in which the values end up |
| C139 | `Loop/Acting` | `Acting.run` has policy, environment, tracer and updates in it, for params of any type (here those of q and of q_targ). Values stay bounded (`accepts_updateT`), so a Boltzmann policy keeps exploring; the loop is then a sequence of steps that explore (`Acting.steps`), to which C119 and C127 apply |
| C140 | `Loop/Planner` | `Acting.run` with the policy `lookahead`, which calls the `SuccessorQ.type2` of C77, and the update `updateSimple` of C128. With an exact model and terminal values 0 the policy sees the values of the actions in the environment (`lookahead_eq`, `seen_zero`); the values then move towards the mean of these under the policy, plus the noise of actions and outcomes (`Acting.plan`), and the map is a contraction (`epsilonMean_close`). The policy may use values that are one update old, which is a drift that vanishes. Counterexample: terminal values are an invariant of the loop |
| C141 | `SegmentTree/Lookup` | the invariant of C01 gives every node as the reduction of the leaves below it, padding counts for nothing; a write through a view commutes with every `set_values` call that stays away from the pair of siblings (`climb_set`, `run_poke`), and a call that covers the overwritten leaves writes the same array (`setValues_poke_covered`) |
| C142 | `Loop/DqnActing` | the loop of C130 with policy and environment in it. For given draws of the buffer the loop is a recursion in what has been seen (`Seen.path`), whose states are known both in the filtration of the outcomes, with all draws known from the beginning, and in the filtration of the draws, with all other random numbers known from the beginning (`Seen.knows`); values stay bounded (`batch_update`), so every action is tried, and C130 applies |
| C143 | `Replay/Seeded` over `Replay/Prioritized` | the buffer with the generators of itself and of its tree; two buffers that agree in contents, seed and generator of the tree answer alike (`Alike.run`); after `clear` the answers are those of a buffer whose numbers are dealt from the list that the seed gives (`dealt`); equal priorities and numbers give equal identifiers (`same_picks`) |
| C144 | `Utils/Pickle` | heap of objects with references, a small language of programs on it. Two processes that are found in one at different addresses do not see each other (`Embeds.together`, a simulation up to renaming of addresses, with a frame); the loaded objects are the dumped ones at other addresses. Disk with directories for `dump` and `load` |
| C145 | `Dists/CompositeSample` | mutual induction over spaces gives each part its own place in the tree of keys (`places_nodup`); independence of the noise at different places; Gumbel-max (C62) and affine maps of normal laws for the parts |
| C146 | `Dists/CompositeAffine` | mutual induction over the structure with four trees at once; C51 for each leaf; marginals of product measures |
| C147 | `Loop/Regularized`: `update` with a regularizer and the loop around it | the loss with a regularizer is the loss without it from transitions with other rewards, so both loops make the same updates; C127, C128 and C134 for the environment with other rewards; its returns are the returns with entropies; C121 for the improvement; for several steps what is added to the targets is written as a difference of potentials along the path, which reduces the loop to C134; the counterexample is a geometric sequence |
| C148 | `Core/Example`: `example_data` on top of the models of `safe_sample`, `default_preprocessor` and the output checks | induction over spaces for shapes, over the number of rows for the concatenation; a sample outside its Box has the features of the member it is clipped to |
| C149 | `Loop/Linear`: `SimpleTD.update` with params that are coefficients of features; the gradient is the derivative of the modelled loss | the update is a linear map in the distance to the limit; on batches of complete episodes it decreases the squared distance by a multiple of the squared errors of the values; the limit exists by injectivity on the span of the features; two transitions between two states for divergence; the almost-supermartingale theorem (Robbins and Siegmund for C149, `Loop/SiegmundLemmas`) for mini-batches, which are any random indices that are uniform given the past; a norm of both params that shrinks (`Loop/LinearTargetLemmas`) for target networks |
| C150 | `Loop/LinearQ`: `Sarsa.update` and `QLearning.update` with a table of values that are linear in the params; the gradient is the derivative of the modelled loss | states and actions together turn `Sarsa` into `SimpleTD` (C149); two steps of one episode for the divergence of `QLearning` |
| C151 | as C149, with the loss function `huber` | inside the ball around the limit updates agree with those of `mse`; one episode of three steps for divergence |
| C152 | as C150, with the target of `ExpectedSarsa` and a policy with fixed logits | the expected features after a transition take the place of those of the next state and action; Jensen for their squares; counting states and actions of episodes; two steps of one episode for divergence |
| C153 | `Core/ExampleArgs` with the constructors of `Core/Construct`: which preprocessors and distribution each `example_data` uses | case distinction on the defaults, against the settings of the constructed object; three classes differ, with counterexamples for all arguments that show it |
| C154 | `Utils/DmcEnv`: a wrapper around an environment of an arbitrary dm_control suite, as a state with calls that may raise | invariant over sequences of calls (the settings are kept), then the state after a reset with a seed is that of a new object |
| C77 | `Core/Successor` over `Core/QTypes` | list index arithmetic; transform and non-affine counterexamples |

Result per property:

| Id | Title | Status | Theorems | Remarks |
|---|---|---|---|---|
| C01 | Segment tree root is the reduction of all values | proved | `C01_root_is_reduction`, `C01_nodes_consistent` |  |
| C02 | Segment tree writes are read back | proved | `C02_writes_are_read_back`, `C02_broadcast_write`, `C02_write_all`, `C02_rejected` |  |
| C03 | Partial reduction equals the reduction of the slice | partial | `C03_partial_reduce_partial`, `C03_partial_reduce_batched_partial`, `C03_batched_crash`, `C03_batched_counterexample`, `C03_noncommutative_counterexample` | Proved for commutative reducers and ranges 0<=start<stop<=capacity. False as stated for non-commutative associative reducers, and some batched calls raise IndexError; both are proved as counterexamples. |
| C04 | Malformed ranges are rejected by partial_reduce | partial | `C04_empty_rejected_partial`, `C04_counterexample_empty_range`, `C04_wraps_around` | False as stated: the arguments wrap modulo the capacity, so some empty ranges return a non-empty reduction (counterexample proved). The ranges that are rejected are characterised. |
| C05 | SumTree.inverse_cdf inverts the cumulative distribution | proved | `C05_inverse_cdf`, `C05_index_unique` |  |
| C06 | SumTree samples are proportional to the values | proved | `C06_sample_interval`, `C06_sample_indices`, `C06_sample_probability` |  |
| C07 | inverse_cdf accepts the whole closed unit interval and rejects the rest | partial | `C07_rejections`, `C07_endpoint`, `C07_closed_interval_partial`, `C07_counterexample` | The rejections are proved. u = 1 is accepted and returns the last leaf of the padded array, which can have weight zero or lie outside the capacity (counterexample proved). |
| C08 | SimpleReplayBuffer keeps exactly the most recent transitions | proved | `C08_keeps_most_recent`, `C08_add_succeeds`, `C08_add_errors`, `C08_alias_counterexample` | For histories in which a single-transition object still stored is not added a second time; the aliasing that occurs otherwise is proved as a counterexample. |
| C09 | SimpleReplayBuffer.sample returns distinct stored transitions | proved | `C09_sample`, `C09_sample_effects`, `C09_independent_of_global_random`, `C09_successive_samples` |  |
| C10 | PrioritizedReplayBuffer keeps exactly the most recent transitions | proved | `C10_keeps_most_recent`, `C10_iteration`, `C10_add_rejected`, `C10_init` |  |
| C100 | Reward tracers accept the log-propensities of policies | partial | `C100_discrete`, `C100_normal_partial`, `C100_normal_raises`, `C100_composite_partial`, `C100_composite_discrete`, `C100_composite_raises`, `C100_squashed_raises` | True if the action space has only discrete parts, however nested. Otherwise it is true exactly if the largest log-propensities of the parts have a non-positive sum (C100_normal_partial, C100_composite_partial); if not, the tracers raise TypeError with positive probability and the step is lost (C100_normal_raises, C100_composite_raises). For SquashedNormalDist on [-1, 1]^d a sufficient condition for raising is given. |
| C101 | Random keys are reproducible and never used twice | partial | `C101_keys`, `C101_fresh_partial`, `C101_copy_counterexample` | Independence is false for copies, which repeat the keys of the original (C101_copy_counterexample). Proved for all programs without copies whose seeds differ, and in general exactly when two keys coincide. Keys are idealised: different chains of splits give different keys. |
| C102 | Function approximators are built as their arguments say | partial | `C102_signature`, `C102_v`, `C102_policy`, `C102_stochastic_q`, `C102_stochastic_v`, `C102_stochastic_transition_model`, `C102_q_partial`, `C102_transition_model_partial`, `C102_example_partial`, `C102_q_counterexample`, `C102_stochastic_reward_partial`, `C102_stochastic_reward_counterexample` | True for V, Policy, StochasticV, StochasticQ, StochasticTransitionModel. False for Q and TransitionModel (the network is initialised with the default preprocessor of observations) and for StochasticRewardFunction (most arguments are ignored). Default preprocessors and distributions are parameters; the check of the output of the network is not modelled. |
| C103 | Traced targets are unbiased | proved | `C103_simple_td`, `C103_sarsa`, `C103_sarsa_discrete`, `C103_q_learning`, `C103_fixed_point`, `C103_monte_carlo`, `C103_q_learning_counterexample` | Finite numbers of actions and of outcomes per step; exact numbers; value function and policy are fixed while the n + 1 steps are made. For QLearning with type-1 functions the maximising actions are assumed unique (see C46). C103_q_learning_counterexample shows that n-step QLearning depends on the acting policy for n > 1. For MonteCarlo episodes are assumed to end within some number of steps. |
| C104 | Tabular value learning converges | proved | `C104_q_learning`, `C104_expected_sarsa`, `C104_soft_q_learning`, `C104_optimal`, `C104_greedy_policy`, `C104_online_q_learning`, `C104_online_expected_sarsa`, `C104_online_soft_q_learning` | Finite deterministic environments; the q-function is a table (one param per state and action, no bias), the optimizer is plain gradient descent with a learning rate of at most one over the clipped importance weight, the loss is mse or huber, transitions are of one step and exact, differentiation is the mathematical derivative. The online loop is without truncation (C88 shows what truncation does). Stochastic environments and Adam are not covered. |
| C105 | A distributed agent counts its steps and stops | partial | `C105_at_most`, `C105_counter_partial`, `C105_finitely_many`, `C105_rollouts_stop_partial`, `C105_all_stop_partial`, `C105_counter_counterexample`, `C105_threshold_counterexample`, `C105_blocked_counterexample` | The counter is exact for one rollout worker only (with several, pull_getattr and push_setattr of two workers interleave and steps are lost, even so that the counter decreases). Rollout workers stop in every fair execution if the parameter store has no longer warm-up than the learners (otherwise the store waits in buffer_sample and serves nobody). Learners stop if no reward threshold stops the rollout workers before. Calls of the parameter store are atomic; metrics are left out. |
| C106 | A distributed agent loses no update | partial | `C106_batches`, `C106_pulls_latest`, `C106_single_learner_partial`, `C106_two_learners_counterexample`, `C106_beta_counterexample` | With two learners updates are lost. The schedule of beta in doc/examples/atari/apex_dqn.py is evaluated at the counter of the environment of the learner, which stays 0. buffer_update is in C98. |
| C107 | Compiled functions behave like the functions they were made from | partial | `C107_result`, `C107_transparent`, `C107_affine`, `C107_beta`, `C107_nstep`, `C107_updater_partial`, `C107_gamma_counterexample`, `C107_loss_counterexample`, `C107_regularizer_counterexample`, `C107_reload_counterexample` | False as it stands: attributes that the body of a compiled function reads are fixed at its first call for given shapes. Assigning loss_function, gamma of the n-step regularizer, or a regularizer with hyperparameters of the same names has no effect after that; storing and loading makes the assignment visible. C107_updater_partial covers runs without such assignments. Compilation is modelled as tracing with a cache by shapes and static arguments; donated buffers and closures over numpy values are left out. |
| C108 | A rendered episode shows the states of the episode | partial | `C108_frames`, `C108_steps`, `C108_errors`, `C108_render_five`, `C108_render_four_partial`, `C108_initial_counterexample`, `C108_no_limit_counterexample` | False as it stands: generate_gif omits the initial state and shows the last one twice, the documented limit of 10000 is not used if the specification has no limit, and render_episode raises for every gymnasium environment (five values). C108_render_four_partial covers environments with the old interface without truncation. File output is left out. |
| C109 | reload_recursive reloads every submodule in order of dependence | partial | `C109_submodules`, `C109_external`, `C109_cycle`, `C109_argument`, `C109_order_counterexample`, `C109_prefix_counterexample` | The order is that of references among followed modules; sibling submodules that refer to each other are not reloaded in order of dependence, modules whose name merely starts with the name of the package are followed, and cycles end with RecursionError. Python's importlib is an argument. |
| C11 | Priorities in PrioritizedReplayBuffer are those last assigned | partial | `C11_weights_partial`, `C11_weights`, `C11_normaliser`, `C11_sampling_probability` | The exact weights are proved for every history (C11_weights). That they are (\|Adv\|+epsilon)^alpha of the advantage supplied last holds for tame histories only: see C12 and C14 for the two ways it fails. |
| C110 | What the constructors accept can be used | partial | `C110_predicates`, `C110_simple_td`, `C110_sarsa`, `C110_other_td`, `C110_clipped`, `C110_others`, `C110_usable`, `C110_optimizer`, `C110_accepted_usable_partial`, `C110_successor_counterexample`, `C110_list_counterexample`, `C110_mixture_counterexample`, `C110_policy_optimizer_counterexample`, `C110_optimizer_state_counterexample` | Acceptance is characterised completely. Not everything that is accepted can be used: SuccessorStateQ, lists as q_targ, mixtures of stochastic and deterministic functions; the optimizer of a policy objective cannot be replaced. C110_accepted_usable_partial covers updaters without a separate target function or with a copy. Use is modelled for SimpleTD, Sarsa and QLearning with discrete actions. |
| C111 | The random draws of an update are independent | partial | `C111_td_iff`, `C111_stochastic_counterexample`, `C111_network_counterexample`, `C111_nstep_counterexample`, `C111_policy_iff`, `C111_softpg_counterexample`, `C111_regularizer_counterexample`, `C111_model`, `C111_training_partial` | False for stochastic value functions (states and next states are preprocessed with the same key), for SoftPG and DeterministicPG with stochastic q-functions, for policy objectives with a regularizer and for n-step entropy. Characterised completely for TD updaters and policy objectives; proved for ModelUpdater and for whole programs made of the updates that are fine. Keys stand for independent draws if neither is derived from the other. |
| C112 | check_preprocessors tells whether preprocessors are the same, check_array accepts what it is asked for | partial | `C112_result`, `C112_few`, `C112_deterministic_partial`, `C112_random_counterexample`, `C112_sample_counterexample`, `C112_order_counterexample`, `C112_shape_counterexample`, `C112_array`, `C112_axis_counterexample` | check_preprocessors is characterised completely. It is wrong about random preprocessors, elements that were not drawn, scalars against arrays, and its tolerance depends on the order; for deterministic preprocessors equality is recognised, no is always right, and yes is right up to tolerance if every element was drawn. check_array is characterised completely; an axis that does not exist raises IndexError instead of the documented TypeError. |
| C113 | get_transition_batch returns a valid batch of the environment | partial | `C113_valid_partial`, `C113_errors`, `C113_nan_counterexample` | For spaces that can be sampled (C82) the batch is valid in every field, except that importance weights may be NaN when both uniform numbers are zero (the counterexample). Complete characterisation of the errors. Python bools as batch_size are left out. |
| C114 | Wrapped environments report the actions that were really taken | partial | `C114_step_partial`, `C114_history_partial`, `C114_none_counterexample`, `C114_reuse_counterexample`, `C114_errors`, `C114_reals` | Proved over whole programs for environments that return a new dict with every step. False for environments that return None (the actions are lost) or return the same dict again (the list grows). |
| C115 | Constructors accept exactly the networks whose outputs are as documented | partial | `C115_accepted`, `C115_rows_partial`, `C115_example`, `C115_batch_counterexample`, `C115_training_counterexample`, `C115_dtype_counterexample`, `C115_list` | Acceptance is characterised completely for one row and is_training=True. For other batch sizes and is_training=False it needs a network that treats rows alike (counterexamples otherwise). Integer parameters are accepted by stochastic functions. |
| C116 | Stochastic functions return samples, modes and means for the action that was asked for | proved | `C116_batch_state`, `C116_batch_action`, `C116_batch_point`, `C116_call`, `C116_point`, `C116_states`, `C116_law` | For distributions that treat rows one by one and postprocessors that pick the row they are asked for, which is all of them except EmpiricalQuantileDist (C72, C117). The random numbers of the rows are an argument; C116_law assumes them independent. |
| C117 | Sampling a quantile distribution bootstraps the values of each row | partial | `C117_sample_partial`, `C117_other_row_counterexample`, `C117_constant_counterexample`, `C117_logProba_counterexample`, `C117_call_counterexample`, `C117_call_action`, `C117_mean`, `C117_mean_counterexample` | False: sample draws whole rows of the batch instead of values of the row, nothing is random for a single state, log_proba has no batch axis, so that a StochasticQ with quantiles cannot be sampled without an action, and mean(s) returns the mean of the first action for all actions. Proved: all numbers are values of the batch; mean(s, a) and mean of functions of states are right. |
| C118 | Entropy and KL regularizers of all policies | partial | `C118_entropy_partial`, `C118_kl_partial`, `C118_priors_partial`, `C118_squashed_counterexample` | Proved for categorical, normal and all nested distributions. False for SquashedNormalDist and EmpiricalQuantileDist, which have neither entropy nor KL divergence: AttributeError. |
| C119 | Tabular value learning converges almost surely in stochastic environments | proved | `C119_q_learning`, `C119_expected_sarsa`, `C119_soft_q_learning`, `C119_online_q_learning`, `C119_online_expected_sarsa`, `C119_online_soft_q_learning`, `C119_epsilon_greedy_explores`, `C119_boltzmann_explores` | Tables with the mean squared error, optax.sgd with a schedule and one transition per update (or any rows that are known when the update is made, with a target network that is synchronised softly). The process of states, actions and outcomes is any process with the given conditional probabilities; optax is not part of the repository. |
| C12 | Stale priority updates never touch newer transitions | partial | `C12_stale_updates_harmless`, `C12_update_exact`, `C12_mixed_updates_partial`, `C12_masking`, `C12_update_rejected` | A stale id listed after a live id of the same slot in one call restores the old priority of the live one: proved as C12_masking. |
| C120 | Updaters, target networks and derived policies share exactly what they should | proved | `C120_references`, `C120_weights`, `C120_keys`, `C120_optimizers`, `C120_exploration`, `C120_update`, `C120_depends`, `C120_target_fixed`, `C120_copy`, `C120_no_target`, `C120_derived`, `C120_derived_set`, `C120_ddpg`, `C120_dqn`, `C120_clipped`, `C120_td3_counterexample`, `C120_draw`, `C120_key_chain`, `C120_no_key_twice`, `C120_seed` | What an updater computes from the weights that it is given is an arbitrary function. The loops of the stubs for DQN and DDPG are proved to compute these algorithms, for steps without exceptions; the stub for TD3 raises TypeError in a constructor (C120_td3_counterexample). Regularizers are their policy and constant hyperparameters; lists of targets are not mutated. No function uses a random key twice, if splitting keys is injective. |
| C121 | What value learning converges to is optimal, and the derived policies attain it | proved | `C121_value`, `C121_optimal`, `C121_mode`, `C121_soft_optimal`, `C121_evaluation`, `C121_epsilon_improvement`, `C121_soft_improvement`, `C121_epsilon_loss`, `C121_learned`, `C121_learned_online` | Finite environments and gamma < 1. The return is defined by recursion over the steps (conditional expectations), for policies that may depend on the whole history. EpsilonGreedy explores with probability a little above epsilon because of the 1e-15 in its logits; this is part of the statements. |
| C122 | Learning distributions of returns over a discretized interval converges | proved | `C122_projection`, `C122_discount`, `C122_metric`, `C122_mixture`, `C122_output`, `C122_log_counterexample`, `C122_least_loss`, `C122_evaluation`, `C122_sweep_exists`, `C122_mean`, `C122_learned_mean`, `C122_control` | Tables of logits without value transform, least expected loss in each sweep instead of single gradient steps. The floor of 1e-16 under the probabilities is part of the bounds. Evaluation: the distributions converge; control: their means converge to the optimal values, if there are no ties and all targets are in the range of the atoms. With LogTransform the projection is no contraction (C122_log_counterexample). |
| C123 | The picture of a ConnectFour game shows the position | partial | `C123_board_partial`, `C123_injective`, `C123_marker_partial`, `C123_numpy_counterexample`, `C123_start`, `C123_mask` | Proved after moves given as Python integers. False otherwise: after a move given as a numpy integer render raises TypeError (C123_numpy_counterexample). The text is a list of characters; printing it is not modelled. |
| C124 | Equality of transition batches | partial | `C124_same_shape_partial`, `C124_refl`, `C124_extra_counterexample`, `C124_repeat_counterexample`, `C124_sizes_counterexample`, `C124_relation_counterexample`, `C124_tuple`, `C124_defaults` | Proved for batches whose leaves have the same shapes. False otherwise: extra information is ignored when the other batch has none, a transition equals its repetitions, different sizes raise ValueError, and equality is neither symmetric nor transitive. Arrays over the reals, so without NaN; the equality of other Python objects is a parameter. |
| C125 | Workers share the buffer, metrics and state of their parameter store | partial | `C125_root`, `C125_buffer`, `C125_no_buffer`, `C125_shared_buffer`, `C125_metrics`, `C125_state`, `C125_chain_counterexample`, `C125_env`, `C125_env_rejects`, `C125_threshold` | Calls are made one after the other, as ray.get waits for each. What a buffer does is a parameter, the shared state is one value, and no two workers share one environment object. False for states in chains of stores: they are exchanged with the next store only (C125_chain_counterexample). |
| C126 | Learning the quantiles of returns | proved | `C126_evaluation`, `C126_sweep_exists`, `C126_quantile`, `C126_certain`, `C126_counterexample` | For tables with fixed fractions between 0 and 1, without a value transform, where each sweep reaches the least expected loss; evaluation of a policy, not control. The quantiles themselves are not learned: the values of a fair coin are 1/4 and 3/4 instead of 0 and 1 (C126_counterexample). |
| C127 | Almost-sure convergence of double Q-learning and Sarsa | proved | `C127_double_q_learning`, `C127_sarsa`, `C127_online_double_q_learning`, `C127_online_sarsa` | For tables, sgd with a learning-rate schedule, the mse loss and one transition per update. Sarsa follows a fixed policy. DoubleQLearning needs a target network that moves faster than the learned table (learning rate / tau tends to 0). |
| C128 | Almost-sure policy evaluation with SimpleTD | proved | `C128_simple_td`, `C128_online_simple_td` | For tables, sgd with a learning-rate schedule, the mse loss, one transition per update, a fixed policy, and importance weights that do not depend on the action. |
| C129 | Values learned with the default loss | partial | `C129_q_learning`, `C129_expected_sarsa`, `C129_soft_q_learning`, `C129_unique`, `C129_exact_partial`, `C129_converges`, `C129_online_q_learning`, `C129_online_exact_partial`, `C129_counterexample` | The property as stated (learned values are expected returns) is false for the default loss: C129_counterexample. Proved is what is learned instead, and that it is the expected return if no possible target is further than delta from it. For tables, sgd with a learning-rate schedule and one transition per update. |
| C13 | Importance weights of a prioritized sample | proved | `C13_importance_weights`, `C13_factors`, `C13_sample_rejected` |  |
| C130 | Learning from a replay buffer | partial | `C130_q_learning`, `C130_expected_sarsa`, `C130_soft_q_learning`, `C130_loop_q_learning_partial`, `C130_loop_expected_sarsa_partial`, `C130_loop_soft_q_learning_partial`, `C130_counterexample` | The property as stated is false if episodes end: C130_counterexample gives the biased limit. Proved is convergence for mini-batches of delayed transitions that are chosen without regard to the outcomes, and for the training loop of doc/examples/cartpole/dqn.py if episodes do not end. For tables, the squared loss and sgd with a learning-rate schedule. |
| C131 | An agent that acts with what it has learned learns to act optimally | proved | `C131_epsilon_greedy`, `C131_boltzmann`, `C131_soft_q_learning`, `C131_trajectory`, `C131_variates`, `C131_example` | For tables, the squared loss and sgd with a learning-rate schedule (the examples use adam, which is not part of the repository), episodes that are not truncated, and environments in which every state can be reached from every other one (through the ends of episodes too). |
| C132 | The sum tree in floating-point arithmetic | partial | `C132_no_drift`, `C132_root_error`, `C132_inverse_cdf`, `C132_share`, `C132_error_small`, `C132_doubles`, `C132_grid_partial`, `C132_out_of_range_counterexample`, `C132_zero_weight_counterexample` | In doubles it is not true that only positions of positive value are drawn (two counterexamples); it is true for values on a common grid with a sum that fits, and in general up to a proved error. Overflow and gradual underflow are not modelled. |
| C133 | Clipped double Q-learning learns the optimal values | proved | `C133_clipped_double_q_learning` | Tables, one transition per update, plain SGD with a schedule of learning rates; the learning rates of the two updaters are counted separately. |
| C134 | Looking several steps ahead evaluates the policy | proved | `C134_sarsa`, `C134_expected_sarsa`, `C134_simple_td` | Tables, online loop, plain SGD with a decreasing schedule of learning rates, target network by soft updates; fixed policy. Any number of steps. |
| C135 | What Q-learning learns with several steps | proved | `C135_q_learning`, `C135_at_most_optimal`, `C135_at_least_policy`, `C135_one_step`, `C135_optimal_policy`, `C135_not_optimal` | As C134. The claim that the limit is optimal is false for more than one step: C135_not_optimal is the negation with a witness. |
| C136 | Sarsa with the policy that acts on what is being learned | proved | `C136_sarsa`, `C136_schedule`, `C136_boltzmann`, `C136_boltzmann_two`, `C136_boltzmann_near`, `C136_example` | Tables, plain SGD with a decreasing schedule of learning rates, one-step tracer, no target network. For EpsilonGreedy convergence to the values of the best exploring policy; for BoltzmannPolicy what a limit must be, that this does not determine it, and how near to the optimum values and policy end up. |
| C137 | REINFORCE climbs the expected return of its own policy | partial | `C137_climbs_partial`, `C137_two_steps`, `C137_discounting_counterexample`, `C137_undiscounted` | Holds without discounting, and with discounting if the policy sees the state including the time that is left; otherwise it is false, because the code does not weigh the steps of an episode with powers of gamma (C137_discounting_counterexample: the loop learns the worst policy). Table of logits, plain SGD with a decreasing schedule of learning rates, finite episodes, one initial state. |
| C138 | ExpectedSarsa with a policy on the values being learned | proved | `C138_epsilon_greedy`, `C138_boltzmann`, `C138_boltzmann_limit`, `C138_example` | Tables, plain SGD with a decreasing schedule of learning rates, one-step tracer, no target network, epsilon and temperature constant. That there can be several tables of values of their own Boltzmann policy is C136_boltzmann_two. |
| C139 | Double Q-learning with a target network, acting on the values being learned | proved | `C139_boltzmann`, `C139_epsilon_greedy`, `C139_example` | Tables, plain SGD with a decreasing schedule of learning rates (the example uses adam), one-step tracer, a constant rate of the target network, episodes that are not truncated. |
| C14 | Changing alpha re-weights stored priorities consistently | partial | `C14_alpha_change_partial`, `C14_alpha_change_exact`, `C14_alpha_noop`, `C14_clamp_counterexample` | Holds while all priorities are at least 1e-15; below that the setter clamps (counterexample proved). |
| C140 | The model-based loop learns the values of the best policy that explores | partial | `C140_planner_partial`, `C140_terminal_counterexample`, `C140_example` | Holds for an exact transition model and reward function if the states in which episodes end have the value 0 at the start; otherwise it is false, because SuccessorStateQ adds the value of such a state and no update changes it (C140_terminal_counterexample: the policy ends all episodes at once, forever). One-hot states, plain SGD with a decreasing schedule of learning rates (the example uses adam), one-step tracer, no ModelUpdater, episodes that are not truncated. |
| C141 | Square-bracket lookups of the segment tree return the reductions of blocks of values, and writes through them leave the tree damaged until the values are set again | proved | `C141_levels`, `C141_entries`, `C141_view_write`, `C141_view_write_stale`, `C141_view_write_repair`, `C141_inner_view_write` | Exact arithmetic; reducer associative with unit init_value. Indices are ints, 1d lists of ints and slices with step one; boolean masks and multi-dimensional index arrays are not modelled. Writes through views: only single-entry assignments. |
| C142 | The DQN loop learns the optimal values while it acts on the values that it learns from its replay buffer | partial | `C142_boltzmann_partial`, `C142_epsilon_greedy_partial`, `C142_soft_q_learning_partial`, `C142_trajectory_partial`, `C142_shuffles`, `C142_example` | Restricted to environments whose episodes do not end: otherwise the buffer makes the order in which outcomes are used depend on the outcomes, and C130_counterexample shows that then even a fixed policy need not lead to the solution. Tables; optax.sgd with decreasing learning rates instead of optax.adam; exact real arithmetic. Learning rates must not increase. |
| C143 | What the seed of a replay buffer determines, what clear does to it, and what sampling does to other random draws | proved | `C143_reproducible`, `C143_cleared_as_new`, `C143_numbers`, `C143_numbers_without_seed`, `C143_rounds_repeat`, `C143_simple_cleared`, `C143_simple_counterexample`, `C143_simple_takes_over`, `C143_example` | numpy.random.RandomState and random.sample are parameters: a state for each seed, numbers in [0, 1) or distinct positions, and a next state. |
| C144 | A checkpoint made with dump is restored by load, with all references between the objects in it | partial | `C144_restored`, `C144_resume`, `C144_separate`, `C144_files`, `C144_load_errors`, `C144_failed_dump_counterexample`, `C144_docstring` | True except for the last sentence: dump opens the file, and thereby empties it, before it serialises the object, so a dump that fails destroys the checkpoint that was there (C144_failed_dump_counterexample). The byte formats of cloudpickle and lz4 are not modelled: a byte-string stands for the objects reachable from the dumped one. |
| C145 | Policies over nested action spaces sample members with independent parts of the right laws | proved | `C145_sample`, `C145_mode` | Any nesting of Discrete (start 0; for other starts see C76_counterexample), MultiDiscrete, MultiBinary, Box, Tuple and Dict. jax.random.split is a tree of keys whose noise is independent and of the stated laws (GoodKeys; exists_keys shows that such keys exist). Exact reals, one state per call; ties in argmax are broken by any fixed rule. |
| C146 | affine_transform of a distribution over a nested space | partial | `C146_affine_transform_partial`, `C146_discrete`, `C146_rejects`, `C146_value_transform_counterexample` | The law is right exactly if for each Box the scale is 1 or the mean is 0 (the mean is not multiplied by the scale, see C51), for scales other than 0 and log-variances that are not clipped. With a value transform the call raises TypeError for every distribution, since the jitted function does not declare the argument as static (C146_value_transform_counterexample). That jax rejects functions as traced arguments is part of the model. |
| C147 | values learned with a policy regularizer | partial | `C147_same_update`, `C147_same_update_kl`, `C147_same_loop`, `C147_simple_td`, `C147_sarsa`, `C147_expected_sarsa`, `C147_improvement`, `C147_nstep_counterexample`, `C147_nstep_exists`, `C147_nstep_one`, `C147_nstep_simple_td`, `C147_nstep_sarsa`, `C147_nstep_expected_sarsa`, `C147_nstep_q_learning` | Proved for tables, optax.sgd, the loss mse for convergence (any loss for C147_same_update and C147_same_loop), a fixed policy with discrete actions that also chooses the actions. With n = 1 the limit is the one stated. False for more than one step: the regularizer is evaluated at the first state of each transition only, so the limit contains the entropies at the times 0, n, 2n, ... only (C147_nstep_simple_td, C147_nstep_sarsa, C147_nstep_expected_sarsa; C147_nstep_counterexample shows that this differs). q-functions also contain the entropy of the first state, which does not change the Boltzmann policy made from them (C147_improvement). A policy that is trained at the same time is not covered. |
| C148 | example data of function approximators | partial | `C148_inputs`, `C148_q`, `C148_others`, `C148_given`, `C148_training`, `C148_calls`, `C148_no_rows`, `C148_start_counterexample`, `C148_ragged_counterexample` | Proved for all nested spaces of Discrete, Box, MultiDiscrete, MultiBinary, Tuple and Dict with the default preprocessors, and for preprocessors that return one row with a fixed number of columns (C148_inputs, C148_given). False for Discrete spaces whose start is n or more (C148_start_counterexample). A preprocessor with varying numbers of columns passes constructors, which look at one row (C148_ragged_counterexample). Transition models, whose default preprocessor is preprocess_variate, are covered by C148_inputs only. |
| C149 | value functions that are linear in their params | partial | `C149_update`, `C149_exists`, `C149_unique`, `C149_converges`, `C149_error`, `C149_episodes`, `C149_pipeline`, `C149_minibatches`, `C149_draws`, `C149_target`, `C149_empirical`, `C149_empirical_unique`, `C149_off_policy_counterexample`, `C149_target_counterexample`, `C149_empty` | Proved for batches whose transitions lead to their states at most as often as these occur (OnPolicy), which the transitions of an NStep tracer over complete episodes satisfy (C149_episodes), with mse and gradient descent: repeated updates with the whole batch and a constant learning rate below a bound, with or without a target network (C149_converges, C149_target), or, without one, uniformly drawn mini-batches with learning rates that satisfy the conditions of Robbins and Monro (C149_minibatches). The values that the error is measured against exist and are determined on the states of the batch (C149_empirical, C149_empirical_unique). False for other batches, with or without a target network (C149_off_policy_counterexample, C149_target_counterexample). Adam is not covered. |
| C15 | n-step transitions are correct under any interleaving of add and pop | proved | `C15_nstep_transitions`, `C15_not_premature` | All histories of add/pop/flush/reset, including failing calls; n >= 1, 0 <= gamma <= 1, steps that from_single accepts. Exact arithmetic. |
| C150 | q-functions that are linear in their params | partial | `C150_update`, `C150_converges`, `C150_minibatches`, `C150_target`, `C150_empirical`, `C150_qlearning_update`, `C150_qlearning_counterexample`, `C150_empty` | Proved for Sarsa on the transitions of an NStep tracer over complete episodes, with mse and gradient descent: repeated updates with the whole batch and a constant learning rate below a bound, with or without a target network (C150_converges, C150_target), or, without one, uniformly drawn mini-batches with learning rates that satisfy the conditions of Robbins and Monro. The data are fixed: the policy does not change while the function learns. False of QLearning on the same data (C150_qlearning_counterexample). Adam is not covered. |
| C151 | linear functions with the default loss function | partial | `C151_update`, `C151_bounded`, `C151_near`, `C151_counterexample`, `C151_sarsa_counterexample` | False of the code as stated: with the default loss function, repeated updates with one complete episode of three steps diverge from zero params with every learning rate, though some params give exactly the right values (C151_counterexample, C151_sarsa_counterexample), and though they converge with mse (C149). Proved: what an update does, that it moves params by a bounded amount, and convergence from params near the limit (C151_near). |
| C152 | ExpectedSarsa with linear q-functions | partial | `C152_update`, `C152_converges`, `C152_unique`, `C152_target`, `C152_episodes`, `C152_counterexample`, `C152_error`, `C152_empirical`, `C152_minibatches` | Proved for complete episodes in which, in each state, actions occur as often as the policy takes them (C152_episodes), and for batches in whose states actions occur at least as often as the policy takes them after the transitions of the batch (OnPolicyE), with mse, with and without a target network, and gradient descent with a small constant learning rate; also for mini-batches that are drawn uniformly from such transitions, without a target network, with learning rates that satisfy the conditions of Robbins and Monro (C152_minibatches). False of other complete episodes: one in which a policy takes the less likely of two actions makes updates diverge with every learning rate (C152_counterexample). The policy does not change. |
| C153 | example_data describes the function that the constructor takes | partial | `C153_state`, `C153_stochastic_v`, `C153_q`, `C153_stochastic_q_partial`, `C153_quantile_counterexample`, `C153_stochastic_transition_model_partial`, `C153_stochastic_transition_model_counterexample`, `C153_reward_partial`, `C153_reward_counterexample` | Proved for V, Policy, StochasticV, Q and TransitionModel. For the others false as stated, proved with restrictions: StochasticQ with an increasing range of values (example_data raises TypeError for functions with quantiles), StochasticTransitionModel without a preprocessor of observations (example_data has no argument for it), StochasticRewardFunction with a range of values only (its constructor ignores the other arguments). Spaces, preprocessors and distributions are abstract, as in C102. |
| C154 | seeds of DeepMind Control environments | proved | `C154_seed`, `C154_reproducible`, `C154_last_seed`, `C154_rejects`, `C154_calls` | For an arbitrary dm_control suite whose environments are deterministic given the seed with which they are loaded. Not modelled: errors that dm_control raises when it steps, resets or renders. |
| C16 | n-step tracing loses and duplicates nothing | proved | `C16_no_loss_no_duplication`, `C16_all_popped` | As C15. |
| C17 | NStep error behaviour | proved | `C17_add`, `C17_bool`, `C17_pop`, `C17_flush`, `C17_invalid_step_lost` | As C15. C17_invalid_step_lost shows why steps that from_single rejects are excluded: pop removes such a step and then raises. |
| C18 | NStep extra_info describes the n+1 steps from t | proved | `C18_extra_info` | As C15. |
| C19 | Monte-Carlo returns | proved | `C19_returns`, `C19_no_loss`, `C19_bool`, `C19_add`, `C19_pop`, `C19_flush` | All histories of add/pop/flush/reset, including failing calls; 0 <= gamma <= 1, steps that from_single accepts. Exact arithmetic. |
| C20 | NStep with a long horizon agrees with MonteCarlo | proved | `C20_nstep_montecarlo` | Any two complete histories over the same episodes, whatever the interleaving of pops. |
| C21 | TransitionBatch.from_single validation and bootstrap factor | proved | `C21_from_single_rejects`, `C21_from_single_value` | isinstance checks are not modelled; logp and r are scalars. |
| C22 | Splitting and concatenating transition batches are inverse | proved | `C22_to_singles`, `C22_concat`, `C22_split_concat`, `C22_concat_split`, `C22_concat_rejects`, `C22_empty_batch` | Arbitrary pytrees. Round trip needs at least one transition: C22_empty_batch shows that an empty batch cannot be restored. The documentation says reverse order; the order is forward. |
| C23 | Connect-Four board stays legal | proved | `C23_position`, `C23_no_gaps`, `C23_available`, `C23_token_counts`, `C23_step` | All sequences of step (with any integer, failing calls included) and reset. |
| C24 | Connect-Four win detection is exact | proved | `C24_win_detection` | FourInRow is stated with directions and coordinates, independent of the filters and windows of the code. |
| C25 | Connect-Four episodes end within 42 moves | proved | `C25_episode_length` | A drawn game with exactly 42 moves is given as example. |
| C26 | Connect-Four errors | proved | `C26_errors` |  |
| C27 | Connect-Four state_id round trip | partial | `C27_length`, `C27_injective`, `C27_round_trip_partial`, `C27_set_state_raises` | state_id is exact and injective. set_state as it is always raises AttributeError (np._base_repr does not exist): C27_set_state_raises; with the name repaired the round trip is proved. |
| C28 | Connect-Four observation encodes the position from the side to move | partial | `C28_observation_partial`, `C28_step_observation`, `C28_counterexample` | False as documented: channel 0 belongs to the player who just moved (C28_counterexample); the exact content of the observation is proved. |
| C29 | chunks_pow2 partitions a batch | proved | `C29_partition`, `C29_sizes`, `C29_concat`, `C29_empty` | For every proper batch. None leaves are leafless pytrees, as in jax. |
| C30 | StepwiseLinearFunction interpolates its steps | proved | `C30_accepts`, `C30_interpolates`, `C30_total`, `C30_at_steps`, `C30_bounds`, `C30_continuous` | Exact arithmetic. The interpolation specification determines the value uniquely. |
| C31 | RollingAverage is the mean of the last n observations | proved | `C31_rolling_total`, `C31_rolling`, `C31_exponential_total`, `C31_exponential_mean`, `C31_exponential_smoothing`, `C31_exponential_bounds`, `C31_degenerate_window` | Exact arithmetic, window at least one; windows of zero or less are characterised separately. |
| C32 | sync_shared_params averages exactly the shared entries | proved | `C32_sync`, `C32_default_weights`, `C32_guards`, `C32_idempotent`, `C32_structure_mismatch` | Arrays of one shape form a vector space; broadcasting between different shapes is not modelled. |
| C33 | merge_dicts | proved | `C33_last_wins`, `C33_keys`, `C33_warning` |  |
| C34 | Wrapper attribute lookup | proved | `C34_get_found`, `C34_get_missing`, `C34_has`, `C34_agree`, `C34_depth_limit`, `C34_stack`, `C34_env` | All stacks; an attribute below max_depth is reported missing (C34_depth_limit). |
| C35 | FrameStacking returns the last num_frames observations | proved | `C35_reset`, `C35_step`, `C35_no_padding`, `C35_before_reset`, `C35_rejects` | All histories, any inner environment, errors of the inner environment included. |
| C36 | TrainMonitor counters | partial | `C36_counters_partial`, `C36_avg_G`, `C36_avg_G_mean`, `C36_step_result`, `C36_counterexample` | False for T as stated: reset() also increments T, so T = steps + resets (C36_counterexample). Everything else holds after any history. |
| C37 | TrainMonitor.period fires once per period | proved | `C37_call`, `C37_rejects`, `C37_rejects_T`, `C37_no_interference`, `C37_once_per_period`, `C37_fires_iff`, `C37_catch_up` | All histories of calls of all methods. Once per period needs calls at most k counts apart; otherwise missed firings are made up one per call (C37_catch_up). |
| C38 | TrainMonitor counter and metric round trips | proved | `C38_metrics`, `C38_metrics_rejects`, `C38_round_trip`, `C38_transfer`, `C38_rejects`, `C38_accepts`, `C38_save_load`, `C38_stale_writer`, `heap_refines`, `C38_writer`, `C38_no_writer`, `C38_new_directory`, `C38_heap` | The tensorboard directory must be None or end in a timestamp, as __init__ makes it for every non-empty directory. C38_stale_writer: an already open tensorboard writer for another directory is kept. |
| C39 | Streaming reservoir sample | proved | `C39_sample`, `C39_all_held`, `C39_uniform`, `C39_certain`, `C39_monitor` | Retention probability as an iterated integral over independent uniform draws. |
| C40 | Box action wrappers stay inside the box and are surjective onto bins | proved | `C40_accepts`, `C40_in_bin`, `C40_tiling`, `C40_surjective`, `C40_rejects`, `C40_reals_inside`, `C40_reals_accepts`, `C40_reals_monotone`, `C40_reals_surjective` | Exact real arithmetic, finite bounds, Box shape not (). |
| C41 | Ornstein-Uhlenbeck exploration noise | partial | `C41_recurrence`, `C41_reset`, `C41_bounds_partial`, `C41_counterexample`, `C41_reverts`, `C41_defaults` | False as documented: the noise is clipped, not the action (C41_counterexample). |
| C42 | LogTransform is an order-preserving bijection | proved | `C42_accepts`, `C42_inverse`, `C42_odd`, `C42_strictMono`, `C42_compresses`, `C42_near_identity` | Exact real arithmetic. |
| C43 | Value losses | proved | `C43_mse`, `C43_huber_shape`, `C43_huber`, `C43_convex`, `C43_huber_lipschitz`, `C43_logloss_sign`, `C43_logloss_agree`, `C43_logloss`, `C43_weights`, `C43_mse_batch`, `C43_huber_batch`, `C43_empty`, `C43_empty_losses` | Exact real arithmetic; batches as rows per sample. |
| C44 | Quantile Huber loss | proved | `C44_weights`, `C44_elementwise`, `C44_batch` | At the batch level the loss is zero exactly if in each sample every predicted quantile value equals every target value. |
| C45 | Terminal transitions never bootstrap | proved | `C45_simpleTD`, `C45_sarsa`, `C45_sarsaCont`, `C45_qLearning`, `C45_qLearningCont`, `C45_doubleQLearning`, `C45_doubleQLearningCont`, `C45_expectedSarsa`, `C45_softQLearning`, `C45_clippedDoubleQ`, `C45_clippedDoubleQCont`, `C45_distributional` | Deterministic value functions with finite outputs, and the DiscretizedInterval distribution. |
| C46 | Relations between TD targets | partial | `C46_qLearning_partial`, `C46_qLearning_ties`, `C46_doubleQLearning_partial`, `C46_double_eq_single`, `C46_expectedSarsa_partial`, `C46_softQLearning`, `C46_clipped_partial`, `C46_clippedCont`, `C46_sarsa`, `C46_simpleTD`, `C46_sarsaCont`, `C46_qLearningCont`, `C46_doubleQLearningCont`, `C46_clipped_accepts`, `C46_expectedSarsa_type1`, `C46_expectedSarsa_type1_iff`, `C46_expectedSarsa_type1_partial`, `C46_expectedSarsa_counterexample` | False for type-1 q-functions with tied actions: the network is evaluated at the average of the one-hot actions (C46_qLearning_ties). False for ExpectedSarsa with type-1 q-functions: the network is evaluated at the probabilities; right for all policies exactly if the network is the weighted mean there (C46_expectedSarsa_type1_iff), with bounds for convex and concave networks. Proved for type-2 q-functions (all ties) and for type-1 q-functions with one maximising action; ExpectedSarsa bounds for type-2 q-functions. |
| C47 | A NaN gradient changes nothing | proved | `C47_nan`, `C47_update`, `C47_inversion`, `C47_optimizer_error` | The random key moves on in any case. An error raised by the optimizer itself comes after the function state was set. |
| C48 | Distributional projection conserves probability and mean | proved | `C48_projection`, `C48_mean`, `C48_output`, `C48_output_mean`, `C48_sorted`, `C48_one_bin`, `C48_preprocess_high` | The projection is exact. The returned logits are floored at log(1e-16), so the normalised output differs by that floor (C48_output_mean). |
| C49 | Categorical distribution identities | proved | `C49_probabilities`, `C49_logProba`, `C49_shift`, `C49_formulas`, `C49_kl_eq`, `C49_kl_nonneg`, `C49_entropy_bounds`, `C49_round_trip`, `C49_one_hot`, `C49_mode`, `C49_sample`, `C49_batch`, `C49_batch_rejects`, `C49_default_priors`, `C49_sizes` | Over the reals. Reading an action back draws at random among tied maxima. |
| C50 | Normal distribution identities | proved | `C50_log_proba`, `C50_log_proba_constant`, `C50_sample_law`, `C50_cross_entropy`, `C50_entropy`, `C50_kl_eq`, `C50_kl_nonneg`, `C50_init`, `C50_postprocess_in_box`, `C50_round_trip`, `C50_action_round_trip` | Over the reals, one row of a batch. The constant log(2 pi) is a parameter where the source has a rounded literal. |
| C51 | affine_transform of a normal is the distribution of X*scale+shift | partial | `C51_affine_transform_partial`, `C51_counterexample` | False: the mean is not multiplied by the scale. Proved: the variance is right, and the result is right exactly if scale = 1 or all means are zero (no value transform). |
| C52 | Epsilon-greedy action probabilities | proved | `C52_rule`, `C52_probabilities`, `C52_close`, `C52_sampled`, `C52_mode` | The source adds 1e-15 to each probability before taking logarithms; the exact effect is part of the statement. |
| C53 | Boltzmann policy | proved | `C53_boltzmann`, `C53_shift`, `C53_limits`, `C53_sampled`, `C53_mode` |  |
| C54 | soft_update is exponential smoothing | proved | `C54_soft_update`, `C54_rejects`, `C54_not_atomic`, `C54_tau_one`, `C54_tau_zero`, `C54_geometric`, `C54_stays_between` | Exact field arithmetic. |
| C55 | Type-1 and type-2 q-functions agree | proved | `C55_type2_view`, `C55_type1_view`, `C55_rejects`, `C55_agree`, `C55_call` |  |
| C56 | PPO clipped objective | proved | `C56_objective`, `C56_le_surrogate`, `C56_no_incentive`, `C56_gradient`, `C56_on_policy`, `C56_rejects` |  |
| C57 | n-step entropy mask | partial | `C57_counterexample`, `C57_right_iff`, `C57_value_partial`, `C57_contiguous_partial`, `C57_one_off_partial`, `C57_unsorted`, `C57_rejects`, `C57_steps` | False: a selection of steps that is not 0, 1, ..., m counts one step after the end of the episode. Proved: the exact value computed, that it is right for all episodes exactly for the selections 0, ..., m, and that otherwise at most one step too many is counted. |
| C58 | Worker rollout traces each transition once | proved | `C58_rollout`, `C58_raises`, `C58_once`, `C58_no_policy` |  |
| C59 | Worker waits for the warm-up | proved | `C59_first`, `C59_chain`, `C59_returns` | With several workers in the chain the warm-up of the calling worker holds at the time of sampling only if the buffer does not shrink in between; this is a hypothesis of that conjunct. |
| C60 | A TrainMonitor snapshot is independent of later training | partial | `C60_counterexample`, `C60_snapshot_partial`, `C60_metrics` | False: get_counters hands out references (C60_counterexample). What set_counters restores then is characterised. |
| C61 | Squashed normal: log_proba is the density of sample | partial | `C61_in_box`, `C61_default_raises`, `C61_log_proba_of_tanh`, `C61_log_proba_partial`, `C61_counterexample` | False for a Box other than [-1,1]^d: log_proba leaves out scale and offset. Proved for [-1,1]^d, away from the edge. With the default clip_logvar=None sample and log_proba raise TypeError. |
| C62 | Sampled discrete actions follow the distribution | proved | `C62_sample_distribution` | Random numbers uniform on (0,1), as real numbers. |
| C63 | The reported log-propensity is that of the returned action | partial | `C63_log_propensity_partial`, `C63_counterexample` | False: the log-propensity is that of the soft Gumbel-softmax variate, not of the returned action. Proved: it is a weighted mean of the log-probabilities, and right for uniform policies. |
| C64 | Loss of a policy objective | proved | `C64_loss`, `C64_mismatch`, `C64_soft`, `C64_deterministic`, `C64_soft_checks`, `C64_broadcast` |  |
| C65 | Entropy and KL regularizers | proved | `C65_entropy`, `C65_default_priors`, `C65_kl`, `C65_batch_eval` | Categorical policies. |
| C66 | Attributes shared through the parameter store | proved | `C66_push_pull`, `C66_accepts` |  |
| C67 | TD error | proved | `C67_td_error`, `C67_gradient`, `C67_sign`, `C67_total` |  |
| C68 | Policy regularizer in the TD target | partial | `C68_shift`, `C68_deterministic_partial`, `C68_quantile`, `C68_counterexample`, `C68_interval_partial`, `C68_interval_counterexample` | False for deterministic value functions with a value transform: the regularizer is subtracted from the transformed target. Proved without value transform, and for quantile value functions with any value transform. For discretized intervals the distribution is not that of the regularized return, because it is projected twice (C68_interval_counterexample); the mean is right up to the floor of the logarithm if the returns stay away from the ends (C68_interval_partial). |
| C69 | Importance weights in the TD loss | partial | `C69_deterministic_partial`, `C69_quantile`, `C69_interval_ignores`, `C69_counterexample` | False for value functions with a discretized interval, whose loss ignores the weights. Proved for deterministic and quantile value functions. |
| C70 | distributional TD targets | proved | `C70_sarsa`, `C70_qLearning`, `C70_doubleQLearning`, `C70_simpleTD`, `C70_qLearningCont`, `C70_doubleQLearningCont`, `C70_clippedCont`, `C70_clipped`, `C70_quantile`, `C70_interval`, `C70_terminal_quantile`, `C70_terminal_interval` |  |
| C71 | distributional expected sarsa | partial | `C71_quantile_partial`, `C71_counterexample` | False for discretized intervals: ExpectedSarsa averages the logits over the policy, not the distributions. Proved for quantile value functions. |
| C72 | calling a distributional q-function on a state | partial | `C72_interval_partial`, `C72_quantile`, `C72_counterexample`, `C72_dist_params` | False for quantile value functions: the base class method postprocess_variate ignores the index, so mean(s) repeats the value of action 0. Proved for discretized intervals, and for dist_params with both. |
| C73 | calling a distributional value function undoes the value transform | partial | `C73_returns`, `C73_identity_partial`, `C73_counterexample`, `C73_returns_v`, `C73_counterexample_v` | False with a value transform: StochasticQ and StochasticV return the mean of the transformed distribution and never apply the inverse. Proved without value transform. |
| C74 | distribution over a nested space | proved | `C74_density`, `C74_entropy`, `C74_kl` |  |
| C75 | the distributional loss is least at the target | partial | `C75_interval_partial`, `C75_counterexample` | False for quantile value functions: the quantile Huber loss is quadratic near zero, so its minimum is not at the target values. Proved for discretized intervals. |
| C76 | variates and members of nested spaces | partial | `C76_clean_partial`, `C76_round_trip_partial`, `C76_counterexample` | False for a Discrete space with start other than 0, which the code ignores. Proved for all other nested spaces. |
| C77 | SuccessorStateQ is reward plus discounted value of the successor | partial | `C77_agree`, `C77_value_partial`, `C77_expected_partial`, `C77_counterexample_reward`, `C77_counterexample_mean` | q(s)[a] = q(s, a) is proved in general. The equation with reward and value is false for reward functions with a value transform (it is not undone) and for stochastic transition models with a value that is not affine (the value of the mean successor is used); proved otherwise. |
| C78 | ModelUpdater fits dynamics models to what was observed | partial | `C78_reward`, `C78_reward_fit`, `C78_transition`, `C78_transition_fit`, `C78_tree_rejected`, `C78_regularized`, `C78_regularizer_deterministic`, `C78_stochastic`, `C78_counterexample`, `C78_stochastic_reward_rejected`, `C78_stochastic_reward_mixes`, `C78_stochastic_reward_one`, `C78_stochastic_reward_one_bin`, `C78_nan` | Proved for deterministic reward functions and transition models with array observations. False for stochastic transition models (the expected loss adds the variance of the model, so it is driven to zero), for stochastic reward functions (shapes do not match), and for nested observations (rejected). |
| C79 | diff_transform computes finite differences and loses nothing | proved | `C79_differences`, `C79_involution`, `C79_static`, `C79_matrix` | For every number of frames. |
| C80 | Quantile fractions split the unit interval evenly and are embedded injectively | partial | `C80_split`, `C80_expected`, `C80_uniform_biased`, `C80_equal`, `C80_batch`, `C80_value_bias`, `C80_embedding`, `C80_embedding_shift`, `C80_embedding_counterexample` | Split, expected fractions and injectivity are proved. The embedding is not the documented one (features 1..n instead of 0..n-1), and the fractions are biased: the value computed from fixed fractions falls short of the mean, with the exact bounds proved. |
| C81 | default_preprocessor treats batches and single members alike and separates members | partial | `C81_batch`, `C81_round`, `C81_injective_partial`, `C81_start_ignored` | Agreement of batches and single members and the round trip are proved for all nested spaces; injectivity fails for Discrete spaces with start (C81_start_ignored) and is proved for start=0. |
| C82 | safe_sample returns a member of the space | partial | `C82_member_partial`, `C82_box_counterexample`, `C82_start_counterexample` | False for a Box that does not contain zero and for Discrete spaces with start; proved for all other nested spaces. |
| C83 | argmax and argmin return a maximising or minimising index and break ties evenly | proved | `C83_maximiser`, `C83_float_noise`, `C83_float`, `C83_refines`, `C83_even`, `C83_counterexample` | A maximising index for all noise with a range below 100, which is shown to hold for all float32 uniform random numbers; the exact probabilities are given for exact uniform random numbers. In exact arithmetic another index is possible, with probability about e^-100 (C83_counterexample). |
| C84 | TD targets are contractions and fitted Q-iteration converges to the Bellman solution | proved | `C84_simpleTD`, `C84_sarsa`, `C84_expectedSarsa`, `C84_qLearning`, `C84_softQLearning`, `C84_convergence`, `C84_double_counterexample` | One-step contraction for five updaters with identity value transform; convergence of exact fitted iteration for QLearning. DoubleQLearning is not a contraction (C84_double_counterexample), as the statement says. |
| C85 | SoftQLearning bootstraps with the entropy-regularised value of the Boltzmann policy | proved | `C85_softQLearning`, `C85_expectedSarsa` | For every value transform in C85_softQLearning; C85_expectedSarsa compares two targets without value transform. |
| C86 | Policy gradients are unbiased and insensitive to a baseline | proved | `C86_vanilla`, `C86_ppo`, `C86_baseline` | Categorical policies with any differentiable logits; the actions of the batch are drawn independently, one per state. |
| C87 | Importance weights undo the bias of prioritized sampling | partial | `C87_unnormalised_partial`, `C87_batch_of_one`, `C87_batch_of_one_biased`, `C87_counterexample` | False: the weights are divided by the largest of the batch, which depends on what was drawn; in a batch of one nothing is corrected. Proved: before that division the weights are exactly right with beta = 1. |
| C88 | A training loop learns from correct n-step targets of its own episodes | proved | `C88_targets`, `C88_qLearning`, `C88_simpleTD`, `C88_sarsa`, `C88_no_errors`, `C88_ready`, `C88_truncation_counterexample` | For every row-wise updater and every interleaving of steps, updates, clears and other users of random. Episodes are those that the loop reports to the tracer: many example scripts pass done instead of done or truncated, so that transitions cross time limits (C88_truncation_counterexample). |
| C89 | RandomPolicy reports the propensities of the actions that it draws | partial | `C89_box`, `C89_discrete_raises`, `C89_discrete_params`, `C89_integer_counterexample`, `C89_params_counterexample`, `C89_mode_is_random` | Holds for the log-propensity of float Boxes and for the distribution parameters of Discrete spaces. False otherwise: Discrete raises AttributeError, integer Boxes and the parameters of Boxes are wrong. |
| C90 | Asking a transition model for all actions or for one agrees | proved | `C90_call`, `C90_agree` | Discrete actions; networks of both types whose rows do not influence each other. |
| C91 | Playing a MetaPolicyEnv is playing the chosen arms | partial | `C91_plays`, `C91_rejects`, `C91_no_getargspec` | For Python versions that have inspect.getargspec and arms that are plain functions; from Python 3.11 on every step raises AttributeError (C91_no_getargspec). |
| C92 | make_dmc gives the environment that was asked for | partial | `C92_make_partial`, `C92_make_ambiguous`, `C92_make_first_wins`, `C92_make_counterexample`, `C92_observation`, `C92_rejects`, `C92_terminated_partial`, `C92_time_limit_counterexample` | Observations are proved. False: make_dmc ignores its arguments if the same domain and task was made before; time limits of dm_control are reported as termination. |
| C93 | unvectorize undoes vmap | proved | `C93_inverse_of_vmap`, `C93_rejects` | For every function f that is the batched version of g along the given axes (integers, negative integers, None, or one per argument). |
| C94 | tree_sample draws the same rows from all leaves | partial | `C94_aligned`, `C94_succeeds`, `C94_rejects`, `C94_axis_ignored`, `C94_axis_counterexample` | Holds for axis 0. False of the documented argument axis, which is ignored (C94_axis_counterexample); leaves that are not arrays raise AttributeError instead of the intended TypeError (C94_rejects). |
| C95 | Stacked networks can be addressed one by one | proved | `C95_round_trip`, `C95_rejects`, `C95_truncates` | Lists of parameters and of states of equal length; if one is shorter, networks are dropped without an error (C95_truncates). |
| C96 | double_relu loses no information | proved | `C96_splits`, `C96_injective`, `C96_magnitude` | Arrays of shape (batch, features), exact numbers. |
| C97 | Gradient diagnostics describe the whole gradient | proved | `C97_grads`, `C97_tree`, `C97_empty`, `C97_quantiles` | Exact numbers; keys of the dictionaries are not modelled. |
| C98 | Prioritized training loops keep the priorities of the latest TD errors | proved | `C98_priorities`, `C98_batches`, `C98_probability`, `C98_step`, `C98_complete`, `C98_learn`, `C98_no_errors`, `C98_first_step`, `C98_clear_counterexample` | For every updater that returns one TD error per row, every number of interleaved actors, sampled batches and updates; exact numbers. The stub dqn_per.py samples before anything is stored and raises at its first step (C98_first_step). Learning from a batch sampled before buffer.clear() is outside of the statement (C98_clear_counterexample); no example script clears this buffer. |
| C99 | On-policy loops update from the transitions of the acting policy | partial | `C99_no_errors`, `C99_when`, `C99_rounds_partial`, `C99_lost_partial`, `C99_stale_counterexample`, `C99_lost_counterexample` | The claim that a round only uses transitions of the present policy is false for the first n rows (C99_stale_counterexample), and transitions are lost if the end of an episode completes more than fit in the buffer (C99_lost_counterexample). Proved: everything else, and bounds on both. Log-propensities are assumed non-positive (see C100). |

## 3. Where the code differs from its documentation

Found while modelling. Items with a theorem name are proved; the others were seen in the source but are outside the model or not stated as properties.

**Segment tree** (`utils/_segment_tree.py`)

* The right accumulator of `partial_reduce` is combined in the wrong order, which matters for reducers that do not commute: `C03_noncommutative_counterexample`.
* A batched `partial_reduce` can raise `IndexError` for valid ranges if the capacity is a power of two: `C03_batched_crash`.
* The range `(0, 0)` returns the reduction of everything, and arguments wrap modulo the capacity: `C04_counterexample_empty_range`, `C04_wraps_around`.
* `inverse_cdf(1)` always returns the last leaf of the padded array: `C07_counterexample`.

**Experience replay**

* A stale identifier listed after a live one of the same slot restores the old priority: `C12_masking`.
* Setting `alpha` clamps priorities below 1e-15, and does nothing for changes within one per cent: `C14_clamp_counterexample`, `C14_alpha_noop`.
* Adding the same single-transition object twice aliases its `idx`: `C08_alias_counterexample`.
* `update` for an unfilled slot raises `AttributeError`, `update([], [])` raises `ValueError`: `C12_update_rejected`.
* Changing `epsilon` does not change stored priorities; `SimpleReplayBuffer` accepts a negative capacity; `sample(0)` raises `TypeError`.
* `PrioritizedReplayBuffer.add` sets `idx` on the batch before it checks the shape of `Adv`.

**Reward tracing**

* A step that `from_single` rejects is removed by `pop` before it raises: `C17_invalid_step_lost`.
* `to_singles` is documented to go in reverse order; it goes forward: `C22_to_singles`. An empty batch cannot be restored: `C22_empty_batch`.
* `n <= 0` is not rejected by `NStep`.

**Connect four**

* `set_state` always raises, because `np._base_repr` does not exist: `C27_set_state_raises`.
* Channel 0 of the observation belongs to the player who has just moved: `C28_counterexample`. The first move is made by player 2.

**Utilities and wrappers**

* An attribute deeper than 100 wrappers is reported missing: `C34_depth_limit`.
* Averages with window 0 raise, `ExponentialAverage` accepts negative windows: `C31_degenerate_window`.
* The Ornstein-Uhlenbeck noise is clipped, not the action: `C41_counterexample`. For integer actions the white noise is truncated to integers.
* `FrameStacking.step` before `reset` returns a short tuple: `C35_before_reset`.
* `TrainMonitor.reset` increments `T`: `C36_counterexample`. `get_counters` hands out live references: `C60_counterexample`. An open tensorboard writer is kept
  by `set_counters`: `C38_stale_writer`.
* `safe_sample` of a Box may leave the Box; `tree_sample` ignores its argument `axis`; the cosine embedding starts at 1, documented as 0; `_meta_policy` uses the
  removed `inspect.getargspec`; `_add_orig_to_info_dict` loses the entry if `info` is None.

**Losses and TD learning**

* The quantile Huber loss is not least at the target quantiles: `C75_counterexample`.
* The policy regularizer is subtracted from the transformed target: `C68_counterexample`. The interval loss ignores importance weights: `C69_interval_ignores`.
* Tied actions of a type-1 q-function are evaluated at the average of their one-hot vectors: `C46_qLearning_ties`.
* Distributional ExpectedSarsa averages logits: `C71_counterexample`.
* `apply_grads` sets the function state before the optimizer may raise: `C47_optimizer_error`.
* The documentation defines the TD error as minus the derivative of the loss; the code multiplies by the batch size: `C67_td_error`.
* SoftQLearning takes the soft maximum of transformed values; distributions other than the two supported leave `loss` unbound.
* The huber loss is documented without its factor 1/2: `C43_huber`.

**Distributions**

* `NormalDist.affine_transform` does not scale the mean: `C51_counterexample`.
* `SquashedNormalDist.log_proba` leaves out scale and offset of the Box: `C61_counterexample`; with the default `clip_logvar=None` it raises: `C61_default_raises`.
* The log-propensity reported with an action is that of the soft variate: `C63_counterexample`.
* `mean(s)` of a quantile q-function repeats the value of action 0: `C72_counterexample`.
* Value transforms are not undone by distributional value functions: `C73_counterexample`, `C73_counterexample_v`.
* `Discrete(n, start=k)` is treated as if `k = 0`: `C76_counterexample`.
* `DiscretizedIntervalDist` floors its logits at log 1e-16 (`C48_output_mean`), gives NaN for one bin (`C48_one_bin`) and the zero vector for X = high (`C48_preprocess_high`).
* Boxes with an integer dtype truncate logits; Box entries beyond 256 are clipped with a warning; an empty Tuple gives the number 0 instead of an array; empty
  MultiDiscrete spaces raise.

**Core**

* `soft_update` is not atomic: `C54_not_atomic`. `EpsilonGreedy` adds 1e-15 to each probability: `C52_close`.
* `SuccessorStateQ` does not undo the value transform of `r` (`C77_counterexample_reward`) and evaluates `v` at the mean successor (`C77_counterexample_mean`).
* `NStepEntropyRegularizer` counts a step after the end for selections other than 0, ..., m: `C57_counterexample`.
* `StochasticRewardFunction.__init__` ignores its arguments; `RandomPolicy` uses the missing attribute `num_actions`; `PolicyObjective.optimizer` cannot be set (it uses the
  missing attribute `_f`); `SoftPG` and `DeterministicPG` do not undo the value transform of `q_targ`.
* `Worker.rollout` passes `done=False` for the last step if the environment does not truncate itself: stated in `C58_rollout`.
* `ModelUpdater` drives the variance of a stochastic transition model to zero (`C78_stochastic`, `C78_counterexample`), compares samples of a stochastic reward function with shape (batch, bins) to
  rewards with shape (batch,) (`C78_stochastic_reward_rejected`, `C78_stochastic_reward_mixes`), rejects nested observations (`C78_tree_rejected`), and raises for a regularizer with a deterministic
  model (`C78_regularizer_deterministic`).
* `quantile_cos_embedding` uses features 1, ..., n instead of the documented 0, ..., n-1: `C80_embedding_counterexample`. The fractions of `quantiles` are left ends, so values are
  underestimated (`C80_value_bias`); those of `quantiles_uniform` have an average above 1/2 (`C80_uniform_biased`).
* `default_preprocessor` and `safe_sample` ignore the start of Discrete spaces: `C81_start_ignored`, `C82_start_counterexample`. `safe_sample` leaves Boxes that do not contain zero:
  `C82_box_counterexample`.
* `PrioritizedReplayBuffer.sample` divides the importance weights by the largest one of the batch, so the expected weighted loss is not proportional to the mean over the buffer even with
  `beta=1`; with `batch_size=1` the weights are always unchanged: `C87_batch_of_one`, `C87_counterexample`.
* DoubleQLearning is not a contraction (`C84_double_counterexample`); this is a property of the algorithm, not a fault of the code.
* Many example scripts (stubs dqn, dqn_per, qlearning, sarsa, ddpg, td3, iqn, soft_qlearning; pendulum sac and others) pass `done` instead of `done or truncated` to the tracer although they stop
  the episode at a truncation, so transitions run from one episode into the next: `C88_truncation_counterexample`. Several stubs sample a batch of 32 at the first step, which raises: `C88_ready`.
* `RandomPolicy(s, return_logp=True)` raises for Discrete spaces (`C89_discrete_raises`) and is wrong for integer Boxes (`C89_integer_counterexample`); the parameters for Boxes are those of a very
  wide normal distribution (`C89_params_counterexample`).
* `MetaPolicyEnv` uses `inspect.getargspec`, which is gone since Python 3.11 (`C91_no_getargspec`), and its `reset` takes no seed (`C91_rejects`).
* `make_dmc` ignores seed, size and number of steps if the domain and task were made before (`C92_make_first_wins`); the time limit of dm_control is reported as termination
  (`C92_time_limit_counterexample`).
* `tree_sample` ignores its argument `axis` (`C94_axis_counterexample`) and raises AttributeError instead of its own TypeError for leaves that are not arrays (`C94_rejects`).
* The docstring of `get_grads_diagnostics` promises quantiles; it returns the maximum and the norm (`C97_grads`).
* `make_dmc` identifies environments by `domain_task`, so different pairs with the same concatenation are confused: `C92_make_ambiguous`.
* The stub `dqn_per.py` samples at the first step, when the buffer is still empty, and raises: `C98_first_step`. The masking in `PrioritizedReplayBuffer.update` (`C12_masking`, the reason why C11 and C12 are
  partial) cannot be triggered by any of the training loops: `C98_learn`. Identifiers start again after `clear()`, so a batch that was sampled before is confused with new transitions: `C98_clear_counterexample`.
* The on-policy loops clear the buffer but not the tracer after a round of updates, so up to n transitions of the next round were taken by the previous policy: `C99_stale_counterexample`. If the end of an
  episode completes more transitions than fit in the buffer, the oldest are overwritten and never used: `C99_lost_counterexample`.
* `TransitionBatch.from_single` requires `logp <= 0`, but the log-density of a normal distribution is positive near its mode if the variance is small. The tracers then raise TypeError and lose the step with
  positive probability: `C100_normal_raises` (for example `doc/examples/pendulum/ppo.py:76-82`), `C100_composite_raises` for nested action spaces with a Box, `C100_squashed_raises` for `SquashedNormalDist`.
* A copy of a function approximator shares the random key, so it repeats the random numbers of the original: `C101_copy_counterexample` (for example `pi_behavior = pi.copy()`).
* `StochasticRewardFunction` ignores `num_bins`, the preprocessors, `value_transform` and `random_seed`: `C102_stochastic_reward_counterexample`.
* `Q` and `TransitionModel` initialise the network with the default preprocessor of observations even if another one is given, and raise if there is no default: `C102_q_counterexample`.
* n-step QLearning (n > 1) is not corrected for the acting policy, so its targets depend on how actions are explored: `C103_q_learning_counterexample`.
* `Worker.rollout_loop` reads `env.T` of the parameter store and writes it back in two calls; with several rollout workers steps are lost and the counter can decrease (`C105_counter_counterexample`).
* If the rollout workers stop because of the reward threshold, `learn_loop` never stops (`C105_threshold_counterexample`).
* `Worker.buffer_sample` on the parameter store waits inside the store; if its warm-up is longer than that of the learner nothing happens any more (`C105_blocked_counterexample`).
* With two learners the update of one of them is lost (`C106_two_learners_counterexample`).
* In `doc/examples/atari/apex_dqn.py` the schedule of `beta` is evaluated at `self.env.T` of the learner, which stays 0, so that `beta` stays at its first value (`C106_beta_counterexample`).
* Assigning `loss_function` of an updater has no effect on shapes that were evaluated before (`C107_loss_counterexample`), nor has a new `policy_regularizer` of another class with hyperparameters of the same
  names (`C107_regularizer_counterexample`). Assigning `gamma` of `NStepEntropyRegularizer` never has an effect (`C107_gamma_counterexample`).
* `affine_transform` of a composite distribution cannot be called with a value transform, because the compiled function lacks `static_argnums`: `C107_affine`.
* `generate_gif` omits the initial state and shows the last state twice (`C108_initial_counterexample`); if the specification has no limit of steps it raises instead of using 10000
  (`C108_no_limit_counterexample`). `render_episode` unpacks four values from `env.step` and raises for every gymnasium environment (`C108_render_five`).
* `reload_recursive` does not terminate on cyclic references (`C109_cycle`), does not order sibling submodules (`C109_order_counterexample`) and treats `pq` as a submodule of `p` (`C109_prefix_counterexample`).
* Updaters accept a `SuccessorStateQ` but `update` raises AttributeError (`C110_successor_counterexample`); they accept a list as `q_targ` (`C110_list_counterexample`) and mixtures of stochastic and
  deterministic functions (`C110_mixture_counterexample`), which cannot be used.
* The setter of `PolicyObjective.optimizer` reads `self._f`, which does not exist, so it always raises: `C110_policy_optimizer_counterexample`. The setter of `optimizer_state` accepts everything:
  `C110_optimizer_state_counterexample`.
* ExpectedSarsa evaluates a type-1 q-function once, at the vector of probabilities, instead of averaging its values over the actions: `C46_expectedSarsa_counterexample`.
* The target of a discretized interval with a policy regularizer is projected twice and is more spread out than the regularized return: `C68_interval_counterexample`.
* TD updaters with stochastic value functions give `target_func` the key from which the loss derives its own keys, so that states and next states are preprocessed with the same key
  (`C111_stochastic_counterexample`), and the target network's key is derived from that of the network that is trained (`C111_network_counterexample`).
* Policy objectives use the same key for the objective and for the regularizer (`C111_regularizer_counterexample`); SoftPG and DeterministicPG give stochastic q-functions the key from which the action
  is sampled (`C111_softpg_counterexample`); n-step entropy evaluates all states with one key (`C111_nstep_counterexample`).
* `check_preprocessors` draws new keys for every preprocessor, so that a random preprocessor does not match itself (`C112_random_counterexample`); its answer depends on the order
  (`C112_order_counterexample`) and it takes scalars for arrays (`C112_shape_counterexample`). `check_array` raises IndexError for axes that do not exist (`C112_axis_counterexample`).
* `get_transition_batch` may return importance weights that are NaN (`C113_nan_counterexample`). Its documentation says that the environment is stepped; only the spaces are used.
* `_add_a_orig_to_info_dict` loses the actions if `info` is None (`C114_none_counterexample`), and lets the list grow if the environment keeps its dict (`C114_reuse_counterexample`).
* The outputs of networks are only checked for one row and `is_training=True` (`C115_batch_counterexample`, `C115_training_counterexample`); parameters of distributions may be integers
  (`C115_dtype_counterexample`).
* `EmpiricalQuantileDist.sample` draws rows of the batch instead of values of a row: samples of a state may be values of another state (`C117_other_row_counterexample`), and for one state nothing is random
  (`C117_constant_counterexample`). `log_proba` has no batch axis (`C117_logProba_counterexample`), so that calling a `StochasticQ` with quantiles without an action raises AssertionError (`C117_call_counterexample`).
* Policies with `SquashedNormalDist` cannot be regularized by entropy or KL divergence: AttributeError (`C118_squashed_counterexample`).
* `doc/examples/stubs/td3.py` constructs both updaters without `pi_targ_list`, which raises TypeError for the continuous actions that the stub is made for (`C120_td3_counterexample`). The stubs
  `ddpg.py` and `dqn.py` sample a batch of 32 from the first step on, when the buffer has fewer transitions (see `C88_ready`).
* `StochasticQ.mean(s)` without an action returns, for quantile distributions, the mean of the first action for every action: `EmpiricalQuantileDist` inherits a `postprocess_variate` that ignores `index`
  (`C117_mean_counterexample`). With an action it is right (`C117_mean`).
* With `LogTransform` the projection of `DiscretizedIntervalDist` is not a contraction: with discount factor 1/2 the squared Cramér distance of two distributions can double (`C122_log_counterexample`; compare C84).
* `ConnectFourEnv.render` raises TypeError if the last action was a numpy integer, as sampled by `action_space` or a policy: `-(a == self._prev_action)` negates a numpy boolean (`C123_numpy_counterexample`). The comments at its table of symbols name the players of the marks the other way round; as the lookup uses the player who did not move, the picture is right (`C123_marker_partial`).
* `TransitionBatch.__eq__` zips the leaves of the batches: a batch without extra information equals any batch that only adds some (`C124_extra_counterexample`). `allclose` broadcasts: a batch of one transition equals its repetitions (`C124_repeat_counterexample`). Batches of different sizes raise ValueError instead of being unequal (`C124_sizes_counterexample`). The relation is neither symmetric nor transitive (`C124_relation_counterexample`).
* Workers pass buffers and metrics through a chain of stores to its end, but states only to the next store (`C125_chain_counterexample`). Metrics pulled from a store are averages over its whole life, as nothing resets its environment (`C125_metrics`).
* Learning quantiles with the loss of `quantile_huber` does not give quantiles where targets differ by less than about 1, the width of its quadratic part: for a return of 0 or 1 with equal probability, the values for the fractions 1/4 and 3/4 become 1/4 and 3/4 instead of 0 and 1 (`C126_counterexample`). They are quantiles up to that width (`C126_quantile`).
* The default loss of the updaters is the Huber loss with `delta = 1`. With random rewards or outcomes, the values it learns are not expected returns: for a reward of 10 with probability 1/4 and of 0 otherwise, the learned value is 1/3 in the limit instead of 5/2 (`C129_counterexample`). They are expected returns if no possible target is further than `delta` from its mean (`C129_exact_partial`); most examples in `doc/` pass `mse`.
* The `NStep` tracer with `n = 1` returns the last transition of an episode without delay and every other transition one step later. In a loop that updates in each step, the last transition of an episode therefore stays in the replay buffer for one more update than others, and the learned values are biased: for an episode that ends with probability 1/2 in each step, with reward 1 if it ends and 0 otherwise, batches of the whole buffer and `gamma = 0`, the limit is `1/2 + 1/(4 * capacity)` instead of 1/2 (`C130_counterexample`). The bias vanishes for large buffers; there is none if episodes do not end (`C130_loop_q_learning_partial`).
* With doubles, `SumTree.inverse_cdf` can return a position of value zero, or one beyond the capacity: for the values 1/4, 1/4 - 2^-53, 1 + 2^-51 and u = 1 - 2^-53, the largest number that `rand()` returns, it returns 3 (`C132_out_of_range_counterexample`, `C132_zero_weight_counterexample`). A `PrioritizedReplayBuffer` that is not full would then look up a transition that does not exist. Draws of this kind are rare: they lie within about `5 log2(capacity)` roundings of the end of an interval (`C132_share`).
* `QLearning` with transitions of an `NStep` tracer for more than one step does not learn optimal values while the agent explores: the rewards between are those of the exploring policy, and nothing corrects for it. Its limit is computed (`C135_q_learning`); it lies between the values of the exploring policy and the optimal ones, and its greedy actions can be wrong (`C135_not_optimal`). Examples in `doc/` combine `n = 5` with DDPG, TD3 and SAC.
* `Sarsa` with `BoltzmannPolicy` (`doc/examples/frozen_lake/sarsa.py`): the values that are consistent with their own policy need not be unique (`C136_boltzmann_two`, with one state, two actions, discount 0.99 and temperature 1), so what is learned may depend on the start. With `EpsilonGreedy` they are unique and the loop converges to them (`C136_sarsa`).
* `VanillaPG` with a `MonteCarlo` tracer (REINFORCE) discounts the returns but does not weigh the steps of an episode with `gamma ** t`, so its updates do not follow the gradient of the discounted return. If the policy sees the state (with the time that is left) they still climb (`C137_climbs_partial`); if not, as with the time limit of `doc/examples/frozen_lake/reinforce.py` and `gamma = 0.9`, they can lead to the worst of all policies (`C137_discounting_counterexample`: two steps that look the same, `gamma = 1/2`). Without discounting they climb in any case.
* `SuccessorStateQ` knows nothing of ends of episodes: it adds `gamma` times the value of the next state also if the episode ends there, and `SimpleTD` never updates the values of such states, as the tracer is not given them. A table that does not start with 0 there makes the policy prefer, or avoid, the end of the episode forever (`C140_terminal_counterexample`); if it starts with 0, then the loop of `doc/examples/cartpole/model_based.py` with an exact model learns the values of the best policy that explores (`C140_planner_partial`).
* The views returned by `tree.values` and `tree[level]` (class docstring: do not write to them): a write to `values` is forgotten by the root until the next `set_values` on that position or its sibling (`C141_view_write_stale`, `C141_view_write_repair`), while a write to an inner level can hit a node above padding only, which no call of `set_values` ever recomputes (`C141_inner_view_write`).
* `PrioritizedReplayBuffer.clear` makes a new `SumTree` with the seed of the buffer, so the random numbers start again: a loop that clears, fills and samples uses the same numbers in every round and, with equal advantages, never draws some of the positions (`C143_rounds_repeat`). `SimpleReplayBuffer.clear` goes on instead (`C143_simple_counterexample`). `SimpleReplayBuffer.sample` protects itself from changes of the global state of `random`, but not the other way: it sets that state to its own, and what the program draws from `random` next comes from the state from which the buffer draws next (`C143_simple_takes_over`).
* `coax.utils.dump` opens the file for writing before it calls `pickle.dumps`. If the object cannot be serialised, the checkpoint that was there is gone and `load` raises `EOFError` (`C144_failed_dump_counterexample`). Serialising first, or writing to a temporary file, would avoid it.
* `ProbaDist.affine_transform` is jitted without `static_argnums=(3,)`, unlike those of the other distributions, so it raises TypeError with any value transform (`C146_value_transform_counterexample`).
* With a tracer for more than one step, `EntropyRegularizer` adds the entropy of the first state of each transition only, so the values learned are not the returns with entropies of the policy; `NStepEntropyRegularizer` does not accept discrete actions (`C147_nstep_counterexample`).
* With a value function that is linear in its params, `SimpleTD` converges on the transitions of complete episodes, but diverges on some batches that a replay buffer may return, with every learning rate and also with a target network (`C149_off_policy_counterexample`, `C149_target_counterexample`).
* With a q-function that is linear in its params, `Sarsa` converges on the transitions of complete episodes, but `QLearning` diverges on one complete episode of two steps, with every learning rate (`C150_qlearning_counterexample`).
* With the default loss function (Huber), `SimpleTD` and `Sarsa` with linear functions can diverge on the transitions of a complete episode, from zero params and with every learning rate, though some params give exactly the right values; with `mse` they converge (`C151_counterexample`, `C151_sarsa_counterexample`).
* `ExpectedSarsa` with a linear q-function diverges on one complete episode in which the policy takes the less likely of two actions (`C152_counterexample`); `Sarsa` converges on it.
* `StochasticQ.example_data` raises TypeError without a range of values, though the constructor accepts this and makes a function with quantiles (`C153_quantile_counterexample`); `StochasticTransitionModel.example_data` has no argument for the preprocessor of observations (`C153_stochastic_transition_model_counterexample`).


## 4. Trusted base

* The Lean 4.33.0 kernel, and Mathlib as installed (its theorems are checked by the same kernel).
* Axioms: only `propext`, `Classical.choice` and `Quot.sound`. There are no own axioms, no `sorry`, no `native_decide` or `bv_decide`, no
  `unsafe` or `implemented_by`. The appendix lists the axioms of every theorem of the manifest.
* The reading of the Python source. The model is written by hand; /repo was read as text and never executed.
* The behaviour of the libraries as documented: numpy (fancy assignment in order, `unique`, `where`, `isclose`), jax (`tree_map` is
  leafwise, `jnp.take` fills, `jit` does not change results, `grad` is the derivative), optax and haiku (arbitrary functions), gymnasium
  (`contains`, spaces), Python's `random`, `deque` and dicts (insertion order).
* The specifications: the definitions in the `Spec` files and at the head of the `Props` files.

Which parts of the code are modelled (paths below `coax/`, modules below `Verif/`):

| Source | Model | Modelled | Not modelled |
|---|---|---|---|
| `utils/_segment_tree.py` | SegmentTree | all of SegmentTree with lookups and SumTree, exactly and with rounded operations; MinTree/MaxTree are the same model with another reducer | `__repr__`, dtypes, `_check_*` on non-arrays other than the error branch |
| `utils/_array.py` | Utils/Chunks, Stepwise, Dicts, DiffTransform, Preprocess, ArgMax, Tensor, Diagnostics; parts in Dists | `chunks_pow2`, `StepwiseLinearFunction`, `merge_dicts`, `sync_shared_params`, `clipped_logit`, `diff_transform`, `default_preprocessor`, `batch_to_single`, `single_to_batch`, `safe_sample`, `argmax`, `argmin`, `unvectorize`, `tree_sample`, `stack_trees`, `double_relu`, `tree_ravel`, `get_grads_diagnostics`, `get_magnitude_quantiles` | the other helpers (see section 5) |
| `utils/_quantile_funcs.py` | Utils/Quantiles | all | `quantile_cos_embedding` for one fraction |
| `model_updaters/_model_updater.py` | Dyn/Updater | loss and regularizer for all four kinds of model | `apply_grads`/`update` (as in TD/Update), metrics other than the loss |
| `utils/_misc.py` | Utils/EnvAttr, Utils/Render, Utils/Reload, Utils/Pickle, Core | `get_env_attr`, `has_env_attr`, `generate_gif`, `render_episode`, `reload_recursive`, `dump(s)`, `load(s)`, the `is_*` functions | `docstring`, `enable_logging`, `pretty_repr`, `pretty_print`, `getattr_safe` |
| `utils/_rolling.py` | Utils/Rolling | all |  |
| `utils/_action_noise.py` | Utils/ActionNoise | all (float actions) | integer actions |
| `experience_replay/_simple.py` | Replay/Simple | all | argument type checks |
| `experience_replay/_prioritized.py` | Replay/Prioritized, Replay/Seeded | all | `__repr__` |
| `reward_tracing/_*.py` | RewardTracing | all; `TransitionBatch` as a list of pytrees of rows | `isinstance` checks, `copy` |
| `envs/_connect_four.py` | ConnectFour | all but `render` | rendering |
| `wrappers/_train_monitor.py` | Wrappers/TrainMonitor, Counters, StreamingSample | all but logging; histograms of tensorboard are not modelled | logging, wall-clock `dt_ms` |
| `wrappers/_frame_stacking.py` | Wrappers/FrameStacking | all |  |
| `wrappers/_box_spaces.py` | Wrappers/BoxSpaces | both wrappers, Box shapes other than () | info dict handling |
| `wrappers/_meta_policy.py` | Wrappers/MetaPolicy | all |  |
| `utils/_dmc_gym.py` | Utils/Dmc | `make_dmc`, `step`, `extract_min_max`, `spec_to_box`, `flatten_obs` | rendering, rounding to float32, dm_control itself, bounds with several axes that happen to broadcast |
| `_core/random_policy.py, transition_model.py` | Core/RandomPolicy, TransitionModel | all of RandomPolicy; `__call__` and the function views | values of `example_data` |
| `_core/{v,q,policy,stochastic_*,transition_model}.py (constructors)` | Core/Construct | arguments, defaults, signature checks | `_check_output` |
| `_base/mixins/{_random_state,_copy}.py` | Core/Keys, Core/Agent | all | collisions of hashed keys |
| `doc/examples/stubs/*.py, doc/examples/frozen_lake/*.py, doc/examples/cartpole/dqn.py, doc/examples/atari/{dqn_per,apex_dqn,ppo}.py, doc/examples/pendulum/ppo.py` | Loop/Dqn, Loop/Per, Loop/OnPolicy, Loop/Online, Loop/Tabular, Loop/Schedule, Loop/OnlineTarget, Loop/Replay, Loop/Closed, Loop/Clipped, Loop/Reinforce, Loop/Expected, Loop/Acting, Loop/DqnActing, Loop/Planner, Loop/Regularized, Loop/Linear, Loop/LinearQ, Loop/RegularizedSteps, Loop/TabularV | collecting, sampling and targets | the update of parameters, environments |
| `value_transforms, value_losses` | Values | all |  |
| `td_learning/*.py` | TD | targets of all updaters, loss, TD error, update; deterministic and distributional | metrics dict |
| `policy_objectives/*.py` | Policy/Objectives, TD/Update | losses of all objectives, update | autodiff through networks |
| `regularizers/*.py` | Policy/Regularizers, Policy/NestedRegularizers | all three regularizers, all distributions |  |
| `proba_dists/*.py` | Dists | Categorical, Normal, SquashedNormal, DiscretizedInterval, EmpiricalQuantile (affine, mean), composite | `hyperparams` |
| `_core/q.py, v.py, base_func.py, base_stochastic_func_type*.py, value_based_policy.py, successor_state_q.py, worker.py` | Core, Core/Agent, Core/Example | function views, calls, soft update, policies, references between objects, worker loops, `example_data` | values of the outputs of `example_data`, jit |

Not modelled at all: `envs` rendering, `utils/_dmc_gym.py`, `utils/_jit.py`, `utils/_misc.py` apart from attribute lookup,
`_core/random_policy.py`, `model_updaters`, `example_data` and signature checks of the function approximators, logging, pickling of functions,
threads and ray (the worker is modelled as sequential calls).

## 5. Axioms per theorem

no axioms:

`Core.C102_stochastic_reward_counterexample`, `Reload.C109_argument`, `Core.C111_regularizer_counterexample`, `Core.C125_threshold`, `Core.C58_no_policy`, `Pol.C65_batch_eval`.

`propext`:

`SegmentTree.C03_noncommutative_counterexample`, `Replay.C08_alias_counterexample`, `Core.C102_signature`, `Core.C105_counter_counterexample`, `Core.C105_blocked_counterexample`, `Core.C106_two_learners_counterexample`, `Core.C106_beta_counterexample`, `Render.C108_frames`, `Render.C108_steps`, `Render.C108_errors`, `Render.C108_render_four_partial`, `Render.C108_no_limit_counterexample`, `Kinds.C110_predicates`, `Kinds.C110_others`, `Kinds.C110_optimizer`, `Kinds.C110_successor_counterexample`, `Kinds.C110_list_counterexample`, `Kinds.C110_mixture_counterexample`, `Kinds.C110_policy_optimizer_counterexample`, `Kinds.C110_optimizer_state_counterexample`, `Core.C111_stochastic_counterexample`, `Core.C111_network_counterexample`, `Core.C111_nstep_counterexample`, `Utils.C112_axis_counterexample`, `OrigInfo.C114_none_counterexample`, `Core.C115_batch_counterexample`, `Core.C115_training_counterexample`, `Agent.C120_td3_counterexample`, `Core.C125_env_rejects`, `Persist.C144_load_errors`, `Core.C153_quantile_counterexample`, `EnvAttr.C34_env`, `Utils.C92_make_first_wins`, `Utils.C94_rejects`, `Utils.C94_axis_ignored`, `Utils.C94_axis_counterexample`, `Utils.C95_truncates`.

`Quot.sound`, `propext`:

`Replay.C08_add_succeeds`, `Replay.C08_add_errors`, `Replay.C09_sample`, `Replay.C09_sample_effects`, `Replay.C09_independent_of_global_random`, `Replay.C09_successive_samples`, `Core.C101_keys`, `Core.C101_fresh_partial`, `Core.C101_copy_counterexample`, `Core.C102_v`, `Core.C102_policy`, `Core.C102_stochastic_q`, `Core.C102_stochastic_v`, `Core.C102_stochastic_transition_model`, `Core.C102_q_partial`, `Core.C102_transition_model_partial`, `Core.C102_example_partial`, `Core.C102_q_counterexample`, `Core.C102_stochastic_reward_partial`, `Core.C105_counter_partial`, `Core.C105_threshold_counterexample`, `Core.C106_batches`, `Core.C106_pulls_latest`, `Jit.C107_affine`, `Jit.C107_beta`, `Render.C108_render_five`, `Render.C108_initial_counterexample`, `Reload.C109_submodules`, `Reload.C109_external`, `Kinds.C110_simple_td`, `Kinds.C110_sarsa`, `Kinds.C110_other_td`, `Kinds.C110_usable`, `Kinds.C110_accepted_usable_partial`, `Core.C111_policy_iff`, `Core.C111_softpg_counterexample`, `Core.C111_model`, `Core.C111_training_partial`, `Utils.C112_array`, `OrigInfo.C114_reuse_counterexample`, `Core.C115_accepted`, `Core.C115_rows_partial`, `Core.C115_example`, `Core.C115_dtype_counterexample`, `Core.C115_list`, `Agent.C120_depends`, `Agent.C120_no_target`, `Agent.C120_clipped`, `Agent.C120_seed`, `Core.C125_root`, `Core.C125_buffer`, `Core.C125_no_buffer`, `Core.C125_shared_buffer`, `Core.C125_metrics`, `Core.C125_state`, `Core.C125_env`, `Replay.C143_simple_cleared`, `Replay.C143_simple_takes_over`, `Persist.C144_restored`, `Persist.C144_resume`, `Persist.C144_separate`, `Persist.C144_files`, `Persist.C144_failed_dump_counterexample`, `Persist.C144_docstring`, `Core.C153_state`, `Core.C153_stochastic_v`, `Core.C153_q`, `Core.C153_stochastic_q_partial`, `Core.C153_stochastic_transition_model_partial`, `Core.C153_stochastic_transition_model_counterexample`, `Core.C153_reward_partial`, `Core.C153_reward_counterexample`, `RewardTracing.C21_from_single_value`, `Batching.C22_to_singles`, `Batching.C22_concat`, `Batching.C22_split_concat`, `Batching.C22_empty_batch`, `Rolling.C31_degenerate_window`, `Dicts.C32_default_weights`, `Dicts.C32_guards`, `Dicts.C33_last_wins`, `EnvAttr.C34_get_found`, `EnvAttr.C34_get_missing`, `EnvAttr.C34_agree`, `EnvAttr.C34_depth_limit`, `EnvAttr.C34_stack`, `FrameStacking.C35_no_padding`, `FrameStacking.C35_before_reset`, `FrameStacking.C35_rejects`, `TrainMonitor.C37_rejects_T`, `TrainMonitor.C37_no_interference`, `TrainMonitor.C38_metrics`, `TrainMonitor.C38_metrics_rejects`, `TrainMonitor.C38_round_trip`, `TrainMonitor.C38_transfer`, `TrainMonitor.C38_rejects`, `TrainMonitor.C38_accepts`, `TrainMonitor.C38_save_load`, `TrainMonitor.C38_stale_writer`, `TrainMonitor.heap_refines`, `TrainMonitor.C38_writer`, `TrainMonitor.C38_no_writer`, `TrainMonitor.C38_new_directory`, `TrainMonitor.C38_heap`, `ActionNoise.C41_recurrence`, `ActionNoise.C41_reset`, `ActionNoise.C41_reverts`, `ActionNoise.C41_defaults`, `TD.C47_nan`, `TD.C47_inversion`, `Core.C54_soft_update`, `Core.C54_rejects`, `Core.C54_not_atomic`, `Core.C54_tau_one`, `Core.C54_tau_zero`, `Core.C54_geometric`, `Pol.C57_right_iff`, `Pol.C57_one_off_partial`, `Pol.C57_steps`, `TrainMonitor.C60_snapshot_partial`, `TrainMonitor.C60_metrics`, `Pol.C64_soft_checks`, `Core.C66_accepts`, `Utils.C92_make_partial`, `Utils.C92_make_ambiguous`, `Utils.C92_make_counterexample`, `Utils.C95_rejects`.

`Classical.choice`, `Quot.sound`, `propext`:

`SegmentTree.C01_root_is_reduction`, `SegmentTree.C01_nodes_consistent`, `SegmentTree.C02_writes_are_read_back`, `SegmentTree.C02_broadcast_write`, `SegmentTree.C02_write_all`, `SegmentTree.C02_rejected`, `SegmentTree.C03_partial_reduce_partial`, `SegmentTree.C03_partial_reduce_batched_partial`, `SegmentTree.C03_batched_crash`, `SegmentTree.C03_batched_counterexample`, `SegmentTree.C04_empty_rejected_partial`, `SegmentTree.C04_counterexample_empty_range`, `SegmentTree.C04_wraps_around`, `SegmentTree.C05_inverse_cdf`, `SegmentTree.C05_index_unique`, `SegmentTree.C06_sample_interval`, `SegmentTree.C06_sample_indices`, `SegmentTree.C06_sample_probability`, `SegmentTree.C07_rejections`, `SegmentTree.C07_endpoint`, `SegmentTree.C07_closed_interval_partial`, `SegmentTree.C07_counterexample`, `Replay.C08_keeps_most_recent`, `Replay.C10_keeps_most_recent`, `Replay.C10_iteration`, `Replay.C10_add_rejected`, `Replay.C10_init`, `RewardTracing.C100_discrete`, `RewardTracing.C100_normal_partial`, `RewardTracing.C100_normal_raises`, `RewardTracing.C100_composite_partial`, `RewardTracing.C100_composite_discrete`, `RewardTracing.C100_composite_raises`, `RewardTracing.C100_squashed_raises`, `Loop.C103_simple_td`, `Loop.C103_sarsa`, `Loop.C103_sarsa_discrete`, `Loop.C103_q_learning`, `Loop.C103_fixed_point`, `Loop.C103_monte_carlo`, `Loop.C103_q_learning_counterexample`, `Loop.C104_q_learning`, `Loop.C104_expected_sarsa`, `Loop.C104_soft_q_learning`, `Loop.C104_optimal`, `Loop.C104_greedy_policy`, `Loop.C104_online_q_learning`, `Loop.C104_online_expected_sarsa`, `Loop.C104_online_soft_q_learning`, `Core.C105_at_most`, `Core.C105_finitely_many`, `Core.C105_rollouts_stop_partial`, `Core.C105_all_stop_partial`, `Core.C106_single_learner_partial`, `Jit.C107_result`, `Jit.C107_transparent`, `Jit.C107_nstep`, `Jit.C107_updater_partial`, `Jit.C107_gamma_counterexample`, `Jit.C107_loss_counterexample`, `Jit.C107_regularizer_counterexample`, `Jit.C107_reload_counterexample`, `Reload.C109_cycle`, `Reload.C109_order_counterexample`, `Reload.C109_prefix_counterexample`, `Replay.C11_weights_partial`, `Replay.C11_weights`, `Replay.C11_normaliser`, `Replay.C11_sampling_probability`, `Kinds.C110_clipped`, `Core.C111_td_iff`, `Utils.C112_result`, `Utils.C112_few`, `Utils.C112_deterministic_partial`, `Utils.C112_random_counterexample`, `Utils.C112_sample_counterexample`, `Utils.C112_order_counterexample`, `Utils.C112_shape_counterexample`, `Utils.C113_valid_partial`, `Utils.C113_errors`, `Utils.C113_nan_counterexample`, `OrigInfo.C114_step_partial`, `OrigInfo.C114_history_partial`, `OrigInfo.C114_errors`, `OrigInfo.C114_reals`, `Core.C116_batch_state`, `Core.C116_batch_action`, `Core.C116_batch_point`, `Core.C116_call`, `Core.C116_point`, `Core.C116_states`, `Core.C116_law`, `Core.C117_sample_partial`, `Core.C117_other_row_counterexample`, `Core.C117_constant_counterexample`, `Core.C117_logProba_counterexample`, `Core.C117_call_counterexample`, `Core.C117_call_action`, `Core.C117_mean`, `Core.C117_mean_counterexample`, `Pol.C118_entropy_partial`, `Pol.C118_kl_partial`, `Pol.C118_priors_partial`, `Pol.C118_squashed_counterexample`, `Loop.C119_q_learning`, `Loop.C119_expected_sarsa`, `Loop.C119_soft_q_learning`, `Loop.C119_online_q_learning`, `Loop.C119_online_expected_sarsa`, `Loop.C119_online_soft_q_learning`, `Loop.C119_epsilon_greedy_explores`, `Loop.C119_boltzmann_explores`, `Replay.C12_stale_updates_harmless`, `Replay.C12_update_exact`, `Replay.C12_mixed_updates_partial`, `Replay.C12_masking`, `Replay.C12_update_rejected`, `Agent.C120_references`, `Agent.C120_weights`, `Agent.C120_keys`, `Agent.C120_optimizers`, `Agent.C120_exploration`, `Agent.C120_update`, `Agent.C120_target_fixed`, `Agent.C120_copy`, `Agent.C120_derived`, `Agent.C120_derived_set`, `Agent.C120_ddpg`, `Agent.C120_dqn`, `Agent.C120_draw`, `Agent.C120_key_chain`, `Agent.C120_no_key_twice`, `Loop.C121_value`, `Loop.C121_optimal`, `Loop.C121_mode`, `Loop.C121_soft_optimal`, `Loop.C121_evaluation`, `Loop.C121_epsilon_improvement`, `Loop.C121_soft_improvement`, `Loop.C121_epsilon_loss`, `Loop.C121_learned`, `Loop.C121_learned_online`, `Dists.C122_projection`, `Dists.C122_discount`, `Dists.C122_metric`, `Dists.C122_mixture`, `Dists.C122_output`, `Dists.C122_log_counterexample`, `Loop.C122_least_loss`, `Loop.C122_evaluation`, `Loop.C122_sweep_exists`, `Loop.C122_mean`, `Loop.C122_learned_mean`, `Loop.C122_control`, `ConnectFour.C123_board_partial`, `ConnectFour.C123_injective`, `ConnectFour.C123_marker_partial`, `ConnectFour.C123_numpy_counterexample`, `ConnectFour.C123_start`, `ConnectFour.C123_mask`, `Batching.C124_same_shape_partial`, `Batching.C124_refl`, `Batching.C124_extra_counterexample`, `Batching.C124_repeat_counterexample`, `Batching.C124_sizes_counterexample`, `Batching.C124_relation_counterexample`, `Batching.C124_tuple`, `Batching.C124_defaults`, `Core.C125_chain_counterexample`, `Loop.C126_evaluation`, `Loop.C126_sweep_exists`, `Loop.C126_quantile`, `Loop.C126_certain`, `Loop.C126_counterexample`, `Loop.C127_double_q_learning`, `Loop.C127_sarsa`, `Loop.C127_online_double_q_learning`, `Loop.C127_online_sarsa`, `Loop.C128_simple_td`, `Loop.C128_online_simple_td`, `Loop.C129_q_learning`, `Loop.C129_expected_sarsa`, `Loop.C129_soft_q_learning`, `Loop.C129_unique`, `Loop.C129_exact_partial`, `Loop.C129_converges`, `Loop.C129_online_q_learning`, `Loop.C129_online_exact_partial`, `Loop.C129_counterexample`, `Replay.C13_importance_weights`, `Replay.C13_factors`, `Replay.C13_sample_rejected`, `Loop.C130_q_learning`, `Loop.C130_expected_sarsa`, `Loop.C130_soft_q_learning`, `Loop.C130_loop_q_learning_partial`, `Loop.C130_loop_expected_sarsa_partial`, `Loop.C130_loop_soft_q_learning_partial`, `Loop.C130_counterexample`, `Loop.C131_epsilon_greedy`, `Loop.C131_boltzmann`, `Loop.C131_soft_q_learning`, `Loop.C131_trajectory`, `Loop.C131_variates`, `Loop.C131_example`, `SegmentTree.C132_no_drift`, `SegmentTree.C132_root_error`, `SegmentTree.C132_inverse_cdf`, `SegmentTree.C132_share`, `SegmentTree.C132_error_small`, `SegmentTree.C132_doubles`, `SegmentTree.C132_grid_partial`, `SegmentTree.C132_out_of_range_counterexample`, `SegmentTree.C132_zero_weight_counterexample`, `Loop.C133_clipped_double_q_learning`, `Loop.C134_sarsa`, `Loop.C134_expected_sarsa`, `Loop.C134_simple_td`, `Loop.C135_q_learning`, `Loop.C135_at_most_optimal`, `Loop.C135_at_least_policy`, `Loop.C135_one_step`, `Loop.C135_optimal_policy`, `Loop.C135_not_optimal`, `Loop.C136_sarsa`, `Loop.C136_schedule`, `Loop.C136_boltzmann`, `Loop.C136_boltzmann_two`, `Loop.C136_boltzmann_near`, `Loop.C136_example`, `Loop.C137_climbs_partial`, `Loop.C137_two_steps`, `Loop.C137_discounting_counterexample`, `Loop.C137_undiscounted`, `Loop.C138_epsilon_greedy`, `Loop.C138_boltzmann`, `Loop.C138_boltzmann_limit`, `Loop.C138_example`, `Loop.C139_boltzmann`, `Loop.C139_epsilon_greedy`, `Loop.C139_example`, `Replay.C14_alpha_change_partial`, `Replay.C14_alpha_change_exact`, `Replay.C14_alpha_noop`, `Replay.C14_clamp_counterexample`, `Loop.C140_planner_partial`, `Loop.C140_terminal_counterexample`, `Loop.C140_example`, `SegmentTree.C141_levels`, `SegmentTree.C141_entries`, `SegmentTree.C141_view_write`, `SegmentTree.C141_view_write_stale`, `SegmentTree.C141_view_write_repair`, `SegmentTree.C141_inner_view_write`, `Loop.C142_boltzmann_partial`, `Loop.C142_epsilon_greedy_partial`, `Loop.C142_soft_q_learning_partial`, `Loop.C142_trajectory_partial`, `Loop.C142_shuffles`, `Loop.C142_example`, `Replay.C143_reproducible`, `Replay.C143_cleared_as_new`, `Replay.C143_numbers`, `Replay.C143_numbers_without_seed`, `Replay.C143_rounds_repeat`, `Replay.C143_simple_counterexample`, `Replay.C143_example`, `Dists.C145_sample`, `Dists.C145_mode`, `Dists.C146_affine_transform_partial`, `Dists.C146_discrete`, `Dists.C146_rejects`, `Dists.C146_value_transform_counterexample`, `Loop.C147_same_update`, `Loop.C147_same_update_kl`, `Loop.C147_same_loop`, `Loop.C147_simple_td`, `Loop.C147_sarsa`, `Loop.C147_expected_sarsa`, `Loop.C147_improvement`, `Loop.C147_nstep_counterexample`, `Loop.C147_nstep_exists`, `Loop.C147_nstep_one`, `Loop.C147_nstep_simple_td`, `Loop.C147_nstep_sarsa`, `Loop.C147_nstep_expected_sarsa`, `Loop.C147_nstep_q_learning`, `Core.C148_inputs`, `Core.C148_q`, `Core.C148_others`, `Core.C148_given`, `Core.C148_training`, `Core.C148_calls`, `Core.C148_no_rows`, `Core.C148_start_counterexample`, `Core.C148_ragged_counterexample`, `Loop.C149_update`, `Loop.C149_exists`, `Loop.C149_unique`, `Loop.C149_converges`, `Loop.C149_error`, `Loop.C149_episodes`, `Loop.C149_pipeline`, `Loop.C149_minibatches`, `Loop.C149_draws`, `Loop.C149_target`, `Loop.C149_empirical`, `Loop.C149_empirical_unique`, `Loop.C149_off_policy_counterexample`, `Loop.C149_target_counterexample`, `Loop.C149_empty`, `RewardTracing.C15_nstep_transitions`, `RewardTracing.C15_not_premature`, `Loop.C150_update`, `Loop.C150_converges`, `Loop.C150_minibatches`, `Loop.C150_target`, `Loop.C150_empirical`, `Loop.C150_qlearning_update`, `Loop.C150_qlearning_counterexample`, `Loop.C150_empty`, `Loop.C151_update`, `Loop.C151_bounded`, `Loop.C151_near`, `Loop.C151_counterexample`, `Loop.C151_sarsa_counterexample`, `Loop.C152_update`, `Loop.C152_converges`, `Loop.C152_unique`, `Loop.C152_target`, `Loop.C152_episodes`, `Loop.C152_counterexample`, `Loop.C152_error`, `Loop.C152_empirical`, `Loop.C152_minibatches`, `Utils.C154_seed`, `Utils.C154_reproducible`, `Utils.C154_last_seed`, `Utils.C154_rejects`, `Utils.C154_calls`, `RewardTracing.C16_no_loss_no_duplication`, `RewardTracing.C16_all_popped`, `RewardTracing.C17_add`, `RewardTracing.C17_bool`, `RewardTracing.C17_pop`, `RewardTracing.C17_flush`, `RewardTracing.C17_invalid_step_lost`, `RewardTracing.C18_extra_info`, `RewardTracing.C19_returns`, `RewardTracing.C19_no_loss`, `RewardTracing.C19_bool`, `RewardTracing.C19_add`, `RewardTracing.C19_pop`, `RewardTracing.C19_flush`, `RewardTracing.C20_nstep_montecarlo`, `RewardTracing.C21_from_single_rejects`, `Batching.C22_concat_split`, `Batching.C22_concat_rejects`, `ConnectFour.C23_position`, `ConnectFour.C23_no_gaps`, `ConnectFour.C23_available`, `ConnectFour.C23_token_counts`, `ConnectFour.C23_step`, `ConnectFour.C24_win_detection`, `ConnectFour.C25_episode_length`, `ConnectFour.C26_errors`, `ConnectFour.C27_length`, `ConnectFour.C27_injective`, `ConnectFour.C27_round_trip_partial`, `ConnectFour.C27_set_state_raises`, `ConnectFour.C28_observation_partial`, `ConnectFour.C28_step_observation`, `ConnectFour.C28_counterexample`, `Chunks.C29_partition`, `Chunks.C29_sizes`, `Chunks.C29_concat`, `Chunks.C29_empty`, `Stepwise.C30_accepts`, `Stepwise.C30_interpolates`, `Stepwise.C30_total`, `Stepwise.C30_at_steps`, `Stepwise.C30_bounds`, `Stepwise.C30_continuous`, `Rolling.C31_rolling_total`, `Rolling.C31_rolling`, `Rolling.C31_exponential_total`, `Rolling.C31_exponential_mean`, `Rolling.C31_exponential_smoothing`, `Rolling.C31_exponential_bounds`, `Dicts.C32_sync`, `Dicts.C32_idempotent`, `Dicts.C32_structure_mismatch`, `Dicts.C33_keys`, `Dicts.C33_warning`, `EnvAttr.C34_has`, `FrameStacking.C35_reset`, `FrameStacking.C35_step`, `TrainMonitor.C36_counters_partial`, `TrainMonitor.C36_avg_G`, `TrainMonitor.C36_avg_G_mean`, `TrainMonitor.C36_step_result`, `TrainMonitor.C36_counterexample`, `TrainMonitor.C37_call`, `TrainMonitor.C37_rejects`, `TrainMonitor.C37_once_per_period`, `TrainMonitor.C37_fires_iff`, `TrainMonitor.C37_catch_up`, `Streaming.C39_sample`, `Streaming.C39_all_held`, `Streaming.C39_uniform`, `Streaming.C39_certain`, `TrainMonitor.C39_monitor`, `BoxSpaces.C40_accepts`, `BoxSpaces.C40_in_bin`, `BoxSpaces.C40_tiling`, `BoxSpaces.C40_surjective`, `BoxSpaces.C40_rejects`, `BoxSpaces.C40_reals_inside`, `BoxSpaces.C40_reals_accepts`, `BoxSpaces.C40_reals_monotone`, `BoxSpaces.C40_reals_surjective`, `ActionNoise.C41_bounds_partial`, `ActionNoise.C41_counterexample`, `Values.C42_accepts`, `Values.C42_inverse`, `Values.C42_odd`, `Values.C42_strictMono`, `Values.C42_compresses`, `Values.C42_near_identity`, `Values.C43_mse`, `Values.C43_huber_shape`, `Values.C43_huber`, `Values.C43_convex`, `Values.C43_huber_lipschitz`, `Values.C43_logloss_sign`, `Values.C43_logloss_agree`, `Values.C43_logloss`, `Values.C43_weights`, `Values.C43_mse_batch`, `Values.C43_huber_batch`, `Values.C43_empty`, `Values.C43_empty_losses`, `Values.C44_weights`, `Values.C44_elementwise`, `Values.C44_batch`, `TD.C45_simpleTD`, `TD.C45_sarsa`, `TD.C45_sarsaCont`, `TD.C45_qLearning`, `TD.C45_qLearningCont`, `TD.C45_doubleQLearning`, `TD.C45_doubleQLearningCont`, `TD.C45_expectedSarsa`, `TD.C45_softQLearning`, `TD.C45_clippedDoubleQ`, `TD.C45_clippedDoubleQCont`, `Dists.C45_distributional`, `TD.C46_qLearning_partial`, `TD.C46_qLearning_ties`, `TD.C46_doubleQLearning_partial`, `TD.C46_double_eq_single`, `TD.C46_expectedSarsa_partial`, `TD.C46_softQLearning`, `TD.C46_clipped_partial`, `TD.C46_clippedCont`, `TD.C46_sarsa`, `TD.C46_simpleTD`, `TD.C46_sarsaCont`, `TD.C46_qLearningCont`, `TD.C46_doubleQLearningCont`, `TD.C46_clipped_accepts`, `TD.C46_expectedSarsa_type1`, `TD.C46_expectedSarsa_type1_iff`, `TD.C46_expectedSarsa_type1_partial`, `TD.C46_expectedSarsa_counterexample`, `TD.C47_update`, `TD.C47_optimizer_error`, `Dists.C48_projection`, `Dists.C48_mean`, `Dists.C48_output`, `Dists.C48_output_mean`, `Dists.C48_sorted`, `Dists.C48_one_bin`, `Dists.C48_preprocess_high`, `Dists.C49_probabilities`, `Dists.C49_logProba`, `Dists.C49_shift`, `Dists.C49_formulas`, `Dists.C49_kl_eq`, `Dists.C49_kl_nonneg`, `Dists.C49_entropy_bounds`, `Dists.C49_round_trip`, `Dists.C49_one_hot`, `Dists.C49_mode`, `Dists.C49_sample`, `Dists.C49_batch`, `Dists.C49_batch_rejects`, `Dists.C49_default_priors`, `Dists.C49_sizes`, `Dists.C50_log_proba`, `Dists.C50_log_proba_constant`, `Dists.C50_sample_law`, `Dists.C50_cross_entropy`, `Dists.C50_entropy`, `Dists.C50_kl_eq`, `Dists.C50_kl_nonneg`, `Dists.C50_init`, `Dists.C50_postprocess_in_box`, `Dists.C50_round_trip`, `Dists.C50_action_round_trip`, `Dists.C51_affine_transform_partial`, `Dists.C51_counterexample`, `Core.C52_rule`, `Core.C52_probabilities`, `Core.C52_close`, `Core.C52_sampled`, `Core.C52_mode`, `Core.C53_boltzmann`, `Core.C53_shift`, `Core.C53_limits`, `Core.C53_sampled`, `Core.C53_mode`, `Core.C54_stays_between`, `Core.C55_type2_view`, `Core.C55_type1_view`, `Core.C55_rejects`, `Core.C55_agree`, `Core.C55_call`, `Pol.C56_objective`, `Pol.C56_le_surrogate`, `Pol.C56_no_incentive`, `Pol.C56_gradient`, `Pol.C56_on_policy`, `Pol.C56_rejects`, `Pol.C57_counterexample`, `Pol.C57_value_partial`, `Pol.C57_contiguous_partial`, `Pol.C57_unsorted`, `Pol.C57_rejects`, `Core.C58_rollout`, `Core.C58_raises`, `Core.C58_once`, `Core.C59_first`, `Core.C59_chain`, `Core.C59_returns`, `TrainMonitor.C60_counterexample`, `Dists.C61_in_box`, `Dists.C61_default_raises`, `Dists.C61_log_proba_of_tanh`, `Dists.C61_log_proba_partial`, `Dists.C61_counterexample`, `Dists.C62_sample_distribution`, `Core.C63_log_propensity_partial`, `Core.C63_counterexample`, `Pol.C64_loss`, `Pol.C64_mismatch`, `Pol.C64_soft`, `Pol.C64_deterministic`, `Pol.C64_broadcast`, `Pol.C65_entropy`, `Pol.C65_default_priors`, `Pol.C65_kl`, `Core.C66_push_pull`, `TD.C67_td_error`, `TD.C67_gradient`, `TD.C67_sign`, `TD.C67_total`, `TD.C68_shift`, `TD.C68_deterministic_partial`, `TD.C68_quantile`, `TD.C68_counterexample`, `TD.C68_interval_partial`, `TD.C68_interval_counterexample`, `TD.C69_deterministic_partial`, `TD.C69_quantile`, `TD.C69_interval_ignores`, `TD.C69_counterexample`, `TD.C70_sarsa`, `TD.C70_qLearning`, `TD.C70_doubleQLearning`, `TD.C70_simpleTD`, `TD.C70_qLearningCont`, `TD.C70_doubleQLearningCont`, `TD.C70_clippedCont`, `TD.C70_clipped`, `TD.C70_quantile`, `TD.C70_interval`, `TD.C70_terminal_quantile`, `TD.C70_terminal_interval`, `TD.C71_quantile_partial`, `TD.C71_counterexample`, `TD.C72_interval_partial`, `TD.C72_quantile`, `TD.C72_counterexample`, `TD.C72_dist_params`, `TD.C73_returns`, `TD.C73_identity_partial`, `TD.C73_counterexample`, `TD.C73_returns_v`, `TD.C73_counterexample_v`, `Dists.C74_density`, `Dists.C74_entropy`, `Dists.C74_kl`, `TD.C75_interval_partial`, `TD.C75_counterexample`, `Dists.C76_clean_partial`, `Dists.C76_round_trip_partial`, `Dists.C76_counterexample`, `Core.C77_agree`, `Core.C77_value_partial`, `Core.C77_expected_partial`, `Core.C77_counterexample_reward`, `Core.C77_counterexample_mean`, `Dyn.C78_reward`, `Dyn.C78_reward_fit`, `Dyn.C78_transition`, `Dyn.C78_transition_fit`, `Dyn.C78_tree_rejected`, `Dyn.C78_regularized`, `Dyn.C78_regularizer_deterministic`, `Dyn.C78_stochastic`, `Dyn.C78_counterexample`, `Dyn.C78_stochastic_reward_rejected`, `Dyn.C78_stochastic_reward_mixes`, `Dyn.C78_stochastic_reward_one`, `Dyn.C78_stochastic_reward_one_bin`, `Dyn.C78_nan`, `Utils.C79_differences`, `Utils.C79_involution`, `Utils.C79_static`, `Utils.C79_matrix`, `Utils.C80_split`, `Utils.C80_expected`, `Utils.C80_uniform_biased`, `Utils.C80_equal`, `Utils.C80_batch`, `Utils.C80_value_bias`, `Utils.C80_embedding`, `Utils.C80_embedding_shift`, `Utils.C80_embedding_counterexample`, `Utils.C81_batch`, `Utils.C81_round`, `Utils.C81_injective_partial`, `Utils.C81_start_ignored`, `Utils.C82_member_partial`, `Utils.C82_box_counterexample`, `Utils.C82_start_counterexample`, `Utils.C83_maximiser`, `Utils.C83_float_noise`, `Utils.C83_float`, `Utils.C83_refines`, `Utils.C83_even`, `Utils.C83_counterexample`, `TD.C84_simpleTD`, `TD.C84_sarsa`, `TD.C84_expectedSarsa`, `TD.C84_qLearning`, `TD.C84_softQLearning`, `TD.C84_convergence`, `TD.C84_double_counterexample`, `TD.C85_softQLearning`, `TD.C85_expectedSarsa`, `Pol.C86_vanilla`, `Pol.C86_ppo`, `Pol.C86_baseline`, `Replay.C87_unnormalised_partial`, `Replay.C87_batch_of_one`, `Replay.C87_batch_of_one_biased`, `Replay.C87_counterexample`, `Loop.C88_targets`, `Loop.C88_qLearning`, `Loop.C88_simpleTD`, `Loop.C88_sarsa`, `Loop.C88_no_errors`, `Loop.C88_ready`, `Loop.C88_truncation_counterexample`, `Core.C89_box`, `Core.C89_discrete_raises`, `Core.C89_discrete_params`, `Core.C89_integer_counterexample`, `Core.C89_params_counterexample`, `Core.C89_mode_is_random`, `Core.C90_call`, `Core.C90_agree`, `Wrappers.C91_plays`, `Wrappers.C91_rejects`, `Wrappers.C91_no_getargspec`, `Utils.C92_observation`, `Utils.C92_rejects`, `Utils.C92_terminated_partial`, `Utils.C92_time_limit_counterexample`, `Utils.C93_inverse_of_vmap`, `Utils.C93_rejects`, `Utils.C94_aligned`, `Utils.C94_succeeds`, `Utils.C95_round_trip`, `Utils.C96_splits`, `Utils.C96_injective`, `Utils.C96_magnitude`, `Utils.C97_grads`, `Utils.C97_tree`, `Utils.C97_empty`, `Utils.C97_quantiles`, `Loop.C98_priorities`, `Loop.C98_batches`, `Loop.C98_probability`, `Loop.C98_step`, `Loop.C98_complete`, `Loop.C98_learn`, `Loop.C98_no_errors`, `Loop.C98_first_step`, `Loop.C98_clear_counterexample`, `Loop.C99_no_errors`, `Loop.C99_when`, `Loop.C99_rounds_partial`, `Loop.C99_lost_partial`, `Loop.C99_stale_counterexample`, `Loop.C99_lost_counterexample`.
