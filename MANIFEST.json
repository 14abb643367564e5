{
 "claims": [
  {
   "property": "C01",
   "status": "proved",
   "theorems": [
    "Coax.SegmentTree.C01_root_is_reduction",
    "Coax.SegmentTree.C01_nodes_consistent"
   ],
   "note": ""
  },
  {
   "property": "C02",
   "status": "proved",
   "theorems": [
    "Coax.SegmentTree.C02_writes_are_read_back",
    "Coax.SegmentTree.C02_broadcast_write",
    "Coax.SegmentTree.C02_write_all",
    "Coax.SegmentTree.C02_rejected"
   ],
   "note": ""
  },
  {
   "property": "C03",
   "status": "partial",
   "theorems": [
    "Coax.SegmentTree.C03_partial_reduce_partial",
    "Coax.SegmentTree.C03_partial_reduce_batched_partial",
    "Coax.SegmentTree.C03_batched_crash",
    "Coax.SegmentTree.C03_batched_counterexample",
    "Coax.SegmentTree.C03_noncommutative_counterexample"
   ],
   "note": "Proved for commutative reducers and ranges 0<=start<stop<=capacity. False as stated for non-commutative associative reducers, and some batched calls raise IndexError; both are proved as counterexamples."
  },
  {
   "property": "C04",
   "status": "partial",
   "theorems": [
    "Coax.SegmentTree.C04_empty_rejected_partial",
    "Coax.SegmentTree.C04_counterexample_empty_range",
    "Coax.SegmentTree.C04_wraps_around"
   ],
   "note": "False as stated: the arguments wrap modulo the capacity, so some empty ranges return a non-empty reduction (counterexample proved). The ranges that are rejected are characterised."
  },
  {
   "property": "C05",
   "status": "proved",
   "theorems": [
    "Coax.SegmentTree.C05_inverse_cdf",
    "Coax.SegmentTree.C05_index_unique"
   ],
   "note": ""
  },
  {
   "property": "C06",
   "status": "proved",
   "theorems": [
    "Coax.SegmentTree.C06_sample_interval",
    "Coax.SegmentTree.C06_sample_indices",
    "Coax.SegmentTree.C06_sample_probability"
   ],
   "note": ""
  },
  {
   "property": "C07",
   "status": "partial",
   "theorems": [
    "Coax.SegmentTree.C07_rejections",
    "Coax.SegmentTree.C07_endpoint",
    "Coax.SegmentTree.C07_closed_interval_partial",
    "Coax.SegmentTree.C07_counterexample"
   ],
   "note": "The rejections are proved. u = 1 is accepted and returns the last leaf of the padded array, which can have weight zero or lie outside the capacity (counterexample proved)."
  },
  {
   "property": "C08",
   "status": "proved",
   "theorems": [
    "Coax.Replay.C08_keeps_most_recent",
    "Coax.Replay.C08_add_succeeds",
    "Coax.Replay.C08_add_errors",
    "Coax.Replay.C08_alias_counterexample"
   ],
   "note": "For histories in which a single-transition object still stored is not added a second time; the aliasing that occurs otherwise is proved as a counterexample."
  },
  {
   "property": "C09",
   "status": "proved",
   "theorems": [
    "Coax.Replay.C09_sample",
    "Coax.Replay.C09_sample_effects",
    "Coax.Replay.C09_independent_of_global_random",
    "Coax.Replay.C09_successive_samples"
   ],
   "note": ""
  },
  {
   "property": "C10",
   "status": "proved",
   "theorems": [
    "Coax.Replay.C10_keeps_most_recent",
    "Coax.Replay.C10_iteration",
    "Coax.Replay.C10_add_rejected",
    "Coax.Replay.C10_init"
   ],
   "note": ""
  },
  {
   "property": "C100",
   "status": "partial",
   "theorems": [
    "Coax.RewardTracing.C100_discrete",
    "Coax.RewardTracing.C100_normal_partial",
    "Coax.RewardTracing.C100_normal_raises",
    "Coax.RewardTracing.C100_composite_partial",
    "Coax.RewardTracing.C100_composite_discrete",
    "Coax.RewardTracing.C100_composite_raises",
    "Coax.RewardTracing.C100_squashed_raises"
   ],
   "note": "True if the action space has only discrete parts, however nested. Otherwise it is true exactly if the largest log-propensities of the parts have a non-positive sum (C100_normal_partial, C100_composite_partial); if not, the tracers raise TypeError with positive probability and the step is lost (C100_normal_raises, C100_composite_raises). For SquashedNormalDist on [-1, 1]^d a sufficient condition for raising is given."
  },
  {
   "property": "C101",
   "status": "partial",
   "theorems": [
    "Coax.Core.C101_keys",
    "Coax.Core.C101_fresh_partial",
    "Coax.Core.C101_copy_counterexample"
   ],
   "note": "Independence is false for copies, which repeat the keys of the original (C101_copy_counterexample). Proved for all programs without copies whose seeds differ, and in general exactly when two keys coincide. Keys are idealised: different chains of splits give different keys."
  },
  {
   "property": "C102",
   "status": "partial",
   "theorems": [
    "Coax.Core.C102_signature",
    "Coax.Core.C102_v",
    "Coax.Core.C102_policy",
    "Coax.Core.C102_stochastic_q",
    "Coax.Core.C102_stochastic_v",
    "Coax.Core.C102_stochastic_transition_model",
    "Coax.Core.C102_q_partial",
    "Coax.Core.C102_transition_model_partial",
    "Coax.Core.C102_example_partial",
    "Coax.Core.C102_q_counterexample",
    "Coax.Core.C102_stochastic_reward_partial",
    "Coax.Core.C102_stochastic_reward_counterexample"
   ],
   "note": "True for V, Policy, StochasticV, StochasticQ, StochasticTransitionModel. False for Q and TransitionModel (the network is initialised with the default preprocessor of observations) and for StochasticRewardFunction (most arguments are ignored). Default preprocessors and distributions are parameters; the check of the output of the network is not modelled."
  },
  {
   "property": "C103",
   "status": "proved",
   "theorems": [
    "Coax.Loop.C103_simple_td",
    "Coax.Loop.C103_sarsa",
    "Coax.Loop.C103_sarsa_discrete",
    "Coax.Loop.C103_q_learning",
    "Coax.Loop.C103_fixed_point",
    "Coax.Loop.C103_monte_carlo",
    "Coax.Loop.C103_q_learning_counterexample"
   ],
   "note": "Finite numbers of actions and of outcomes per step; exact numbers; value function and policy are fixed while the n + 1 steps are made. For QLearning with type-1 functions the maximising actions are assumed unique (see C46). C103_q_learning_counterexample shows that n-step QLearning depends on the acting policy for n > 1. For MonteCarlo episodes are assumed to end within some number of steps."
  },
  {
   "property": "C104",
   "status": "proved",
   "theorems": [
    "Coax.Loop.C104_q_learning",
    "Coax.Loop.C104_expected_sarsa",
    "Coax.Loop.C104_soft_q_learning",
    "Coax.Loop.C104_optimal",
    "Coax.Loop.C104_greedy_policy",
    "Coax.Loop.C104_online_q_learning",
    "Coax.Loop.C104_online_expected_sarsa",
    "Coax.Loop.C104_online_soft_q_learning"
   ],
   "note": "Finite deterministic environments; the q-function is a table (one param per state and action, no bias), the optimizer is plain gradient descent with a learning rate of at most one over the clipped importance weight, the loss is mse or huber, transitions are of one step and exact, differentiation is the mathematical derivative. The online loop is without truncation (C88 shows what truncation does). Stochastic environments and Adam are not covered."
  },
  {
   "property": "C105",
   "status": "partial",
   "theorems": [
    "Coax.Core.C105_at_most",
    "Coax.Core.C105_counter_partial",
    "Coax.Core.C105_finitely_many",
    "Coax.Core.C105_rollouts_stop_partial",
    "Coax.Core.C105_all_stop_partial",
    "Coax.Core.C105_counter_counterexample",
    "Coax.Core.C105_threshold_counterexample",
    "Coax.Core.C105_blocked_counterexample"
   ],
   "note": "The counter is exact for one rollout worker only (with several, pull_getattr and push_setattr of two workers interleave and steps are lost, even so that the counter decreases). Rollout workers stop in every fair execution if the parameter store has no longer warm-up than the learners (otherwise the store waits in buffer_sample and serves nobody). Learners stop if no reward threshold stops the rollout workers before. Calls of the parameter store are atomic; metrics are left out."
  },
  {
   "property": "C106",
   "status": "partial",
   "theorems": [
    "Coax.Core.C106_batches",
    "Coax.Core.C106_pulls_latest",
    "Coax.Core.C106_single_learner_partial",
    "Coax.Core.C106_two_learners_counterexample",
    "Coax.Core.C106_beta_counterexample"
   ],
   "note": "With two learners updates are lost. The schedule of beta in doc/examples/atari/apex_dqn.py is evaluated at the counter of the environment of the learner, which stays 0. buffer_update is in C98."
  },
  {
   "property": "C107",
   "status": "partial",
   "theorems": [
    "Coax.Jit.C107_result",
    "Coax.Jit.C107_transparent",
    "Coax.Jit.C107_affine",
    "Coax.Jit.C107_beta",
    "Coax.Jit.C107_nstep",
    "Coax.Jit.C107_updater_partial",
    "Coax.Jit.C107_gamma_counterexample",
    "Coax.Jit.C107_loss_counterexample",
    "Coax.Jit.C107_regularizer_counterexample",
    "Coax.Jit.C107_reload_counterexample"
   ],
   "note": "False as it stands: attributes that the body of a compiled function reads are fixed at its first call for given shapes. Assigning loss_function, gamma of the n-step regularizer, or a regularizer with hyperparameters of the same names has no effect after that; storing and loading makes the assignment visible. C107_updater_partial covers runs without such assignments. Compilation is modelled as tracing with a cache by shapes and static arguments; donated buffers and closures over numpy values are left out."
  },
  {
   "property": "C108",
   "status": "partial",
   "theorems": [
    "Coax.Render.C108_frames",
    "Coax.Render.C108_steps",
    "Coax.Render.C108_errors",
    "Coax.Render.C108_render_five",
    "Coax.Render.C108_render_four_partial",
    "Coax.Render.C108_initial_counterexample",
    "Coax.Render.C108_no_limit_counterexample"
   ],
   "note": "False as it stands: generate_gif omits the initial state and shows the last one twice, the documented limit of 10000 is not used if the specification has no limit, and render_episode raises for every gymnasium environment (five values). C108_render_four_partial covers environments with the old interface without truncation. File output is left out."
  },
  {
   "property": "C109",
   "status": "partial",
   "theorems": [
    "Coax.Reload.C109_submodules",
    "Coax.Reload.C109_external",
    "Coax.Reload.C109_cycle",
    "Coax.Reload.C109_argument",
    "Coax.Reload.C109_order_counterexample",
    "Coax.Reload.C109_prefix_counterexample"
   ],
   "note": "The order is that of references among followed modules; sibling submodules that refer to each other are not reloaded in order of dependence, modules whose name merely starts with the name of the package are followed, and cycles end with RecursionError. Python's importlib is an argument."
  },
  {
   "property": "C11",
   "status": "partial",
   "theorems": [
    "Coax.Replay.C11_weights_partial",
    "Coax.Replay.C11_weights",
    "Coax.Replay.C11_normaliser",
    "Coax.Replay.C11_sampling_probability"
   ],
   "note": "The exact weights are proved for every history (C11_weights). That they are (|Adv|+epsilon)^alpha of the advantage supplied last holds for tame histories only: see C12 and C14 for the two ways it fails."
  },
  {
   "property": "C110",
   "status": "partial",
   "theorems": [
    "Coax.Kinds.C110_predicates",
    "Coax.Kinds.C110_simple_td",
    "Coax.Kinds.C110_sarsa",
    "Coax.Kinds.C110_other_td",
    "Coax.Kinds.C110_clipped",
    "Coax.Kinds.C110_others",
    "Coax.Kinds.C110_usable",
    "Coax.Kinds.C110_optimizer",
    "Coax.Kinds.C110_accepted_usable_partial",
    "Coax.Kinds.C110_successor_counterexample",
    "Coax.Kinds.C110_list_counterexample",
    "Coax.Kinds.C110_mixture_counterexample",
    "Coax.Kinds.C110_policy_optimizer_counterexample",
    "Coax.Kinds.C110_optimizer_state_counterexample"
   ],
   "note": "Acceptance is characterised completely. Not everything that is accepted can be used: SuccessorStateQ, lists as q_targ, mixtures of stochastic and deterministic functions; the optimizer of a policy objective cannot be replaced. C110_accepted_usable_partial covers updaters without a separate target function or with a copy. Use is modelled for SimpleTD, Sarsa and QLearning with discrete actions."
  },
  {
   "property": "C111",
   "status": "partial",
   "theorems": [
    "Coax.Core.C111_td_iff",
    "Coax.Core.C111_stochastic_counterexample",
    "Coax.Core.C111_network_counterexample",
    "Coax.Core.C111_nstep_counterexample",
    "Coax.Core.C111_policy_iff",
    "Coax.Core.C111_softpg_counterexample",
    "Coax.Core.C111_regularizer_counterexample",
    "Coax.Core.C111_model",
    "Coax.Core.C111_training_partial"
   ],
   "note": "False for stochastic value functions (states and next states are preprocessed with the same key), for SoftPG and DeterministicPG with stochastic q-functions, for policy objectives with a regularizer and for n-step entropy. Characterised completely for TD updaters and policy objectives; proved for ModelUpdater and for whole programs made of the updates that are fine. Keys stand for independent draws if neither is derived from the other."
  },
  {
   "property": "C112",
   "status": "partial",
   "theorems": [
    "Coax.Utils.C112_result",
    "Coax.Utils.C112_few",
    "Coax.Utils.C112_deterministic_partial",
    "Coax.Utils.C112_random_counterexample",
    "Coax.Utils.C112_sample_counterexample",
    "Coax.Utils.C112_order_counterexample",
    "Coax.Utils.C112_shape_counterexample",
    "Coax.Utils.C112_array",
    "Coax.Utils.C112_axis_counterexample"
   ],
   "note": "check_preprocessors is characterised completely. It is wrong about random preprocessors, elements that were not drawn, scalars against arrays, and its tolerance depends on the order; for deterministic preprocessors equality is recognised, no is always right, and yes is right up to tolerance if every element was drawn. check_array is characterised completely; an axis that does not exist raises IndexError instead of the documented TypeError."
  },
  {
   "property": "C113",
   "status": "partial",
   "theorems": [
    "Coax.Utils.C113_valid_partial",
    "Coax.Utils.C113_errors",
    "Coax.Utils.C113_nan_counterexample"
   ],
   "note": "For spaces that can be sampled (C82) the batch is valid in every field, except that importance weights may be NaN when both uniform numbers are zero (the counterexample). Complete characterisation of the errors. Python bools as batch_size are left out."
  },
  {
   "property": "C114",
   "status": "partial",
   "theorems": [
    "Coax.OrigInfo.C114_step_partial",
    "Coax.OrigInfo.C114_history_partial",
    "Coax.OrigInfo.C114_none_counterexample",
    "Coax.OrigInfo.C114_reuse_counterexample",
    "Coax.OrigInfo.C114_errors",
    "Coax.OrigInfo.C114_reals"
   ],
   "note": "Proved over whole programs for environments that return a new dict with every step. False for environments that return None (the actions are lost) or return the same dict again (the list grows)."
  },
  {
   "property": "C115",
   "status": "partial",
   "theorems": [
    "Coax.Core.C115_accepted",
    "Coax.Core.C115_rows_partial",
    "Coax.Core.C115_example",
    "Coax.Core.C115_batch_counterexample",
    "Coax.Core.C115_training_counterexample",
    "Coax.Core.C115_dtype_counterexample",
    "Coax.Core.C115_list"
   ],
   "note": "Acceptance is characterised completely for one row and is_training=True. For other batch sizes and is_training=False it needs a network that treats rows alike (counterexamples otherwise). Integer parameters are accepted by stochastic functions."
  },
  {
   "property": "C116",
   "status": "proved",
   "theorems": [
    "Coax.Core.C116_batch_state",
    "Coax.Core.C116_batch_action",
    "Coax.Core.C116_batch_point",
    "Coax.Core.C116_call",
    "Coax.Core.C116_point",
    "Coax.Core.C116_states",
    "Coax.Core.C116_law"
   ],
   "note": "For distributions that treat rows one by one and postprocessors that pick the row they are asked for, which is all of them except EmpiricalQuantileDist (C72, C117). The random numbers of the rows are an argument; C116_law assumes them independent."
  },
  {
   "property": "C117",
   "status": "partial",
   "theorems": [
    "Coax.Core.C117_sample_partial",
    "Coax.Core.C117_other_row_counterexample",
    "Coax.Core.C117_constant_counterexample",
    "Coax.Core.C117_logProba_counterexample",
    "Coax.Core.C117_call_counterexample",
    "Coax.Core.C117_call_action",
    "Coax.Core.C117_mean",
    "Coax.Core.C117_mean_counterexample"
   ],
   "note": "False: sample draws whole rows of the batch instead of values of the row, nothing is random for a single state, log_proba has no batch axis, so that a StochasticQ with quantiles cannot be sampled without an action, and mean(s) returns the mean of the first action for all actions. Proved: all numbers are values of the batch; mean(s, a) and mean of functions of states are right."
  },
  {
   "property": "C118",
   "status": "partial",
   "theorems": [
    "Coax.Pol.C118_entropy_partial",
    "Coax.Pol.C118_kl_partial",
    "Coax.Pol.C118_priors_partial",
    "Coax.Pol.C118_squashed_counterexample"
   ],
   "note": "Proved for categorical, normal and all nested distributions. False for SquashedNormalDist and EmpiricalQuantileDist, which have neither entropy nor KL divergence: AttributeError."
  },
  {
   "property": "C119",
   "status": "proved",
   "theorems": [
    "Coax.Loop.C119_q_learning",
    "Coax.Loop.C119_expected_sarsa",
    "Coax.Loop.C119_soft_q_learning",
    "Coax.Loop.C119_online_q_learning",
    "Coax.Loop.C119_online_expected_sarsa",
    "Coax.Loop.C119_online_soft_q_learning",
    "Coax.Loop.C119_epsilon_greedy_explores",
    "Coax.Loop.C119_boltzmann_explores"
   ],
   "note": "Tables with the mean squared error, optax.sgd with a schedule and one transition per update (or any rows that are known when the update is made, with a target network that is synchronised softly). The process of states, actions and outcomes is any process with the given conditional probabilities; optax is not part of the repository."
  },
  {
   "property": "C12",
   "status": "partial",
   "theorems": [
    "Coax.Replay.C12_stale_updates_harmless",
    "Coax.Replay.C12_update_exact",
    "Coax.Replay.C12_mixed_updates_partial",
    "Coax.Replay.C12_masking",
    "Coax.Replay.C12_update_rejected"
   ],
   "note": "A stale id listed after a live id of the same slot in one call restores the old priority of the live one: proved as C12_masking."
  },
  {
   "property": "C120",
   "status": "proved",
   "theorems": [
    "Coax.Agent.C120_references",
    "Coax.Agent.C120_weights",
    "Coax.Agent.C120_keys",
    "Coax.Agent.C120_optimizers",
    "Coax.Agent.C120_exploration",
    "Coax.Agent.C120_update",
    "Coax.Agent.C120_depends",
    "Coax.Agent.C120_target_fixed",
    "Coax.Agent.C120_copy",
    "Coax.Agent.C120_no_target",
    "Coax.Agent.C120_derived",
    "Coax.Agent.C120_derived_set",
    "Coax.Agent.C120_ddpg",
    "Coax.Agent.C120_dqn",
    "Coax.Agent.C120_clipped",
    "Coax.Agent.C120_td3_counterexample",
    "Coax.Agent.C120_draw",
    "Coax.Agent.C120_key_chain",
    "Coax.Agent.C120_no_key_twice",
    "Coax.Agent.C120_seed"
   ],
   "note": "What an updater computes from the weights that it is given is an arbitrary function. The loops of the stubs for DQN and DDPG are proved to compute these algorithms, for steps without exceptions; the stub for TD3 raises TypeError in a constructor (C120_td3_counterexample). Regularizers are their policy and constant hyperparameters; lists of targets are not mutated. No function uses a random key twice, if splitting keys is injective."
  },
  {
   "property": "C121",
   "status": "proved",
   "theorems": [
    "Coax.Loop.C121_value",
    "Coax.Loop.C121_optimal",
    "Coax.Loop.C121_mode",
    "Coax.Loop.C121_soft_optimal",
    "Coax.Loop.C121_evaluation",
    "Coax.Loop.C121_epsilon_improvement",
    "Coax.Loop.C121_soft_improvement",
    "Coax.Loop.C121_epsilon_loss",
    "Coax.Loop.C121_learned",
    "Coax.Loop.C121_learned_online"
   ],
   "note": "Finite environments and gamma < 1. The return is defined by recursion over the steps (conditional expectations), for policies that may depend on the whole history. EpsilonGreedy explores with probability a little above epsilon because of the 1e-15 in its logits; this is part of the statements."
  },
  {
   "property": "C122",
   "status": "proved",
   "theorems": [
    "Coax.Dists.C122_projection",
    "Coax.Dists.C122_discount",
    "Coax.Dists.C122_metric",
    "Coax.Dists.C122_mixture",
    "Coax.Dists.C122_output",
    "Coax.Dists.C122_log_counterexample",
    "Coax.Loop.C122_least_loss",
    "Coax.Loop.C122_evaluation",
    "Coax.Loop.C122_sweep_exists",
    "Coax.Loop.C122_mean",
    "Coax.Loop.C122_learned_mean",
    "Coax.Loop.C122_control"
   ],
   "note": "Tables of logits without value transform, least expected loss in each sweep instead of single gradient steps. The floor of 1e-16 under the probabilities is part of the bounds. Evaluation: the distributions converge; control: their means converge to the optimal values, if there are no ties and all targets are in the range of the atoms. With LogTransform the projection is no contraction (C122_log_counterexample)."
  },
  {
   "property": "C123",
   "status": "partial",
   "theorems": [
    "Coax.ConnectFour.C123_board_partial",
    "Coax.ConnectFour.C123_injective",
    "Coax.ConnectFour.C123_marker_partial",
    "Coax.ConnectFour.C123_numpy_counterexample",
    "Coax.ConnectFour.C123_start",
    "Coax.ConnectFour.C123_mask"
   ],
   "note": "Proved after moves given as Python integers. False otherwise: after a move given as a numpy integer render raises TypeError (C123_numpy_counterexample). The text is a list of characters; printing it is not modelled."
  },
  {
   "property": "C124",
   "status": "partial",
   "theorems": [
    "Coax.Batching.C124_same_shape_partial",
    "Coax.Batching.C124_refl",
    "Coax.Batching.C124_extra_counterexample",
    "Coax.Batching.C124_repeat_counterexample",
    "Coax.Batching.C124_sizes_counterexample",
    "Coax.Batching.C124_relation_counterexample",
    "Coax.Batching.C124_tuple",
    "Coax.Batching.C124_defaults"
   ],
   "note": "Proved for batches whose leaves have the same shapes. False otherwise: extra information is ignored when the other batch has none, a transition equals its repetitions, different sizes raise ValueError, and equality is neither symmetric nor transitive. Arrays over the reals, so without NaN; the equality of other Python objects is a parameter."
  },
  {
   "property": "C125",
   "status": "partial",
   "theorems": [
    "Coax.Core.C125_root",
    "Coax.Core.C125_buffer",
    "Coax.Core.C125_no_buffer",
    "Coax.Core.C125_shared_buffer",
    "Coax.Core.C125_metrics",
    "Coax.Core.C125_state",
    "Coax.Core.C125_chain_counterexample",
    "Coax.Core.C125_env",
    "Coax.Core.C125_env_rejects",
    "Coax.Core.C125_threshold"
   ],
   "note": "Calls are made one after the other, as ray.get waits for each. What a buffer does is a parameter, the shared state is one value, and no two workers share one environment object. False for states in chains of stores: they are exchanged with the next store only (C125_chain_counterexample)."
  },
  {
   "property": "C126",
   "status": "proved",
   "theorems": [
    "Coax.Loop.C126_evaluation",
    "Coax.Loop.C126_sweep_exists",
    "Coax.Loop.C126_quantile",
    "Coax.Loop.C126_certain",
    "Coax.Loop.C126_counterexample"
   ],
   "note": "For tables with fixed fractions between 0 and 1, without a value transform, where each sweep reaches the least expected loss; evaluation of a policy, not control. The quantiles themselves are not learned: the values of a fair coin are 1/4 and 3/4 instead of 0 and 1 (C126_counterexample)."
  },
  {
   "property": "C127",
   "status": "proved",
   "theorems": [
    "Coax.Loop.C127_double_q_learning",
    "Coax.Loop.C127_sarsa",
    "Coax.Loop.C127_online_double_q_learning",
    "Coax.Loop.C127_online_sarsa"
   ],
   "note": "For tables, sgd with a learning-rate schedule, the mse loss and one transition per update. Sarsa follows a fixed policy. DoubleQLearning needs a target network that moves faster than the learned table (learning rate / tau tends to 0)."
  },
  {
   "property": "C128",
   "status": "proved",
   "theorems": [
    "Coax.Loop.C128_simple_td",
    "Coax.Loop.C128_online_simple_td"
   ],
   "note": "For tables, sgd with a learning-rate schedule, the mse loss, one transition per update, a fixed policy, and importance weights that do not depend on the action."
  },
  {
   "property": "C129",
   "status": "partial",
   "theorems": [
    "Coax.Loop.C129_q_learning",
    "Coax.Loop.C129_expected_sarsa",
    "Coax.Loop.C129_soft_q_learning",
    "Coax.Loop.C129_unique",
    "Coax.Loop.C129_exact_partial",
    "Coax.Loop.C129_converges",
    "Coax.Loop.C129_online_q_learning",
    "Coax.Loop.C129_online_exact_partial",
    "Coax.Loop.C129_counterexample"
   ],
   "note": "The property as stated (learned values are expected returns) is false for the default loss: C129_counterexample. Proved is what is learned instead, and that it is the expected return if no possible target is further than delta from it. For tables, sgd with a learning-rate schedule and one transition per update."
  },
  {
   "property": "C13",
   "status": "proved",
   "theorems": [
    "Coax.Replay.C13_importance_weights",
    "Coax.Replay.C13_factors",
    "Coax.Replay.C13_sample_rejected"
   ],
   "note": ""
  },
  {
   "property": "C130",
   "status": "partial",
   "theorems": [
    "Coax.Loop.C130_q_learning",
    "Coax.Loop.C130_expected_sarsa",
    "Coax.Loop.C130_soft_q_learning",
    "Coax.Loop.C130_loop_q_learning_partial",
    "Coax.Loop.C130_loop_expected_sarsa_partial",
    "Coax.Loop.C130_loop_soft_q_learning_partial",
    "Coax.Loop.C130_counterexample"
   ],
   "note": "The property as stated is false if episodes end: C130_counterexample gives the biased limit. Proved is convergence for mini-batches of delayed transitions that are chosen without regard to the outcomes, and for the training loop of doc/examples/cartpole/dqn.py if episodes do not end. For tables, the squared loss and sgd with a learning-rate schedule."
  },
  {
   "property": "C131",
   "status": "proved",
   "theorems": [
    "Coax.Loop.C131_epsilon_greedy",
    "Coax.Loop.C131_boltzmann",
    "Coax.Loop.C131_soft_q_learning",
    "Coax.Loop.C131_trajectory",
    "Coax.Loop.C131_variates",
    "Coax.Loop.C131_example"
   ],
   "note": "For tables, the squared loss and sgd with a learning-rate schedule (the examples use adam, which is not part of the repository), episodes that are not truncated, and environments in which every state can be reached from every other one (through the ends of episodes too)."
  },
  {
   "property": "C132",
   "status": "partial",
   "theorems": [
    "Coax.SegmentTree.C132_no_drift",
    "Coax.SegmentTree.C132_root_error",
    "Coax.SegmentTree.C132_inverse_cdf",
    "Coax.SegmentTree.C132_share",
    "Coax.SegmentTree.C132_error_small",
    "Coax.SegmentTree.C132_doubles",
    "Coax.SegmentTree.C132_grid_partial",
    "Coax.SegmentTree.C132_out_of_range_counterexample",
    "Coax.SegmentTree.C132_zero_weight_counterexample"
   ],
   "note": "In doubles it is not true that only positions of positive value are drawn (two counterexamples); it is true for values on a common grid with a sum that fits, and in general up to a proved error. Overflow and gradual underflow are not modelled."
  },
  {
   "property": "C133",
   "status": "proved",
   "theorems": [
    "Coax.Loop.C133_clipped_double_q_learning"
   ],
   "note": "Tables, one transition per update, plain SGD with a schedule of learning rates; the learning rates of the two updaters are counted separately."
  },
  {
   "property": "C134",
   "status": "proved",
   "theorems": [
    "Coax.Loop.C134_sarsa",
    "Coax.Loop.C134_expected_sarsa",
    "Coax.Loop.C134_simple_td"
   ],
   "note": "Tables, online loop, plain SGD with a decreasing schedule of learning rates, target network by soft updates; fixed policy. Any number of steps."
  },
  {
   "property": "C135",
   "status": "proved",
   "theorems": [
    "Coax.Loop.C135_q_learning",
    "Coax.Loop.C135_at_most_optimal",
    "Coax.Loop.C135_at_least_policy",
    "Coax.Loop.C135_one_step",
    "Coax.Loop.C135_optimal_policy",
    "Coax.Loop.C135_not_optimal"
   ],
   "note": "As C134. The claim that the limit is optimal is false for more than one step: C135_not_optimal is the negation with a witness."
  },
  {
   "property": "C136",
   "status": "proved",
   "theorems": [
    "Coax.Loop.C136_sarsa",
    "Coax.Loop.C136_schedule",
    "Coax.Loop.C136_boltzmann",
    "Coax.Loop.C136_boltzmann_two",
    "Coax.Loop.C136_boltzmann_near",
    "Coax.Loop.C136_example"
   ],
   "note": "Tables, plain SGD with a decreasing schedule of learning rates, one-step tracer, no target network. For EpsilonGreedy convergence to the values of the best exploring policy; for BoltzmannPolicy what a limit must be, that this does not determine it, and how near to the optimum values and policy end up."
  },
  {
   "property": "C137",
   "status": "partial",
   "theorems": [
    "Coax.Loop.C137_climbs_partial",
    "Coax.Loop.C137_two_steps",
    "Coax.Loop.C137_discounting_counterexample",
    "Coax.Loop.C137_undiscounted"
   ],
   "note": "Holds without discounting, and with discounting if the policy sees the state including the time that is left; otherwise it is false, because the code does not weigh the steps of an episode with powers of gamma (C137_discounting_counterexample: the loop learns the worst policy). Table of logits, plain SGD with a decreasing schedule of learning rates, finite episodes, one initial state."
  },
  {
   "property": "C138",
   "status": "proved",
   "theorems": [
    "Coax.Loop.C138_epsilon_greedy",
    "Coax.Loop.C138_boltzmann",
    "Coax.Loop.C138_boltzmann_limit",
    "Coax.Loop.C138_example"
   ],
   "note": "Tables, plain SGD with a decreasing schedule of learning rates, one-step tracer, no target network, epsilon and temperature constant. That there can be several tables of values of their own Boltzmann policy is C136_boltzmann_two."
  },
  {
   "property": "C139",
   "status": "proved",
   "theorems": [
    "Coax.Loop.C139_boltzmann",
    "Coax.Loop.C139_epsilon_greedy",
    "Coax.Loop.C139_example"
   ],
   "note": "Tables, plain SGD with a decreasing schedule of learning rates (the example uses adam), one-step tracer, a constant rate of the target network, episodes that are not truncated."
  },
  {
   "property": "C14",
   "status": "partial",
   "theorems": [
    "Coax.Replay.C14_alpha_change_partial",
    "Coax.Replay.C14_alpha_change_exact",
    "Coax.Replay.C14_alpha_noop",
    "Coax.Replay.C14_clamp_counterexample"
   ],
   "note": "Holds while all priorities are at least 1e-15; below that the setter clamps (counterexample proved)."
  },
  {
   "property": "C140",
   "status": "partial",
   "theorems": [
    "Coax.Loop.C140_planner_partial",
    "Coax.Loop.C140_terminal_counterexample",
    "Coax.Loop.C140_example"
   ],
   "note": "Holds for an exact transition model and reward function if the states in which episodes end have the value 0 at the start; otherwise it is false, because SuccessorStateQ adds the value of such a state and no update changes it (C140_terminal_counterexample: the policy ends all episodes at once, forever). One-hot states, plain SGD with a decreasing schedule of learning rates (the example uses adam), one-step tracer, no ModelUpdater, episodes that are not truncated."
  },
  {
   "property": "C141",
   "status": "proved",
   "theorems": [
    "Coax.SegmentTree.C141_levels",
    "Coax.SegmentTree.C141_entries",
    "Coax.SegmentTree.C141_view_write",
    "Coax.SegmentTree.C141_view_write_stale",
    "Coax.SegmentTree.C141_view_write_repair",
    "Coax.SegmentTree.C141_inner_view_write"
   ],
   "note": "Exact arithmetic; reducer associative with unit init_value. Indices are ints, 1d lists of ints and slices with step one; boolean masks and multi-dimensional index arrays are not modelled. Writes through views: only single-entry assignments."
  },
  {
   "property": "C142",
   "status": "partial",
   "theorems": [
    "Coax.Loop.C142_boltzmann_partial",
    "Coax.Loop.C142_epsilon_greedy_partial",
    "Coax.Loop.C142_soft_q_learning_partial",
    "Coax.Loop.C142_trajectory_partial",
    "Coax.Loop.C142_shuffles",
    "Coax.Loop.C142_example"
   ],
   "note": "Restricted to environments whose episodes do not end: otherwise the buffer makes the order in which outcomes are used depend on the outcomes, and C130_counterexample shows that then even a fixed policy need not lead to the solution. Tables; optax.sgd with decreasing learning rates instead of optax.adam; exact real arithmetic. Learning rates must not increase."
  },
  {
   "property": "C143",
   "status": "proved",
   "theorems": [
    "Coax.Replay.C143_reproducible",
    "Coax.Replay.C143_cleared_as_new",
    "Coax.Replay.C143_numbers",
    "Coax.Replay.C143_numbers_without_seed",
    "Coax.Replay.C143_rounds_repeat",
    "Coax.Replay.C143_simple_cleared",
    "Coax.Replay.C143_simple_counterexample",
    "Coax.Replay.C143_simple_takes_over",
    "Coax.Replay.C143_example"
   ],
   "note": "numpy.random.RandomState and random.sample are parameters: a state for each seed, numbers in [0, 1) or distinct positions, and a next state."
  },
  {
   "property": "C144",
   "status": "partial",
   "theorems": [
    "Coax.Persist.C144_restored",
    "Coax.Persist.C144_resume",
    "Coax.Persist.C144_separate",
    "Coax.Persist.C144_files",
    "Coax.Persist.C144_load_errors",
    "Coax.Persist.C144_failed_dump_counterexample",
    "Coax.Persist.C144_docstring"
   ],
   "note": "True except for the last sentence: dump opens the file, and thereby empties it, before it serialises the object, so a dump that fails destroys the checkpoint that was there (C144_failed_dump_counterexample). The byte formats of cloudpickle and lz4 are not modelled: a byte-string stands for the objects reachable from the dumped one."
  },
  {
   "property": "C145",
   "status": "proved",
   "theorems": [
    "Coax.Dists.C145_sample",
    "Coax.Dists.C145_mode"
   ],
   "note": "Any nesting of Discrete (start 0; for other starts see C76_counterexample), MultiDiscrete, MultiBinary, Box, Tuple and Dict. jax.random.split is a tree of keys whose noise is independent and of the stated laws (GoodKeys; exists_keys shows that such keys exist). Exact reals, one state per call; ties in argmax are broken by any fixed rule."
  },
  {
   "property": "C146",
   "status": "partial",
   "theorems": [
    "Coax.Dists.C146_affine_transform_partial",
    "Coax.Dists.C146_discrete",
    "Coax.Dists.C146_rejects",
    "Coax.Dists.C146_value_transform_counterexample"
   ],
   "note": "The law is right exactly if for each Box the scale is 1 or the mean is 0 (the mean is not multiplied by the scale, see C51), for scales other than 0 and log-variances that are not clipped. With a value transform the call raises TypeError for every distribution, since the jitted function does not declare the argument as static (C146_value_transform_counterexample). That jax rejects functions as traced arguments is part of the model."
  },
  {
   "property": "C147",
   "status": "partial",
   "theorems": [
    "Coax.Loop.C147_same_update",
    "Coax.Loop.C147_same_update_kl",
    "Coax.Loop.C147_same_loop",
    "Coax.Loop.C147_simple_td",
    "Coax.Loop.C147_sarsa",
    "Coax.Loop.C147_expected_sarsa",
    "Coax.Loop.C147_improvement",
    "Coax.Loop.C147_nstep_counterexample",
    "Coax.Loop.C147_nstep_exists",
    "Coax.Loop.C147_nstep_one",
    "Coax.Loop.C147_nstep_simple_td",
    "Coax.Loop.C147_nstep_sarsa",
    "Coax.Loop.C147_nstep_expected_sarsa",
    "Coax.Loop.C147_nstep_q_learning"
   ],
   "note": "Proved for tables, optax.sgd, the loss mse for convergence (any loss for C147_same_update and C147_same_loop), a fixed policy with discrete actions that also chooses the actions. With n = 1 the limit is the one stated. False for more than one step: the regularizer is evaluated at the first state of each transition only, so the limit contains the entropies at the times 0, n, 2n, ... only (C147_nstep_simple_td, C147_nstep_sarsa, C147_nstep_expected_sarsa; C147_nstep_counterexample shows that this differs). q-functions also contain the entropy of the first state, which does not change the Boltzmann policy made from them (C147_improvement). A policy that is trained at the same time is not covered."
  },
  {
   "property": "C148",
   "status": "partial",
   "theorems": [
    "Coax.Core.C148_inputs",
    "Coax.Core.C148_q",
    "Coax.Core.C148_others",
    "Coax.Core.C148_given",
    "Coax.Core.C148_training",
    "Coax.Core.C148_calls",
    "Coax.Core.C148_no_rows",
    "Coax.Core.C148_start_counterexample",
    "Coax.Core.C148_ragged_counterexample"
   ],
   "note": "Proved for all nested spaces of Discrete, Box, MultiDiscrete, MultiBinary, Tuple and Dict with the default preprocessors, and for preprocessors that return one row with a fixed number of columns (C148_inputs, C148_given). False for Discrete spaces whose start is n or more (C148_start_counterexample). A preprocessor with varying numbers of columns passes constructors, which look at one row (C148_ragged_counterexample). Transition models, whose default preprocessor is preprocess_variate, are covered by C148_inputs only."
  },
  {
   "property": "C149",
   "status": "partial",
   "theorems": [
    "Coax.Loop.C149_update",
    "Coax.Loop.C149_exists",
    "Coax.Loop.C149_unique",
    "Coax.Loop.C149_converges",
    "Coax.Loop.C149_error",
    "Coax.Loop.C149_episodes",
    "Coax.Loop.C149_pipeline",
    "Coax.Loop.C149_minibatches",
    "Coax.Loop.C149_draws",
    "Coax.Loop.C149_target",
    "Coax.Loop.C149_empirical",
    "Coax.Loop.C149_empirical_unique",
    "Coax.Loop.C149_off_policy_counterexample",
    "Coax.Loop.C149_target_counterexample",
    "Coax.Loop.C149_empty"
   ],
   "note": "Proved for batches whose transitions lead to their states at most as often as these occur (OnPolicy), which the transitions of an NStep tracer over complete episodes satisfy (C149_episodes), with mse and gradient descent: repeated updates with the whole batch and a constant learning rate below a bound, with or without a target network (C149_converges, C149_target), or, without one, uniformly drawn mini-batches with learning rates that satisfy the conditions of Robbins and Monro (C149_minibatches). The values that the error is measured against exist and are determined on the states of the batch (C149_empirical, C149_empirical_unique). False for other batches, with or without a target network (C149_off_policy_counterexample, C149_target_counterexample). Adam is not covered."
  },
  {
   "property": "C15",
   "status": "proved",
   "theorems": [
    "Coax.RewardTracing.C15_nstep_transitions",
    "Coax.RewardTracing.C15_not_premature"
   ],
   "note": "All histories of add/pop/flush/reset, including failing calls; n >= 1, 0 <= gamma <= 1, steps that from_single accepts. Exact arithmetic."
  },
  {
   "property": "C150",
   "status": "partial",
   "theorems": [
    "Coax.Loop.C150_update",
    "Coax.Loop.C150_converges",
    "Coax.Loop.C150_minibatches",
    "Coax.Loop.C150_target",
    "Coax.Loop.C150_empirical",
    "Coax.Loop.C150_qlearning_update",
    "Coax.Loop.C150_qlearning_counterexample",
    "Coax.Loop.C150_empty"
   ],
   "note": "Proved for Sarsa on the transitions of an NStep tracer over complete episodes, with mse and gradient descent: repeated updates with the whole batch and a constant learning rate below a bound, with or without a target network (C150_converges, C150_target), or, without one, uniformly drawn mini-batches with learning rates that satisfy the conditions of Robbins and Monro. The data are fixed: the policy does not change while the function learns. False of QLearning on the same data (C150_qlearning_counterexample). Adam is not covered."
  },
  {
   "property": "C151",
   "status": "partial",
   "theorems": [
    "Coax.Loop.C151_update",
    "Coax.Loop.C151_bounded",
    "Coax.Loop.C151_near",
    "Coax.Loop.C151_counterexample",
    "Coax.Loop.C151_sarsa_counterexample"
   ],
   "note": "False of the code as stated: with the default loss function, repeated updates with one complete episode of three steps diverge from zero params with every learning rate, though some params give exactly the right values (C151_counterexample, C151_sarsa_counterexample), and though they converge with mse (C149). Proved: what an update does, that it moves params by a bounded amount, and convergence from params near the limit (C151_near)."
  },
  {
   "property": "C152",
   "status": "partial",
   "theorems": [
    "Coax.Loop.C152_update",
    "Coax.Loop.C152_converges",
    "Coax.Loop.C152_unique",
    "Coax.Loop.C152_target",
    "Coax.Loop.C152_episodes",
    "Coax.Loop.C152_counterexample",
    "Coax.Loop.C152_error",
    "Coax.Loop.C152_empirical",
    "Coax.Loop.C152_minibatches"
   ],
   "note": "Proved for complete episodes in which, in each state, actions occur as often as the policy takes them (C152_episodes), and for batches in whose states actions occur at least as often as the policy takes them after the transitions of the batch (OnPolicyE), with mse, with and without a target network, and gradient descent with a small constant learning rate; also for mini-batches that are drawn uniformly from such transitions, without a target network, with learning rates that satisfy the conditions of Robbins and Monro (C152_minibatches). False of other complete episodes: one in which a policy takes the less likely of two actions makes updates diverge with every learning rate (C152_counterexample). The policy does not change."
  },
  {
   "property": "C153",
   "status": "partial",
   "theorems": [
    "Coax.Core.C153_state",
    "Coax.Core.C153_stochastic_v",
    "Coax.Core.C153_q",
    "Coax.Core.C153_stochastic_q_partial",
    "Coax.Core.C153_quantile_counterexample",
    "Coax.Core.C153_stochastic_transition_model_partial",
    "Coax.Core.C153_stochastic_transition_model_counterexample",
    "Coax.Core.C153_reward_partial",
    "Coax.Core.C153_reward_counterexample"
   ],
   "note": "Proved for V, Policy, StochasticV, Q and TransitionModel. For the others false as stated, proved with restrictions: StochasticQ with an increasing range of values (example_data raises TypeError for functions with quantiles), StochasticTransitionModel without a preprocessor of observations (example_data has no argument for it), StochasticRewardFunction with a range of values only (its constructor ignores the other arguments). Spaces, preprocessors and distributions are abstract, as in C102."
  },
  {
   "property": "C154",
   "status": "proved",
   "theorems": [
    "Coax.Utils.C154_seed",
    "Coax.Utils.C154_reproducible",
    "Coax.Utils.C154_last_seed",
    "Coax.Utils.C154_rejects",
    "Coax.Utils.C154_calls"
   ],
   "note": "For an arbitrary dm_control suite whose environments are deterministic given the seed with which they are loaded. Not modelled: errors that dm_control raises when it steps, resets or renders."
  },
  {
   "property": "C16",
   "status": "proved",
   "theorems": [
    "Coax.RewardTracing.C16_no_loss_no_duplication",
    "Coax.RewardTracing.C16_all_popped"
   ],
   "note": "As C15."
  },
  {
   "property": "C17",
   "status": "proved",
   "theorems": [
    "Coax.RewardTracing.C17_add",
    "Coax.RewardTracing.C17_bool",
    "Coax.RewardTracing.C17_pop",
    "Coax.RewardTracing.C17_flush",
    "Coax.RewardTracing.C17_invalid_step_lost"
   ],
   "note": "As C15. C17_invalid_step_lost shows why steps that from_single rejects are excluded: pop removes such a step and then raises."
  },
  {
   "property": "C18",
   "status": "proved",
   "theorems": [
    "Coax.RewardTracing.C18_extra_info"
   ],
   "note": "As C15."
  },
  {
   "property": "C19",
   "status": "proved",
   "theorems": [
    "Coax.RewardTracing.C19_returns",
    "Coax.RewardTracing.C19_no_loss",
    "Coax.RewardTracing.C19_bool",
    "Coax.RewardTracing.C19_add",
    "Coax.RewardTracing.C19_pop",
    "Coax.RewardTracing.C19_flush"
   ],
   "note": "All histories of add/pop/flush/reset, including failing calls; 0 <= gamma <= 1, steps that from_single accepts. Exact arithmetic."
  },
  {
   "property": "C20",
   "status": "proved",
   "theorems": [
    "Coax.RewardTracing.C20_nstep_montecarlo"
   ],
   "note": "Any two complete histories over the same episodes, whatever the interleaving of pops."
  },
  {
   "property": "C21",
   "status": "proved",
   "theorems": [
    "Coax.RewardTracing.C21_from_single_rejects",
    "Coax.RewardTracing.C21_from_single_value"
   ],
   "note": "isinstance checks are not modelled; logp and r are scalars."
  },
  {
   "property": "C22",
   "status": "proved",
   "theorems": [
    "Coax.Batching.C22_to_singles",
    "Coax.Batching.C22_concat",
    "Coax.Batching.C22_split_concat",
    "Coax.Batching.C22_concat_split",
    "Coax.Batching.C22_concat_rejects",
    "Coax.Batching.C22_empty_batch"
   ],
   "note": "Arbitrary pytrees. Round trip needs at least one transition: C22_empty_batch shows that an empty batch cannot be restored. The documentation says reverse order; the order is forward."
  },
  {
   "property": "C23",
   "status": "proved",
   "theorems": [
    "Coax.ConnectFour.C23_position",
    "Coax.ConnectFour.C23_no_gaps",
    "Coax.ConnectFour.C23_available",
    "Coax.ConnectFour.C23_token_counts",
    "Coax.ConnectFour.C23_step"
   ],
   "note": "All sequences of step (with any integer, failing calls included) and reset."
  },
  {
   "property": "C24",
   "status": "proved",
   "theorems": [
    "Coax.ConnectFour.C24_win_detection"
   ],
   "note": "FourInRow is stated with directions and coordinates, independent of the filters and windows of the code."
  },
  {
   "property": "C25",
   "status": "proved",
   "theorems": [
    "Coax.ConnectFour.C25_episode_length"
   ],
   "note": "A drawn game with exactly 42 moves is given as example."
  },
  {
   "property": "C26",
   "status": "proved",
   "theorems": [
    "Coax.ConnectFour.C26_errors"
   ],
   "note": ""
  },
  {
   "property": "C27",
   "status": "partial",
   "theorems": [
    "Coax.ConnectFour.C27_length",
    "Coax.ConnectFour.C27_injective",
    "Coax.ConnectFour.C27_round_trip_partial",
    "Coax.ConnectFour.C27_set_state_raises"
   ],
   "note": "state_id is exact and injective. set_state as it is always raises AttributeError (np._base_repr does not exist): C27_set_state_raises; with the name repaired the round trip is proved."
  },
  {
   "property": "C28",
   "status": "partial",
   "theorems": [
    "Coax.ConnectFour.C28_observation_partial",
    "Coax.ConnectFour.C28_step_observation",
    "Coax.ConnectFour.C28_counterexample"
   ],
   "note": "False as documented: channel 0 belongs to the player who just moved (C28_counterexample); the exact content of the observation is proved."
  },
  {
   "property": "C29",
   "status": "proved",
   "theorems": [
    "Coax.Chunks.C29_partition",
    "Coax.Chunks.C29_sizes",
    "Coax.Chunks.C29_concat",
    "Coax.Chunks.C29_empty"
   ],
   "note": "For every proper batch. None leaves are leafless pytrees, as in jax."
  },
  {
   "property": "C30",
   "status": "proved",
   "theorems": [
    "Coax.Stepwise.C30_accepts",
    "Coax.Stepwise.C30_interpolates",
    "Coax.Stepwise.C30_total",
    "Coax.Stepwise.C30_at_steps",
    "Coax.Stepwise.C30_bounds",
    "Coax.Stepwise.C30_continuous"
   ],
   "note": "Exact arithmetic. The interpolation specification determines the value uniquely."
  },
  {
   "property": "C31",
   "status": "proved",
   "theorems": [
    "Coax.Rolling.C31_rolling_total",
    "Coax.Rolling.C31_rolling",
    "Coax.Rolling.C31_exponential_total",
    "Coax.Rolling.C31_exponential_mean",
    "Coax.Rolling.C31_exponential_smoothing",
    "Coax.Rolling.C31_exponential_bounds",
    "Coax.Rolling.C31_degenerate_window"
   ],
   "note": "Exact arithmetic, window at least one; windows of zero or less are characterised separately."
  },
  {
   "property": "C32",
   "status": "proved",
   "theorems": [
    "Coax.Dicts.C32_sync",
    "Coax.Dicts.C32_default_weights",
    "Coax.Dicts.C32_guards",
    "Coax.Dicts.C32_idempotent",
    "Coax.Dicts.C32_structure_mismatch"
   ],
   "note": "Arrays of one shape form a vector space; broadcasting between different shapes is not modelled."
  },
  {
   "property": "C33",
   "status": "proved",
   "theorems": [
    "Coax.Dicts.C33_last_wins",
    "Coax.Dicts.C33_keys",
    "Coax.Dicts.C33_warning"
   ],
   "note": ""
  },
  {
   "property": "C34",
   "status": "proved",
   "theorems": [
    "Coax.EnvAttr.C34_get_found",
    "Coax.EnvAttr.C34_get_missing",
    "Coax.EnvAttr.C34_has",
    "Coax.EnvAttr.C34_agree",
    "Coax.EnvAttr.C34_depth_limit",
    "Coax.EnvAttr.C34_stack",
    "Coax.EnvAttr.C34_env"
   ],
   "note": "All stacks; an attribute below max_depth is reported missing (C34_depth_limit)."
  },
  {
   "property": "C35",
   "status": "proved",
   "theorems": [
    "Coax.FrameStacking.C35_reset",
    "Coax.FrameStacking.C35_step",
    "Coax.FrameStacking.C35_no_padding",
    "Coax.FrameStacking.C35_before_reset",
    "Coax.FrameStacking.C35_rejects"
   ],
   "note": "All histories, any inner environment, errors of the inner environment included."
  },
  {
   "property": "C36",
   "status": "partial",
   "theorems": [
    "Coax.TrainMonitor.C36_counters_partial",
    "Coax.TrainMonitor.C36_avg_G",
    "Coax.TrainMonitor.C36_avg_G_mean",
    "Coax.TrainMonitor.C36_step_result",
    "Coax.TrainMonitor.C36_counterexample"
   ],
   "note": "False for T as stated: reset() also increments T, so T = steps + resets (C36_counterexample). Everything else holds after any history."
  },
  {
   "property": "C37",
   "status": "proved",
   "theorems": [
    "Coax.TrainMonitor.C37_call",
    "Coax.TrainMonitor.C37_rejects",
    "Coax.TrainMonitor.C37_rejects_T",
    "Coax.TrainMonitor.C37_no_interference",
    "Coax.TrainMonitor.C37_once_per_period",
    "Coax.TrainMonitor.C37_fires_iff",
    "Coax.TrainMonitor.C37_catch_up"
   ],
   "note": "All histories of calls of all methods. Once per period needs calls at most k counts apart; otherwise missed firings are made up one per call (C37_catch_up)."
  },
  {
   "property": "C38",
   "status": "proved",
   "theorems": [
    "Coax.TrainMonitor.C38_metrics",
    "Coax.TrainMonitor.C38_metrics_rejects",
    "Coax.TrainMonitor.C38_round_trip",
    "Coax.TrainMonitor.C38_transfer",
    "Coax.TrainMonitor.C38_rejects",
    "Coax.TrainMonitor.C38_accepts",
    "Coax.TrainMonitor.C38_save_load",
    "Coax.TrainMonitor.C38_stale_writer",
    "Coax.TrainMonitor.heap_refines",
    "Coax.TrainMonitor.C38_writer",
    "Coax.TrainMonitor.C38_no_writer",
    "Coax.TrainMonitor.C38_new_directory",
    "Coax.TrainMonitor.C38_heap"
   ],
   "note": "The tensorboard directory must be None or end in a timestamp, as __init__ makes it for every non-empty directory. C38_stale_writer: an already open tensorboard writer for another directory is kept."
  },
  {
   "property": "C39",
   "status": "proved",
   "theorems": [
    "Coax.Streaming.C39_sample",
    "Coax.Streaming.C39_all_held",
    "Coax.Streaming.C39_uniform",
    "Coax.Streaming.C39_certain",
    "Coax.TrainMonitor.C39_monitor"
   ],
   "note": "Retention probability as an iterated integral over independent uniform draws."
  },
  {
   "property": "C40",
   "status": "proved",
   "theorems": [
    "Coax.BoxSpaces.C40_accepts",
    "Coax.BoxSpaces.C40_in_bin",
    "Coax.BoxSpaces.C40_tiling",
    "Coax.BoxSpaces.C40_surjective",
    "Coax.BoxSpaces.C40_rejects",
    "Coax.BoxSpaces.C40_reals_inside",
    "Coax.BoxSpaces.C40_reals_accepts",
    "Coax.BoxSpaces.C40_reals_monotone",
    "Coax.BoxSpaces.C40_reals_surjective"
   ],
   "note": "Exact real arithmetic, finite bounds, Box shape not ()."
  },
  {
   "property": "C41",
   "status": "partial",
   "theorems": [
    "Coax.ActionNoise.C41_recurrence",
    "Coax.ActionNoise.C41_reset",
    "Coax.ActionNoise.C41_bounds_partial",
    "Coax.ActionNoise.C41_counterexample",
    "Coax.ActionNoise.C41_reverts",
    "Coax.ActionNoise.C41_defaults"
   ],
   "note": "False as documented: the noise is clipped, not the action (C41_counterexample)."
  },
  {
   "property": "C42",
   "status": "proved",
   "theorems": [
    "Coax.Values.C42_accepts",
    "Coax.Values.C42_inverse",
    "Coax.Values.C42_odd",
    "Coax.Values.C42_strictMono",
    "Coax.Values.C42_compresses",
    "Coax.Values.C42_near_identity"
   ],
   "note": "Exact real arithmetic."
  },
  {
   "property": "C43",
   "status": "proved",
   "theorems": [
    "Coax.Values.C43_mse",
    "Coax.Values.C43_huber_shape",
    "Coax.Values.C43_huber",
    "Coax.Values.C43_convex",
    "Coax.Values.C43_huber_lipschitz",
    "Coax.Values.C43_logloss_sign",
    "Coax.Values.C43_logloss_agree",
    "Coax.Values.C43_logloss",
    "Coax.Values.C43_weights",
    "Coax.Values.C43_mse_batch",
    "Coax.Values.C43_huber_batch",
    "Coax.Values.C43_empty",
    "Coax.Values.C43_empty_losses"
   ],
   "note": "Exact real arithmetic; batches as rows per sample."
  },
  {
   "property": "C44",
   "status": "proved",
   "theorems": [
    "Coax.Values.C44_weights",
    "Coax.Values.C44_elementwise",
    "Coax.Values.C44_batch"
   ],
   "note": "At the batch level the loss is zero exactly if in each sample every predicted quantile value equals every target value."
  },
  {
   "property": "C45",
   "status": "proved",
   "theorems": [
    "Coax.TD.C45_simpleTD",
    "Coax.TD.C45_sarsa",
    "Coax.TD.C45_sarsaCont",
    "Coax.TD.C45_qLearning",
    "Coax.TD.C45_qLearningCont",
    "Coax.TD.C45_doubleQLearning",
    "Coax.TD.C45_doubleQLearningCont",
    "Coax.TD.C45_expectedSarsa",
    "Coax.TD.C45_softQLearning",
    "Coax.TD.C45_clippedDoubleQ",
    "Coax.TD.C45_clippedDoubleQCont",
    "Coax.Dists.C45_distributional"
   ],
   "note": "Deterministic value functions with finite outputs, and the DiscretizedInterval distribution."
  },
  {
   "property": "C46",
   "status": "partial",
   "theorems": [
    "Coax.TD.C46_qLearning_partial",
    "Coax.TD.C46_qLearning_ties",
    "Coax.TD.C46_doubleQLearning_partial",
    "Coax.TD.C46_double_eq_single",
    "Coax.TD.C46_expectedSarsa_partial",
    "Coax.TD.C46_softQLearning",
    "Coax.TD.C46_clipped_partial",
    "Coax.TD.C46_clippedCont",
    "Coax.TD.C46_sarsa",
    "Coax.TD.C46_simpleTD",
    "Coax.TD.C46_sarsaCont",
    "Coax.TD.C46_qLearningCont",
    "Coax.TD.C46_doubleQLearningCont",
    "Coax.TD.C46_clipped_accepts",
    "Coax.TD.C46_expectedSarsa_type1",
    "Coax.TD.C46_expectedSarsa_type1_iff",
    "Coax.TD.C46_expectedSarsa_type1_partial",
    "Coax.TD.C46_expectedSarsa_counterexample"
   ],
   "note": "False for type-1 q-functions with tied actions: the network is evaluated at the average of the one-hot actions (C46_qLearning_ties). False for ExpectedSarsa with type-1 q-functions: the network is evaluated at the probabilities; right for all policies exactly if the network is the weighted mean there (C46_expectedSarsa_type1_iff), with bounds for convex and concave networks. Proved for type-2 q-functions (all ties) and for type-1 q-functions with one maximising action; ExpectedSarsa bounds for type-2 q-functions."
  },
  {
   "property": "C47",
   "status": "proved",
   "theorems": [
    "Coax.TD.C47_nan",
    "Coax.TD.C47_update",
    "Coax.TD.C47_inversion",
    "Coax.TD.C47_optimizer_error"
   ],
   "note": "The random key moves on in any case. An error raised by the optimizer itself comes after the function state was set."
  },
  {
   "property": "C48",
   "status": "proved",
   "theorems": [
    "Coax.Dists.C48_projection",
    "Coax.Dists.C48_mean",
    "Coax.Dists.C48_output",
    "Coax.Dists.C48_output_mean",
    "Coax.Dists.C48_sorted",
    "Coax.Dists.C48_one_bin",
    "Coax.Dists.C48_preprocess_high"
   ],
   "note": "The projection is exact. The returned logits are floored at log(1e-16), so the normalised output differs by that floor (C48_output_mean)."
  },
  {
   "property": "C49",
   "status": "proved",
   "theorems": [
    "Coax.Dists.C49_probabilities",
    "Coax.Dists.C49_logProba",
    "Coax.Dists.C49_shift",
    "Coax.Dists.C49_formulas",
    "Coax.Dists.C49_kl_eq",
    "Coax.Dists.C49_kl_nonneg",
    "Coax.Dists.C49_entropy_bounds",
    "Coax.Dists.C49_round_trip",
    "Coax.Dists.C49_one_hot",
    "Coax.Dists.C49_mode",
    "Coax.Dists.C49_sample",
    "Coax.Dists.C49_batch",
    "Coax.Dists.C49_batch_rejects",
    "Coax.Dists.C49_default_priors",
    "Coax.Dists.C49_sizes"
   ],
   "note": "Over the reals. Reading an action back draws at random among tied maxima."
  },
  {
   "property": "C50",
   "status": "proved",
   "theorems": [
    "Coax.Dists.C50_log_proba",
    "Coax.Dists.C50_log_proba_constant",
    "Coax.Dists.C50_sample_law",
    "Coax.Dists.C50_cross_entropy",
    "Coax.Dists.C50_entropy",
    "Coax.Dists.C50_kl_eq",
    "Coax.Dists.C50_kl_nonneg",
    "Coax.Dists.C50_init",
    "Coax.Dists.C50_postprocess_in_box",
    "Coax.Dists.C50_round_trip",
    "Coax.Dists.C50_action_round_trip"
   ],
   "note": "Over the reals, one row of a batch. The constant log(2 pi) is a parameter where the source has a rounded literal."
  },
  {
   "property": "C51",
   "status": "partial",
   "theorems": [
    "Coax.Dists.C51_affine_transform_partial",
    "Coax.Dists.C51_counterexample"
   ],
   "note": "False: the mean is not multiplied by the scale. Proved: the variance is right, and the result is right exactly if scale = 1 or all means are zero (no value transform)."
  },
  {
   "property": "C52",
   "status": "proved",
   "theorems": [
    "Coax.Core.C52_rule",
    "Coax.Core.C52_probabilities",
    "Coax.Core.C52_close",
    "Coax.Core.C52_sampled",
    "Coax.Core.C52_mode"
   ],
   "note": "The source adds 1e-15 to each probability before taking logarithms; the exact effect is part of the statement."
  },
  {
   "property": "C53",
   "status": "proved",
   "theorems": [
    "Coax.Core.C53_boltzmann",
    "Coax.Core.C53_shift",
    "Coax.Core.C53_limits",
    "Coax.Core.C53_sampled",
    "Coax.Core.C53_mode"
   ],
   "note": ""
  },
  {
   "property": "C54",
   "status": "proved",
   "theorems": [
    "Coax.Core.C54_soft_update",
    "Coax.Core.C54_rejects",
    "Coax.Core.C54_not_atomic",
    "Coax.Core.C54_tau_one",
    "Coax.Core.C54_tau_zero",
    "Coax.Core.C54_geometric",
    "Coax.Core.C54_stays_between"
   ],
   "note": "Exact field arithmetic."
  },
  {
   "property": "C55",
   "status": "proved",
   "theorems": [
    "Coax.Core.C55_type2_view",
    "Coax.Core.C55_type1_view",
    "Coax.Core.C55_rejects",
    "Coax.Core.C55_agree",
    "Coax.Core.C55_call"
   ],
   "note": ""
  },
  {
   "property": "C56",
   "status": "proved",
   "theorems": [
    "Coax.Pol.C56_objective",
    "Coax.Pol.C56_le_surrogate",
    "Coax.Pol.C56_no_incentive",
    "Coax.Pol.C56_gradient",
    "Coax.Pol.C56_on_policy",
    "Coax.Pol.C56_rejects"
   ],
   "note": ""
  },
  {
   "property": "C57",
   "status": "partial",
   "theorems": [
    "Coax.Pol.C57_counterexample",
    "Coax.Pol.C57_right_iff",
    "Coax.Pol.C57_value_partial",
    "Coax.Pol.C57_contiguous_partial",
    "Coax.Pol.C57_one_off_partial",
    "Coax.Pol.C57_unsorted",
    "Coax.Pol.C57_rejects",
    "Coax.Pol.C57_steps"
   ],
   "note": "False: a selection of steps that is not 0, 1, ..., m counts one step after the end of the episode. Proved: the exact value computed, that it is right for all episodes exactly for the selections 0, ..., m, and that otherwise at most one step too many is counted."
  },
  {
   "property": "C58",
   "status": "proved",
   "theorems": [
    "Coax.Core.C58_rollout",
    "Coax.Core.C58_raises",
    "Coax.Core.C58_once",
    "Coax.Core.C58_no_policy"
   ],
   "note": ""
  },
  {
   "property": "C59",
   "status": "proved",
   "theorems": [
    "Coax.Core.C59_first",
    "Coax.Core.C59_chain",
    "Coax.Core.C59_returns"
   ],
   "note": "With several workers in the chain the warm-up of the calling worker holds at the time of sampling only if the buffer does not shrink in between; this is a hypothesis of that conjunct."
  },
  {
   "property": "C60",
   "status": "partial",
   "theorems": [
    "Coax.TrainMonitor.C60_counterexample",
    "Coax.TrainMonitor.C60_snapshot_partial",
    "Coax.TrainMonitor.C60_metrics"
   ],
   "note": "False: get_counters hands out references (C60_counterexample). What set_counters restores then is characterised."
  },
  {
   "property": "C61",
   "status": "partial",
   "theorems": [
    "Coax.Dists.C61_in_box",
    "Coax.Dists.C61_default_raises",
    "Coax.Dists.C61_log_proba_of_tanh",
    "Coax.Dists.C61_log_proba_partial",
    "Coax.Dists.C61_counterexample"
   ],
   "note": "False for a Box other than [-1,1]^d: log_proba leaves out scale and offset. Proved for [-1,1]^d, away from the edge. With the default clip_logvar=None sample and log_proba raise TypeError."
  },
  {
   "property": "C62",
   "status": "proved",
   "theorems": [
    "Coax.Dists.C62_sample_distribution"
   ],
   "note": "Random numbers uniform on (0,1), as real numbers."
  },
  {
   "property": "C63",
   "status": "partial",
   "theorems": [
    "Coax.Core.C63_log_propensity_partial",
    "Coax.Core.C63_counterexample"
   ],
   "note": "False: the log-propensity is that of the soft Gumbel-softmax variate, not of the returned action. Proved: it is a weighted mean of the log-probabilities, and right for uniform policies."
  },
  {
   "property": "C64",
   "status": "proved",
   "theorems": [
    "Coax.Pol.C64_loss",
    "Coax.Pol.C64_mismatch",
    "Coax.Pol.C64_soft",
    "Coax.Pol.C64_deterministic",
    "Coax.Pol.C64_soft_checks",
    "Coax.Pol.C64_broadcast"
   ],
   "note": ""
  },
  {
   "property": "C65",
   "status": "proved",
   "theorems": [
    "Coax.Pol.C65_entropy",
    "Coax.Pol.C65_default_priors",
    "Coax.Pol.C65_kl",
    "Coax.Pol.C65_batch_eval"
   ],
   "note": "Categorical policies."
  },
  {
   "property": "C66",
   "status": "proved",
   "theorems": [
    "Coax.Core.C66_push_pull",
    "Coax.Core.C66_accepts"
   ],
   "note": ""
  },
  {
   "property": "C67",
   "status": "proved",
   "theorems": [
    "Coax.TD.C67_td_error",
    "Coax.TD.C67_gradient",
    "Coax.TD.C67_sign",
    "Coax.TD.C67_total"
   ],
   "note": ""
  },
  {
   "property": "C68",
   "status": "partial",
   "theorems": [
    "Coax.TD.C68_shift",
    "Coax.TD.C68_deterministic_partial",
    "Coax.TD.C68_quantile",
    "Coax.TD.C68_counterexample",
    "Coax.TD.C68_interval_partial",
    "Coax.TD.C68_interval_counterexample"
   ],
   "note": "False for deterministic value functions with a value transform: the regularizer is subtracted from the transformed target. Proved without value transform, and for quantile value functions with any value transform. For discretized intervals the distribution is not that of the regularized return, because it is projected twice (C68_interval_counterexample); the mean is right up to the floor of the logarithm if the returns stay away from the ends (C68_interval_partial)."
  },
  {
   "property": "C69",
   "status": "partial",
   "theorems": [
    "Coax.TD.C69_deterministic_partial",
    "Coax.TD.C69_quantile",
    "Coax.TD.C69_interval_ignores",
    "Coax.TD.C69_counterexample"
   ],
   "note": "False for value functions with a discretized interval, whose loss ignores the weights. Proved for deterministic and quantile value functions."
  },
  {
   "property": "C70",
   "status": "proved",
   "theorems": [
    "Coax.TD.C70_sarsa",
    "Coax.TD.C70_qLearning",
    "Coax.TD.C70_doubleQLearning",
    "Coax.TD.C70_simpleTD",
    "Coax.TD.C70_qLearningCont",
    "Coax.TD.C70_doubleQLearningCont",
    "Coax.TD.C70_clippedCont",
    "Coax.TD.C70_clipped",
    "Coax.TD.C70_quantile",
    "Coax.TD.C70_interval",
    "Coax.TD.C70_terminal_quantile",
    "Coax.TD.C70_terminal_interval"
   ],
   "note": ""
  },
  {
   "property": "C71",
   "status": "partial",
   "theorems": [
    "Coax.TD.C71_quantile_partial",
    "Coax.TD.C71_counterexample"
   ],
   "note": "False for discretized intervals: ExpectedSarsa averages the logits over the policy, not the distributions. Proved for quantile value functions."
  },
  {
   "property": "C72",
   "status": "partial",
   "theorems": [
    "Coax.TD.C72_interval_partial",
    "Coax.TD.C72_quantile",
    "Coax.TD.C72_counterexample",
    "Coax.TD.C72_dist_params"
   ],
   "note": "False for quantile value functions: the base class method postprocess_variate ignores the index, so mean(s) repeats the value of action 0. Proved for discretized intervals, and for dist_params with both."
  },
  {
   "property": "C73",
   "status": "partial",
   "theorems": [
    "Coax.TD.C73_returns",
    "Coax.TD.C73_identity_partial",
    "Coax.TD.C73_counterexample",
    "Coax.TD.C73_returns_v",
    "Coax.TD.C73_counterexample_v"
   ],
   "note": "False with a value transform: StochasticQ and StochasticV return the mean of the transformed distribution and never apply the inverse. Proved without value transform."
  },
  {
   "property": "C74",
   "status": "proved",
   "theorems": [
    "Coax.Dists.C74_density",
    "Coax.Dists.C74_entropy",
    "Coax.Dists.C74_kl"
   ],
   "note": ""
  },
  {
   "property": "C75",
   "status": "partial",
   "theorems": [
    "Coax.TD.C75_interval_partial",
    "Coax.TD.C75_counterexample"
   ],
   "note": "False for quantile value functions: the quantile Huber loss is quadratic near zero, so its minimum is not at the target values. Proved for discretized intervals."
  },
  {
   "property": "C76",
   "status": "partial",
   "theorems": [
    "Coax.Dists.C76_clean_partial",
    "Coax.Dists.C76_round_trip_partial",
    "Coax.Dists.C76_counterexample"
   ],
   "note": "False for a Discrete space with start other than 0, which the code ignores. Proved for all other nested spaces."
  },
  {
   "property": "C77",
   "status": "partial",
   "theorems": [
    "Coax.Core.C77_agree",
    "Coax.Core.C77_value_partial",
    "Coax.Core.C77_expected_partial",
    "Coax.Core.C77_counterexample_reward",
    "Coax.Core.C77_counterexample_mean"
   ],
   "note": "q(s)[a] = q(s, a) is proved in general. The equation with reward and value is false for reward functions with a value transform (it is not undone) and for stochastic transition models with a value that is not affine (the value of the mean successor is used); proved otherwise."
  },
  {
   "property": "C78",
   "status": "partial",
   "theorems": [
    "Coax.Dyn.C78_reward",
    "Coax.Dyn.C78_reward_fit",
    "Coax.Dyn.C78_transition",
    "Coax.Dyn.C78_transition_fit",
    "Coax.Dyn.C78_tree_rejected",
    "Coax.Dyn.C78_regularized",
    "Coax.Dyn.C78_regularizer_deterministic",
    "Coax.Dyn.C78_stochastic",
    "Coax.Dyn.C78_counterexample",
    "Coax.Dyn.C78_stochastic_reward_rejected",
    "Coax.Dyn.C78_stochastic_reward_mixes",
    "Coax.Dyn.C78_stochastic_reward_one",
    "Coax.Dyn.C78_stochastic_reward_one_bin",
    "Coax.Dyn.C78_nan"
   ],
   "note": "Proved for deterministic reward functions and transition models with array observations. False for stochastic transition models (the expected loss adds the variance of the model, so it is driven to zero), for stochastic reward functions (shapes do not match), and for nested observations (rejected)."
  },
  {
   "property": "C79",
   "status": "proved",
   "theorems": [
    "Coax.Utils.C79_differences",
    "Coax.Utils.C79_involution",
    "Coax.Utils.C79_static",
    "Coax.Utils.C79_matrix"
   ],
   "note": "For every number of frames."
  },
  {
   "property": "C80",
   "status": "partial",
   "theorems": [
    "Coax.Utils.C80_split",
    "Coax.Utils.C80_expected",
    "Coax.Utils.C80_uniform_biased",
    "Coax.Utils.C80_equal",
    "Coax.Utils.C80_batch",
    "Coax.Utils.C80_value_bias",
    "Coax.Utils.C80_embedding",
    "Coax.Utils.C80_embedding_shift",
    "Coax.Utils.C80_embedding_counterexample"
   ],
   "note": "Split, expected fractions and injectivity are proved. The embedding is not the documented one (features 1..n instead of 0..n-1), and the fractions are biased: the value computed from fixed fractions falls short of the mean, with the exact bounds proved."
  },
  {
   "property": "C81",
   "status": "partial",
   "theorems": [
    "Coax.Utils.C81_batch",
    "Coax.Utils.C81_round",
    "Coax.Utils.C81_injective_partial",
    "Coax.Utils.C81_start_ignored"
   ],
   "note": "Agreement of batches and single members and the round trip are proved for all nested spaces; injectivity fails for Discrete spaces with start (C81_start_ignored) and is proved for start=0."
  },
  {
   "property": "C82",
   "status": "partial",
   "theorems": [
    "Coax.Utils.C82_member_partial",
    "Coax.Utils.C82_box_counterexample",
    "Coax.Utils.C82_start_counterexample"
   ],
   "note": "False for a Box that does not contain zero and for Discrete spaces with start; proved for all other nested spaces."
  },
  {
   "property": "C83",
   "status": "proved",
   "theorems": [
    "Coax.Utils.C83_maximiser",
    "Coax.Utils.C83_float_noise",
    "Coax.Utils.C83_float",
    "Coax.Utils.C83_refines",
    "Coax.Utils.C83_even",
    "Coax.Utils.C83_counterexample"
   ],
   "note": "A maximising index for all noise with a range below 100, which is shown to hold for all float32 uniform random numbers; the exact probabilities are given for exact uniform random numbers. In exact arithmetic another index is possible, with probability about e^-100 (C83_counterexample)."
  },
  {
   "property": "C84",
   "status": "proved",
   "theorems": [
    "Coax.TD.C84_simpleTD",
    "Coax.TD.C84_sarsa",
    "Coax.TD.C84_expectedSarsa",
    "Coax.TD.C84_qLearning",
    "Coax.TD.C84_softQLearning",
    "Coax.TD.C84_convergence",
    "Coax.TD.C84_double_counterexample"
   ],
   "note": "One-step contraction for five updaters with identity value transform; convergence of exact fitted iteration for QLearning. DoubleQLearning is not a contraction (C84_double_counterexample), as the statement says."
  },
  {
   "property": "C85",
   "status": "proved",
   "theorems": [
    "Coax.TD.C85_softQLearning",
    "Coax.TD.C85_expectedSarsa"
   ],
   "note": "For every value transform in C85_softQLearning; C85_expectedSarsa compares two targets without value transform."
  },
  {
   "property": "C86",
   "status": "proved",
   "theorems": [
    "Coax.Pol.C86_vanilla",
    "Coax.Pol.C86_ppo",
    "Coax.Pol.C86_baseline"
   ],
   "note": "Categorical policies with any differentiable logits; the actions of the batch are drawn independently, one per state."
  },
  {
   "property": "C87",
   "status": "partial",
   "theorems": [
    "Coax.Replay.C87_unnormalised_partial",
    "Coax.Replay.C87_batch_of_one",
    "Coax.Replay.C87_batch_of_one_biased",
    "Coax.Replay.C87_counterexample"
   ],
   "note": "False: the weights are divided by the largest of the batch, which depends on what was drawn; in a batch of one nothing is corrected. Proved: before that division the weights are exactly right with beta = 1."
  },
  {
   "property": "C88",
   "status": "proved",
   "theorems": [
    "Coax.Loop.C88_targets",
    "Coax.Loop.C88_qLearning",
    "Coax.Loop.C88_simpleTD",
    "Coax.Loop.C88_sarsa",
    "Coax.Loop.C88_no_errors",
    "Coax.Loop.C88_ready",
    "Coax.Loop.C88_truncation_counterexample"
   ],
   "note": "For every row-wise updater and every interleaving of steps, updates, clears and other users of random. Episodes are those that the loop reports to the tracer: many example scripts pass done instead of done or truncated, so that transitions cross time limits (C88_truncation_counterexample)."
  },
  {
   "property": "C89",
   "status": "partial",
   "theorems": [
    "Coax.Core.C89_box",
    "Coax.Core.C89_discrete_raises",
    "Coax.Core.C89_discrete_params",
    "Coax.Core.C89_integer_counterexample",
    "Coax.Core.C89_params_counterexample",
    "Coax.Core.C89_mode_is_random"
   ],
   "note": "Holds for the log-propensity of float Boxes and for the distribution parameters of Discrete spaces. False otherwise: Discrete raises AttributeError, integer Boxes and the parameters of Boxes are wrong."
  },
  {
   "property": "C90",
   "status": "proved",
   "theorems": [
    "Coax.Core.C90_call",
    "Coax.Core.C90_agree"
   ],
   "note": "Discrete actions; networks of both types whose rows do not influence each other."
  },
  {
   "property": "C91",
   "status": "partial",
   "theorems": [
    "Coax.Wrappers.C91_plays",
    "Coax.Wrappers.C91_rejects",
    "Coax.Wrappers.C91_no_getargspec"
   ],
   "note": "For Python versions that have inspect.getargspec and arms that are plain functions; from Python 3.11 on every step raises AttributeError (C91_no_getargspec)."
  },
  {
   "property": "C92",
   "status": "partial",
   "theorems": [
    "Coax.Utils.C92_make_partial",
    "Coax.Utils.C92_make_ambiguous",
    "Coax.Utils.C92_make_first_wins",
    "Coax.Utils.C92_make_counterexample",
    "Coax.Utils.C92_observation",
    "Coax.Utils.C92_rejects",
    "Coax.Utils.C92_terminated_partial",
    "Coax.Utils.C92_time_limit_counterexample"
   ],
   "note": "Observations are proved. False: make_dmc ignores its arguments if the same domain and task was made before; time limits of dm_control are reported as termination."
  },
  {
   "property": "C93",
   "status": "proved",
   "theorems": [
    "Coax.Utils.C93_inverse_of_vmap",
    "Coax.Utils.C93_rejects"
   ],
   "note": "For every function f that is the batched version of g along the given axes (integers, negative integers, None, or one per argument)."
  },
  {
   "property": "C94",
   "status": "partial",
   "theorems": [
    "Coax.Utils.C94_aligned",
    "Coax.Utils.C94_succeeds",
    "Coax.Utils.C94_rejects",
    "Coax.Utils.C94_axis_ignored",
    "Coax.Utils.C94_axis_counterexample"
   ],
   "note": "Holds for axis 0. False of the documented argument axis, which is ignored (C94_axis_counterexample); leaves that are not arrays raise AttributeError instead of the intended TypeError (C94_rejects)."
  },
  {
   "property": "C95",
   "status": "proved",
   "theorems": [
    "Coax.Utils.C95_round_trip",
    "Coax.Utils.C95_rejects",
    "Coax.Utils.C95_truncates"
   ],
   "note": "Lists of parameters and of states of equal length; if one is shorter, networks are dropped without an error (C95_truncates)."
  },
  {
   "property": "C96",
   "status": "proved",
   "theorems": [
    "Coax.Utils.C96_splits",
    "Coax.Utils.C96_injective",
    "Coax.Utils.C96_magnitude"
   ],
   "note": "Arrays of shape (batch, features), exact numbers."
  },
  {
   "property": "C97",
   "status": "proved",
   "theorems": [
    "Coax.Utils.C97_grads",
    "Coax.Utils.C97_tree",
    "Coax.Utils.C97_empty",
    "Coax.Utils.C97_quantiles"
   ],
   "note": "Exact numbers; keys of the dictionaries are not modelled."
  },
  {
   "property": "C98",
   "status": "proved",
   "theorems": [
    "Coax.Loop.C98_priorities",
    "Coax.Loop.C98_batches",
    "Coax.Loop.C98_probability",
    "Coax.Loop.C98_step",
    "Coax.Loop.C98_complete",
    "Coax.Loop.C98_learn",
    "Coax.Loop.C98_no_errors",
    "Coax.Loop.C98_first_step",
    "Coax.Loop.C98_clear_counterexample"
   ],
   "note": "For every updater that returns one TD error per row, every number of interleaved actors, sampled batches and updates; exact numbers. The stub dqn_per.py samples before anything is stored and raises at its first step (C98_first_step). Learning from a batch sampled before buffer.clear() is outside of the statement (C98_clear_counterexample); no example script clears this buffer."
  },
  {
   "property": "C99",
   "status": "partial",
   "theorems": [
    "Coax.Loop.C99_no_errors",
    "Coax.Loop.C99_when",
    "Coax.Loop.C99_rounds_partial",
    "Coax.Loop.C99_lost_partial",
    "Coax.Loop.C99_stale_counterexample",
    "Coax.Loop.C99_lost_counterexample"
   ],
   "note": "The claim that a round only uses transitions of the present policy is false for the first n rows (C99_stale_counterexample), and transitions are lost if the end of an episode completes more than fit in the buffer (C99_lost_counterexample). Proved: everything else, and bounds on both. Log-propensities are assumed non-positive (see C100)."
  }
 ]
}
