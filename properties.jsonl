{"id": "C01", "title": "Segment tree root is the reduction of all values", "statement": "After any sequence of set_values calls on a freshly built SegmentTree, root_value equals the reduction of the current `values` (padded with the unit element), and every entry tree[level, k] equals reducer(tree[level+1, 2k], tree[level+1, 2k+1]).", "quantifier": "all capacities >= 1, all value types, all associative reducers with unit init_value, all finite histories of set_values calls with arbitrary (duplicated, unsorted, negative, rejected) index lists", "why_tests_cant": "the tree is repaired only along the touched paths; a stale inner node can depend on any earlier history of overlapping batched writes and on capacities that are not powers of two", "anchors": ["coax/utils/_segment_tree.py:SegmentTree.__init__", "coax/utils/_segment_tree.py:SegmentTree.set_values", "coax/utils/_segment_tree.py:SegmentTree.root_value"]}
{"id": "C02", "title": "Segment tree writes are read back", "statement": "After set_values(idx, vals) succeeds, values[i] is the last value assigned to position i (negative positions counted from the end) and is unchanged when i is not mentioned; a call with any out-of-range position raises IndexError and changes nothing.", "quantifier": "all capacities, all index lists, all values, all prior histories", "why_tests_cant": "duplicate, negative and unsorted batched indices give unboundedly many cases", "anchors": ["coax/utils/_segment_tree.py:SegmentTree.set_values", "coax/utils/_segment_tree.py:SegmentTree._check_idx", "coax/utils/_segment_tree.py:SegmentTree.values"]}
{"id": "C03", "title": "Partial reduction equals the reduction of the slice", "statement": "partial_reduce(start, stop) returns reduce(reducer, values[start:stop]) (documented as an efficient implementation of functools.reduce).", "quantifier": "all capacities, all 0 <= start < stop <= capacity, all reachable trees, all associative reducers with a unit; the batched form for every list of ranges", "why_tests_cant": "the number of (capacity, start, stop, history) combinations is unbounded and the climb has a data-dependent number of steps; non-commutative reducers are never exercised by the sum/min/max tests", "anchors": ["coax/utils/_segment_tree.py:SegmentTree.partial_reduce", "coax/utils/_segment_tree.py:SegmentTree._check_start_stop_to_i_j"]}
{"id": "C04", "title": "Malformed ranges are rejected by partial_reduce", "statement": "partial_reduce raises IndexError for an empty or out-of-range (start, stop) instead of returning the reduction of some other slice.", "quantifier": "all capacities and all integer pairs (start, stop)", "why_tests_cant": "the wrap-around behaviour depends on the residues of both arguments modulo the capacity", "anchors": ["coax/utils/_segment_tree.py:SegmentTree._check_start_stop_to_i_j"]}
{"id": "C05", "title": "SumTree.inverse_cdf inverts the cumulative distribution", "statement": "For u in [0,1) on a tree of non-negative values with positive total, inverse_cdf(u) is the unique i < capacity with sum(values[:i]) <= u*sum(values) < sum(values[:i+1]); in particular values[i] > 0.", "quantifier": "all capacities, all non-negative value vectors with positive sum reached by any history, all u in [0,1)", "why_tests_cant": "boundary values of u at cumulative sums and zero-weight leaves next to them are measure-zero cases that random tests do not hit", "anchors": ["coax/utils/_segment_tree.py:SumTree.inverse_cdf"]}
{"id": "C06", "title": "SumTree samples are proportional to the values", "statement": "The set of u in [0,1) that inverse_cdf maps to i is an interval of length values[i]/sum(values), so sample() draws i with exactly that probability; sampled indices always have positive value.", "quantifier": "all capacities, all non-negative value vectors with positive sum, all uniform draws", "why_tests_cant": "a sampling test can only estimate frequencies", "anchors": ["coax/utils/_segment_tree.py:SumTree.sample", "coax/utils/_segment_tree.py:SumTree.inverse_cdf"]}
{"id": "C07", "title": "inverse_cdf accepts the whole closed unit interval and rejects the rest", "statement": "inverse_cdf raises RuntimeError when the total is not positive, ValueError when some u < 0 or u > 1, and for every u in the documented interval [0,1] returns an index of a value with positive weight.", "quantifier": "all trees and all u", "why_tests_cant": "u = 1 is a single point of the interval; whether it works depends on the values at the far right of the tree", "anchors": ["coax/utils/_segment_tree.py:SumTree.inverse_cdf", "coax/utils/_segment_tree.py:SumTree._check_u"]}
{"id": "C08", "title": "SimpleReplayBuffer keeps exactly the most recent transitions", "statement": "After any history of add and clear calls, iterating the buffer yields exactly the last min(capacity, number added since the last clear) transitions in insertion order, each carrying as idx its insertion number since the last clear; len never exceeds capacity.", "quantifier": "all capacities, all histories of add (any batch sizes, also larger than capacity) and clear", "why_tests_cant": "wrap-around depends on the whole history and on batch sizes relative to the capacity", "anchors": ["coax/experience_replay/_simple.py:SimpleReplayBuffer.add", "coax/experience_replay/_simple.py:SimpleReplayBuffer.clear", "coax/experience_replay/_simple.py:SimpleReplayBuffer.__len__"]}
{"id": "C09", "title": "SimpleReplayBuffer.sample returns distinct stored transitions", "statement": "sample(k) returns k transitions at distinct positions of the buffer when k <= len and raises ValueError otherwise; it leaves the stored transitions untouched, and the draw does not depend on what other code did to the global random state.", "quantifier": "all buffer contents, all k, all random-number streams, all interleavings with other users of the global generator", "why_tests_cant": "quantifies over all random streams and interleavings", "anchors": ["coax/experience_replay/_simple.py:SimpleReplayBuffer.sample"]}
{"id": "C10", "title": "PrioritizedReplayBuffer keeps exactly the most recent transitions", "statement": "After any history of add, update, alpha/beta/epsilon changes, sample and clear calls, slot idx % capacity holds the transition with identifier idx for exactly the last min(capacity, total) identifiers, and len equals that number; it stores the same transitions as a SimpleReplayBuffer fed the same data.", "quantifier": "all capacities, all histories", "why_tests_cant": "the ring-buffer arithmetic must hold for every history and every batch size, including batches larger than the capacity", "anchors": ["coax/experience_replay/_prioritized.py:PrioritizedReplayBuffer.add", "coax/experience_replay/_prioritized.py:PrioritizedReplayBuffer.clear", "coax/experience_replay/_prioritized.py:PrioritizedReplayBuffer.__len__"]}
{"id": "C11", "title": "Priorities in PrioritizedReplayBuffer are those last assigned", "statement": "After any history, the sampling weight of every stored transition is (|Adv|+epsilon)^alpha for the advantage most recently supplied for that identifier (at add or at a later update), empty slots have weight 0, and the normaliser is the sum of the weights of the stored transitions.", "quantifier": "all capacities, all histories of add and update with arbitrary identifier lists", "why_tests_cant": "stale identifiers, duplicates inside one update call and ring wrap-around interact over long histories", "anchors": ["coax/experience_replay/_prioritized.py:PrioritizedReplayBuffer.add", "coax/experience_replay/_prioritized.py:PrioritizedReplayBuffer.update"]}
{"id": "C12", "title": "Stale priority updates never touch newer transitions", "statement": "update(idx, Adv) with an identifier whose transition has been overwritten leaves the weight of the transition now in that slot unchanged; it also never masks an update made for a live identifier in the same call.", "quantifier": "all buffer histories, all identifier lists (mixing live and stale identifiers) and advantages", "why_tests_cant": "only particular orders of live and stale identifiers with the same residue expose the interaction", "anchors": ["coax/experience_replay/_prioritized.py:PrioritizedReplayBuffer.update"]}
{"id": "C13", "title": "Importance weights of a prioritized sample", "statement": "A prioritized sample multiplies the stored W by w_i = (N p_i)^(-beta) / max_j (N p_j)^(-beta); all these factors lie in (0,1], at least one equals 1, and lower-priority transitions get the larger factor.", "quantifier": "all buffer contents with positive weights, all beta > 0, all sampled index lists", "why_tests_cant": "real-analysis inequality over all weights and exponents", "anchors": ["coax/experience_replay/_prioritized.py:PrioritizedReplayBuffer.sample"]}
{"id": "C14", "title": "Changing alpha re-weights stored priorities consistently", "statement": "After alpha is set to a new value every stored transition has the weight it would have had if it had been inserted with the new alpha ((|Adv|+epsilon)^alpha_new), empty slots keep weight 0, and relative tolerance no-ops leave alpha and the weights unchanged.", "quantifier": "all buffer contents, all alpha histories", "why_tests_cant": "compositions of several alpha changes with adds in between are unbounded", "anchors": ["coax/experience_replay/_prioritized.py:PrioritizedReplayBuffer.alpha"]}
{"id": "C15", "title": "n-step transitions are correct under any interleaving of add and pop", "statement": "The t-th transition popped for an episode has S=s_t, A=a_t, Rn=sum_{k<n, t+k<=T} gamma^k r_{t+k}; and if s_{t+n} exists then S_next=s_{t+n}, A_next=a_{t+n}, In=gamma^n, otherwise In=0.", "quantifier": "all n >= 1, all gamma in [0,1], all episodes, all interleavings of add and pop (including eager and lazy popping), any number of consecutive episodes", "why_tests_cant": "the interleaving of adds and pops and the episode length are unbounded", "anchors": ["coax/reward_tracing/_nstep.py:NStep.add", "coax/reward_tracing/_nstep.py:NStep.pop"]}
{"id": "C16", "title": "n-step tracing loses and duplicates nothing", "statement": "Over any sequence of operations in which every finished episode is popped until empty, the popped transitions are exactly the added ones, each once, in order, and no popped transition uses a reward or a state from a different episode.", "quantifier": "all n, gamma, all histories of add, pop, flush over any number of episodes", "why_tests_cant": "quantifies over whole histories", "anchors": ["coax/reward_tracing/_nstep.py:NStep.pop", "coax/reward_tracing/_base.py:BaseRewardTracer.flush"]}
{"id": "C17", "title": "NStep error behaviour", "statement": "add raises EpisodeDoneError exactly when a finished episode is still cached, pop and flush raise InsufficientCacheError exactly when bool(tracer) is False, and a raising call leaves the tracer unchanged; flush returns what repeated pops would return and leaves bool(tracer) False.", "quantifier": "all reachable tracer states and all calls", "why_tests_cant": "must hold at every point of every history", "anchors": ["coax/reward_tracing/_nstep.py:NStep.add", "coax/reward_tracing/_nstep.py:NStep.pop", "coax/reward_tracing/_base.py:BaseRewardTracer.flush"]}
{"id": "C18", "title": "NStep extra_info describes the n+1 steps from t", "statement": "With record_extra_info, the popped transition carries tuples of length n+1 whose k-th entries are (s,a,r,logp,w) of step t+k while that step exists (afterwards the last step repeated) and whose done flags are True exactly from the terminal step on.", "quantifier": "all n, all episodes, all pops", "why_tests_cant": "the padding logic depends on the distance to the end of the episode", "anchors": ["coax/reward_tracing/_nstep.py:NStep._extra_info"]}
{"id": "C19", "title": "Monte-Carlo returns", "statement": "Popping a finished episode yields its transitions in reverse order, each once, with Rn = sum_{k} gamma^k r_{t+k} up to the end of the episode and In = 0; pop and add raise exactly in the documented situations; consecutive episodes do not contaminate each other.", "quantifier": "all gamma, all episodes, all histories", "why_tests_cant": "the accumulator is carried across pops and episodes; histories are unbounded", "anchors": ["coax/reward_tracing/_montecarlo.py:MonteCarlo.add", "coax/reward_tracing/_montecarlo.py:MonteCarlo.pop"]}
{"id": "C20", "title": "NStep with a long horizon agrees with MonteCarlo", "statement": "For n at least the episode length, NStep and MonteCarlo produce the same set of (S, A, Rn, In, W) for the same finished episode.", "quantifier": "all episodes, gamma and all n >= episode length", "why_tests_cant": "equivalence of two stateful programs on all inputs", "anchors": ["coax/reward_tracing/_nstep.py:NStep", "coax/reward_tracing/_montecarlo.py:MonteCarlo"]}
{"id": "C21", "title": "TransitionBatch.from_single validation and bootstrap factor", "statement": "from_single raises TypeError exactly when logp > 0, logp_next > 0, gamma outside [0,1] or w <= 0; otherwise it gives a batch of size one with In = gamma if not done and 0 if done, and W = w.", "quantifier": "all inputs", "why_tests_cant": "input space is infinite", "anchors": ["coax/reward_tracing/_transition.py:TransitionBatch.from_single"]}
{"id": "C22", "title": "Splitting and concatenating transition batches are inverse", "statement": "to_singles yields batch_size batches of size one in forward order, and concatenating them (as the buffers and flush do) restores the original batch; concatenation then splitting restores the list of singles.", "quantifier": "all batches of any size", "why_tests_cant": "all sizes and contents; the documentation says reverse order", "anchors": ["coax/reward_tracing/_transition.py:TransitionBatch.to_singles", "coax/experience_replay/_simple.py:SimpleReplayBuffer.sample", "coax/reward_tracing/_base.py:BaseRewardTracer.flush"]}
{"id": "C23", "title": "Connect-Four board stays legal", "statement": "In every position reachable from reset, tokens in each column are stacked without gaps, the available actions are exactly the columns that are not full, the numbers of tokens of the players differ by at most one, and each step adds exactly one token on top of the chosen column and changes nothing else.", "quantifier": "all sequences of actions", "why_tests_cant": "there are about 4.5e12 reachable positions", "anchors": ["coax/envs/_connect_four.py:ConnectFourEnv.step", "coax/envs/_connect_four.py:ConnectFourEnv.available_actions", "coax/envs/_connect_four.py:ConnectFourEnv._done_reward"]}
{"id": "C24", "title": "Connect-Four win detection is exact", "statement": "After a step, done with reward 1 is reported exactly when the player that just moved has four tokens in a row horizontally, vertically or diagonally; done with reward 0 exactly when nobody has four in a row and the board is full; otherwise not done and reward 0.", "quantifier": "all reachable positions and moves", "why_tests_cant": "4.5e12 positions; a missed window or filter would show only in particular positions", "anchors": ["coax/envs/_connect_four.py:ConnectFourEnv._done_reward", "coax/envs/_connect_four.py:ConnectFourEnv.filters"]}
{"id": "C25", "title": "Connect-Four episodes end within 42 moves", "statement": "No episode has more than max_time_steps = 42 successful steps, as long as an episode is not done at least one action is available, and a done episode accepts no step.", "quantifier": "all play sequences", "why_tests_cant": "all action sequences", "anchors": ["coax/envs/_connect_four.py:ConnectFourEnv.step"]}
{"id": "C26", "title": "Connect-Four errors", "statement": "step raises EpisodeDoneError when the episode is done, ValueError when the action is not in 0..6, UnavailableActionError when the column is full, succeeds otherwise, and leaves the position unchanged when it raises.", "quantifier": "all reachable positions and all integer actions", "why_tests_cant": "must hold in every reachable position", "anchors": ["coax/envs/_connect_four.py:ConnectFourEnv.step"]}
{"id": "C27", "title": "Connect-Four state_id round trip", "statement": "state_id is a 20-character string, set_state(state_id) on any environment restores the exact position (board, column heights, player order, previous action, done), and two reachable positions have the same state_id only if they are equal.", "quantifier": "all reachable positions", "why_tests_cant": "encoding of 3^42 boards", "anchors": ["coax/envs/_connect_four.py:ConnectFourEnv.state_id", "coax/envs/_connect_four.py:ConnectFourEnv.set_state"]}
{"id": "C28", "title": "Connect-Four observation encodes the position from the side to move", "statement": "The observation's first channel holds the tokens of the player whose turn it is, the second those of the other player, swapping each turn; the first row is the mask of available actions.", "quantifier": "all reachable positions", "why_tests_cant": "must hold in every reachable position", "anchors": ["coax/envs/_connect_four.py:ConnectFourEnv.state"]}
{"id": "C29", "title": "chunks_pow2 partitions a batch", "statement": "chunks_pow2(batch) yields consecutive chunks whose sizes are distinct powers of two in decreasing order and whose concatenation is the batch; the number of chunks is the number of one bits of the batch size.", "quantifier": "all batch sizes and contents", "why_tests_cant": "all sizes", "anchors": ["coax/utils/_array.py:chunks_pow2"]}
{"id": "C30", "title": "StepwiseLinearFunction interpolates its steps", "statement": "The function equals value_k at timestep_k, is the straight line between consecutive steps, constant before the first and after the last, continuous, and stays within [min value, max value]; malformed step lists are rejected.", "quantifier": "all step lists of any length, all time points", "why_tests_cant": "all real time points and all step lists", "anchors": ["coax/utils/_array.py:StepwiseLinearFunction"]}
{"id": "C31", "title": "RollingAverage is the mean of the last n observations", "statement": "After any sequence of updates the reported value is the arithmetic mean of the last min(n, count) observations; ExponentialAverage is the plain mean for the first n observations and then a convex combination, so it always lies between the minimum and maximum seen.", "quantifier": "all window sizes, all observation sequences", "why_tests_cant": "incremental formula drift accumulates over unbounded histories", "anchors": ["coax/utils/_rolling.py:RollingAverage.update", "coax/utils/_rolling.py:ExponentialAverage.update"]}
{"id": "C32", "title": "sync_shared_params averages exactly the shared entries", "statement": "sync_shared_params returns one params dict per input with the same keys; entries whose key occurs in a single input are unchanged; entries whose key is shared are replaced in all holders by the same weighted average over the holders; applying it twice equals applying it once; fewer than two inputs are returned unchanged; a weights list of the wrong length raises ValueError.", "quantifier": "all families of params dicts, all positive weights", "why_tests_cant": "arbitrary overlap structure between any number of dicts", "anchors": ["coax/utils/_array.py:sync_shared_params"]}
{"id": "C33", "title": "merge_dicts", "statement": "merge_dicts(*dicts) maps each key to its value in the last dict that contains it, contains no other keys, and warns exactly when two dicts overlap.", "quantifier": "all lists of dicts", "why_tests_cant": "all overlap structures", "anchors": ["coax/utils/_array.py:merge_dicts"]}
{"id": "C34", "title": "Wrapper attribute lookup", "statement": "get_env_attr(env, name) returns the attribute of the outermost wrapper that has it, searching inwards; has_env_attr is True exactly when that search succeeds; a missing attribute yields the default or AttributeError.", "quantifier": "all wrapper stacks of any depth up to the documented limit", "why_tests_cant": "all stack depths", "anchors": ["coax/utils/_misc.py:get_env_attr", "coax/utils/_misc.py:has_env_attr"]}
{"id": "C35", "title": "FrameStacking returns the last num_frames observations", "statement": "After reset and any number of steps the observation is the tuple of the last num_frames observations of the current episode, oldest first, padded on the left with the first observation of the episode.", "quantifier": "all num_frames >= 1, all histories of reset and step", "why_tests_cant": "all histories", "anchors": ["coax/wrappers/_frame_stacking.py:FrameStacking.step", "coax/wrappers/_frame_stacking.py:FrameStacking.reset"]}
{"id": "C36", "title": "TrainMonitor counters", "statement": "After any history of reset/step, t is the number of steps and G the sum of rewards of the current episode, ep the number of episodes started, T the global number of steps taken, avg_r = G/t, and avg_G the running average of finished episodes' returns.", "quantifier": "all histories", "why_tests_cant": "counters accumulate over unbounded histories", "anchors": ["coax/wrappers/_train_monitor.py:TrainMonitor.step", "coax/wrappers/_train_monitor.py:TrainMonitor.reset"]}
{"id": "C37", "title": "TrainMonitor.period fires once per period", "statement": "For counters that only grow, period(name, T_period=k) called after every step returns True exactly once per k counter increments and never loses track of the phase; distinct names do not interfere.", "quantifier": "all periods, all histories of counter increments and calls", "why_tests_cant": "all schedules", "anchors": ["coax/wrappers/_train_monitor.py:TrainMonitor.period"]}
{"id": "C38", "title": "TrainMonitor counter and metric round trips", "statement": "set_counters(get_counters()) restores the counters, also on another monitor; a dict with different keys raises TypeError and changes nothing; get_metrics is the average of the recorded values per name since the last reset.", "quantifier": "all counter states, all metric histories", "why_tests_cant": "all histories", "anchors": ["coax/wrappers/_train_monitor.py:TrainMonitor.get_counters", "coax/wrappers/_train_monitor.py:TrainMonitor.set_counters", "coax/wrappers/_train_monitor.py:TrainMonitor.record_metrics", "coax/wrappers/_train_monitor.py:TrainMonitor.get_metrics"]}
{"id": "C39", "title": "Streaming reservoir sample", "statement": "StreamingSample holds min(maxlen, count) of the items seen, each held item was seen, and with fair randomness every item seen is retained with probability maxlen/count.", "quantifier": "all streams, all maxlen, all random choices", "why_tests_cant": "a statement about probability over all streams", "anchors": ["coax/wrappers/_train_monitor.py:StreamingSample"]}
{"id": "C40", "title": "Box action wrappers stay inside the box and are surjective onto bins", "statement": "BoxActionsToDiscrete maps each discrete bin to its own sub-interval of the Box, the sub-intervals tile the Box, and no action leaves the Box; BoxActionsToReals maps every real vector strictly inside the Box and is monotone in each coordinate.", "quantifier": "all boxes, all bin counts, all actions and noise draws", "why_tests_cant": "all real inputs", "anchors": ["coax/wrappers/_box_spaces.py:BoxActionsToReals", "coax/wrappers/_box_spaces.py:BoxActionsToDiscrete"]}
{"id": "C41", "title": "Ornstein-Uhlenbeck exploration noise", "statement": "The noise follows x <- x + theta(mu-x) + sigma*w and the returned noisy action stays within [min_value, max_value] as documented; reset puts the noise back to mu.", "quantifier": "all parameter values, all white-noise sequences, all actions", "why_tests_cant": "all sequences", "anchors": ["coax/utils/_action_noise.py:OrnsteinUhlenbeckNoise"]}
{"id": "C42", "title": "LogTransform is an order-preserving bijection", "statement": "transform_func and inverse_func are mutually inverse on all reals, odd, strictly increasing, and |f(x)| <= |x|.", "quantifier": "all reals and all scales > 0", "why_tests_cant": "real-analysis statement", "anchors": ["coax/value_transforms/_log_transform.py:LogTransform"]}
{"id": "C43", "title": "Value losses", "statement": "mse and huber are non-negative, zero exactly at y_true = y_pred, symmetric and convex-shaped: huber is quadratic for |error| <= delta, linear beyond, continuous at the boundary and bounded by mse; logloss_sign is non-negative; weights multiply per-sample losses before the mean.", "quantifier": "all predictions, targets, weights and deltas", "why_tests_cant": "all real inputs", "anchors": ["coax/value_losses/_losses.py:mse", "coax/value_losses/_losses.py:huber", "coax/value_losses/_losses.py:logloss_sign"]}
{"id": "C44", "title": "Quantile Huber loss", "statement": "The quantile-Huber loss is non-negative, weights under- and over-estimation by tau and 1-tau, and is zero exactly when the prediction equals the target.", "quantifier": "all predictions, targets, quantile fractions", "why_tests_cant": "all real inputs", "anchors": ["coax/value_losses/_losses.py:quantile_huber"]}
{"id": "C45", "title": "Terminal transitions never bootstrap", "statement": "For every TD updater, the target of a transition with In = 0 is f(Rn) whatever the target networks return for the next state.", "quantifier": "all updaters, value functions and transitions", "why_tests_cant": "all value functions", "anchors": ["coax/td_learning/_simple_td.py", "coax/td_learning/_sarsa.py", "coax/td_learning/_qlearning.py", "coax/td_learning/_doubleqlearning.py", "coax/td_learning/_expectedsarsa.py", "coax/td_learning/_softqlearning.py", "coax/td_learning/_clippeddoubleqlearning.py"]}
{"id": "C46", "title": "Relations between TD targets", "statement": "For discrete actions QLearning bootstraps with max_a q_targ(s',a); DoubleQLearning equals QLearning when q and q_targ coincide; the ExpectedSarsa value lies between min_a and max_a q; the SoftQLearning value lies between max_a q and max_a q + tau*log(n); the clipped double-Q value is a lower bound of each single-q value evaluated at the same actions.", "quantifier": "all q-values, numbers of actions, temperatures and policies", "why_tests_cant": "inequalities over all real vectors", "anchors": ["coax/td_learning/_qlearning.py", "coax/td_learning/_doubleqlearning.py", "coax/td_learning/_expectedsarsa.py", "coax/td_learning/_softqlearning.py", "coax/td_learning/_clippeddoubleqlearning.py"]}
{"id": "C47", "title": "A NaN gradient changes nothing", "statement": "update raises RuntimeError when a gradient contains NaN and then params, function_state and optimizer_state are what they were before; otherwise all three are updated together.", "quantifier": "all updaters, batches and states", "why_tests_cant": "failure atomicity over all states", "anchors": ["coax/td_learning/_base.py:BaseTDLearning.update", "coax/td_learning/_base.py:BaseTDLearning.apply_grads", "coax/policy_objectives/_base.py:PolicyObjective.update"]}
{"id": "C48", "title": "Distributional projection conserves probability and mean", "statement": "The projection inside affine_transform of a DiscretizedIntervalDist gives probabilities on the same atoms that are non-negative and sum to one, and whose mean is scale*mean+shift when no atom leaves the interval; the logits that affine_transform returns describe the same distribution up to their floor of 1e-16 per atom.", "quantifier": "all numbers of bins >= 2, all intervals, all probability vectors, all scale >= 0 and shift", "why_tests_cant": "all real inputs", "anchors": ["coax/proba_dists/_discretized_interval.py:DiscretizedIntervalDist.affine_transform"]}
{"id": "C49", "title": "Categorical distribution identities", "statement": "For every logits vector the probabilities are positive and sum to one, are invariant under adding a constant to the logits, KL = CE - H, KL >= 0 with equality exactly for equal distributions, 0 <= H <= log n; preprocess and postprocess of a discrete action are inverse.", "quantifier": "all logits vectors of any length", "why_tests_cant": "real-analysis statements", "anchors": ["coax/proba_dists/_categorical.py:CategoricalDist"]}
{"id": "C50", "title": "Normal distribution identities", "statement": "log_proba is the log-density of sample; cross-entropy and entropy are the expectations of -log q and -log p; KL divergence of two diagonal normals equals cross-entropy minus entropy, is non-negative and zero exactly for equal distributions; postprocessed variates lie inside the Box; preprocess undoes postprocess up to the configured clipping, and actions survive the opposite round trip to 1e-13 of the width of the Box.", "quantifier": "all means, variances, boxes", "why_tests_cant": "real-analysis statements", "anchors": ["coax/proba_dists/_normal.py:NormalDist"]}
{"id": "C51", "title": "affine_transform of a normal is the distribution of X*scale+shift", "statement": "NormalDist.affine_transform returns the parameters of X' = X*scale + shift (as documented), i.e. mean mu*scale+shift and variance scale^2*var.", "quantifier": "all parameters, scales and shifts", "why_tests_cant": "tests use scale close to one or do not check the mean", "anchors": ["coax/proba_dists/_normal.py:NormalDist.affine_transform"]}
{"id": "C52", "title": "Epsilon-greedy action probabilities", "statement": "EpsilonGreedy gives probability epsilon/n + (1-epsilon)/k to each of the k maximising actions and epsilon/n to every other action, up to a term of 1e-15 per action; these sum to one and the sampled action has them; the mode is a greedy action for epsilon < 1.", "quantifier": "all q-vectors (with any ties), all epsilon in [0,1]", "why_tests_cant": "all q-vectors and tie patterns", "anchors": ["coax/_core/value_based_policy.py:EpsilonGreedy"]}
{"id": "C53", "title": "Boltzmann policy", "statement": "BoltzmannPolicy ranks actions as the q-values do, gives equal q-values equal probability, its probabilities sum to one and the sampled action has them; low temperatures are greedy and high temperatures uniform, with explicit bounds.", "quantifier": "all q-vectors, all temperatures > 0", "why_tests_cant": "all q-vectors", "anchors": ["coax/_core/value_based_policy.py:BoltzmannPolicy"]}
{"id": "C54", "title": "soft_update is exponential smoothing", "statement": "soft_update(other, tau) moves each parameter to (1-tau)*old + tau*new; tau = 1 copies, tau = 0 does nothing; k updates toward fixed parameters leave a fraction (1-tau)^k of the initial difference.", "quantifier": "all parameter trees, all tau in [0,1], any number of updates", "why_tests_cant": "unbounded iteration", "anchors": ["coax/_core/base_func.py:BaseFunc.soft_update"]}
{"id": "C55", "title": "Type-1 and type-2 q-functions agree", "statement": "For a discrete action space, evaluating a type-1 q-function through its type-2 view gives at [b, a] the value q(S[b], a), and evaluating a type-2 q-function through its type-1 view with the one-hot action a gives its a-th output.", "quantifier": "all batch sizes, numbers of actions and q-functions", "why_tests_cant": "row-order mix-ups depend on batch size and action count", "anchors": ["coax/_core/q.py:Q.function_type1", "coax/_core/q.py:Q.function_type2", "coax/_core/base_stochastic_func_type1.py"]}
{"id": "C56", "title": "PPO clipped objective", "statement": "The PPO-clip objective never exceeds the unclipped surrogate, equals it unless the probability ratio is beyond the bound in the favourable direction, and does not depend on the ratio there; its gradient leaves out exactly the samples beyond the bound, and on-policy it is the vanilla policy gradient.", "quantifier": "all batches, advantages, weights, ratios, all differentiable policies and eps >= 0", "why_tests_cant": "all real inputs, and gradients of all differentiable policies", "anchors": ["coax/policy_objectives/_ppo_clip.py:PPOClip.objective_func"]}
{"id": "C57", "title": "n-step entropy mask", "statement": "NStepEntropyRegularizer counts the entropy of step t+n_i exactly when the episode had not ended before step t+n_i.", "quantifier": "all step selections n, all done patterns", "why_tests_cant": "depends on which steps are selected relative to the end of the episode", "anchors": ["coax/regularizers/_nstep_entropy.py:NStepEntropyRegularizer.valid_from_done"]}
{"id": "C58", "title": "Worker rollout traces each transition once", "statement": "rollout passes every environment transition of one episode to trace exactly once, in order, with done set on the last one when the episode ended or was truncated, and makes at most max_episode_steps steps.", "quantifier": "all environments, policies and episode lengths", "why_tests_cant": "all environments", "anchors": ["coax/_core/worker.py:Worker.rollout"]}
{"id": "C59", "title": "Worker waits for the warm-up", "statement": "buffer_sample samples only once the buffer holds at least max(buffer_warmup, batch_size) transitions, and the waiting time between tries never exceeds 30 seconds.", "quantifier": "all schedules of the rollout workers filling the buffer", "why_tests_cant": "all schedules", "anchors": ["coax/_core/worker.py:Worker.buffer_sample"]}
{"id": "C60", "title": "A TrainMonitor snapshot is independent of later training", "statement": "If counters = get_counters() is taken, the monitor is used further, and then set_counters(counters) is called, all counters (including the sampled actions, metrics and the phases of period) are as they were at the snapshot.", "quantifier": "all histories between snapshot and restore", "why_tests_cant": "aliasing shows only after particular later calls; all histories", "anchors": ["coax/wrappers/_train_monitor.py:TrainMonitor.get_counters", "coax/wrappers/_train_monitor.py:TrainMonitor.set_counters"]}
{"id": "C61", "title": "Squashed normal: log_proba is the density of sample", "statement": "For every Box, samples and means of a SquashedNormalDist lie inside the Box and log_proba is the logarithm of the density of sample.", "quantifier": "all boxes, parameters and actions", "why_tests_cant": "a statement about densities for all parameters; tests only use the Box [-1,1]", "anchors": ["coax/proba_dists/_squashed_normal.py:SquashedNormalDist"]}
{"id": "C62", "title": "Sampled discrete actions follow the distribution", "statement": "With uniform random numbers, the action obtained by CategoricalDist.sample and postprocess_variate equals a with exactly the probability softmax(logits)[a], for every Gumbel-softmax temperature.", "quantifier": "all logits, all temperatures > 0, all tie-breaking rules", "why_tests_cant": "a statement about a probability measure; tests can only compare frequencies", "anchors": ["coax/proba_dists/_categorical.py:CategoricalDist.sample"]}
{"id": "C63", "title": "The reported log-propensity is that of the returned action", "statement": "policy(s, return_logp=True) returns an action a together with log pi(a|s).", "quantifier": "all policies over discrete actions, all states, all random numbers", "why_tests_cant": "all distributions and random numbers", "anchors": ["coax/_core/base_stochastic_func_type2.py:StochasticFuncType2Mixin.__call__", "coax/proba_dists/_categorical.py:CategoricalDist.log_proba"]}
{"id": "C64", "title": "Loss of a policy objective", "statement": "The loss of a policy objective is minus the weighted mean of the per-sample objective plus, if there is a regularizer, the weighted mean of the regularizer, with weights limited to [0.1, 10]; SoftPG uses the smallest of its q-functions, sample by sample.", "quantifier": "all batches, all numbers of q-functions", "why_tests_cant": "all batch sizes and values", "anchors": ["coax/policy_objectives/_base.py:PolicyObjective.__init__", "coax/policy_objectives/_soft_pg.py:SoftPG.objective_func", "coax/policy_objectives/_deterministic_pg.py:DeterministicPG.objective_func"]}
{"id": "C65", "title": "Entropy and KL regularizers", "statement": "EntropyRegularizer adds -beta times the entropy, KLDivRegularizer adds beta times a divergence that is never negative and vanishes exactly at the prior; with default priors the two differ by the constant beta*log(n).", "quantifier": "all categorical policies, batches and beta", "why_tests_cant": "inequalities over all distributions", "anchors": ["coax/regularizers/_entropy.py:EntropyRegularizer", "coax/regularizers/_kl_div.py:KLDivRegularizer", "coax/regularizers/_base.py:Regularizer.batch_eval"]}
{"id": "C66", "title": "Attributes shared through the parameter store", "statement": "push_setattr(name, value) makes every worker with the same parameter store pull that value, leaves all other attributes unchanged, and changes no worker but the store.", "quantifier": "all dotted names, all attribute trees, all chains of parameter stores", "why_tests_cant": "all names and object trees", "anchors": ["coax/_core/worker.py:Worker.pull_getattr", "coax/_core/worker.py:Worker.push_setattr", "coax/_core/worker.py:_setattr_recursive"]}
{"id": "C67", "title": "TD error", "statement": "The TD error of a sample is the target minus the prediction with mse, this difference limited to [-delta, delta] with huber; it does not depend on the importance weights, and the gradient of the training loss by the prediction of a sample is minus its clipped weight times its TD error divided by the batch size.", "quantifier": "all batches, targets, predictions, weights and regularizers", "why_tests_cant": "derivatives at all real points, all batch sizes", "anchors": ["coax/td_learning/_base.py:BaseTDLearningV.__init__", "coax/td_learning/_base.py:BaseTDLearningQ.__init__", "coax/td_learning/_base.py:BaseTDLearning.td_error"]}
{"id": "C68", "title": "Policy regularizer in the TD target", "statement": "A policy regularizer lowers the return that is learned by its value: the target is f(Rn + In * f_inv(next value) - regularizer), for deterministic and for distributional value functions.", "quantifier": "all updaters, value transforms, batches and regularizer values", "why_tests_cant": "all value transforms and real inputs", "anchors": ["coax/td_learning/_base.py:BaseTDLearningV.__init__", "coax/proba_dists/_empirical_quantile.py:EmpiricalQuantileDist"]}
{"id": "C69", "title": "Importance weights in the TD loss", "statement": "The loss of each sample enters the TD loss in proportion to its importance weight (limited to [0.1, 10]), for every kind of value function.", "quantifier": "all batches and weights, deterministic and distributional value functions", "why_tests_cant": "all weights and batches", "anchors": ["coax/td_learning/_base.py:BaseTDLearningV.__init__", "coax/value_losses/_losses.py:_mean_with_weights"]}
{"id": "C70", "title": "distributional TD targets", "statement": "For a distributional value function the TD target of a sample is the distribution of the successor (the next action of the data for sarsa, an action with the largest mean for Q-learning, the action chosen by the other network for double Q-learning, the smallest mean over the networks for clipped double Q-learning), shifted by the n-step reward and scaled by the bootstrap factor of the same sample; for a terminal sample it is concentrated at the reward.", "quantifier": "all batches, parameters, function approximators, rewards and bootstrap factors", "why_tests_cant": "all batch sizes and distributions; a test sees a few random batches", "anchors": ["coax/td_learning/_base.py:BaseTDLearningQ._get_target_dist_params", "coax/td_learning/_qlearning.py:QLearning.target_func", "coax/td_learning/_doubleqlearning.py:DoubleQLearning.target_func", "coax/td_learning/_sarsa.py:Sarsa.target_func", "coax/td_learning/_clippeddoubleqlearning.py:ClippedDoubleQLearning.target_func"]}
{"id": "C71", "title": "distributional expected sarsa", "statement": "The mean of the distributional expected-sarsa target is the reward plus the bootstrap factor times the policy average of the means of the successor distributions.", "quantifier": "all policies, distributions, rewards and bootstrap factors", "why_tests_cant": "a test with equal logits does not tell an average of logits from a mixture", "anchors": ["coax/td_learning/_expectedsarsa.py:ExpectedSarsa.target_func"]}
{"id": "C72", "title": "calling a distributional q-function on a state", "statement": "Entry a of the list that mean(s) returns equals mean(s, a), and entry a of dist_params(s) equals dist_params(s, a).", "quantifier": "all function approximators, states and actions", "why_tests_cant": "holds for one distribution and fails for the other; tests compare shapes", "anchors": ["coax/_core/base_stochastic_func_type1.py:BaseStochasticFuncType1.mean", "coax/_core/base_stochastic_func_type1.py:BaseStochasticFuncType1.dist_params", "coax/proba_dists/_base.py:BaseProbaDist.postprocess_variate"]}
{"id": "C73", "title": "calling a distributional value function undoes the value transform", "statement": "A value function trained so that its distribution represents the transformed return gives the return when it is called, as documented for the value_transform argument.", "quantifier": "all value transforms and returns", "why_tests_cant": "tests of distributional value functions use no value transform", "anchors": ["coax/_core/stochastic_q.py:StochasticQ", "coax/_core/stochastic_v.py:StochasticV", "coax/_core/base_stochastic_func_type1.py:BaseStochasticFuncType1.mean"]}
{"id": "C74", "title": "distribution over a nested space", "statement": "For a distribution over a nested space, log_proba is the log-density of the joint law under which the leaves are independent, entropy and cross_entropy are the expectations of minus log_proba under that law, and kl_divergence is cross entropy minus entropy, not negative, and zero exactly if both parameters give the same law.", "quantifier": "all nestings of Discrete, MultiDiscrete, MultiBinary, Box, Tuple and Dict spaces, all parameters and variates", "why_tests_cant": "all nestings and real parameters; a test uses one space and compares shapes", "anchors": ["coax/proba_dists/_composite.py:ProbaDist.__init__"]}
{"id": "C75", "title": "the distributional loss is least at the target", "statement": "Among all predictions of a distributional value function the TD loss is smallest for those that equal the target distribution, and only for those.", "quantifier": "all batches, targets and predictions", "why_tests_cant": "all real parameters; swapping the two arguments of the cross entropy still gives a plausible number that decreases in training", "anchors": ["coax/td_learning/_base.py:BaseTDLearningV.__init__", "coax/td_learning/_base.py:BaseTDLearningQ.__init__", "coax/value_losses/_losses.py:quantile_huber"]}
{"id": "C76", "title": "variates and members of nested spaces", "statement": "Whatever raw variate a distribution over a nested space postprocesses, the result is a member of the space. A member that is preprocessed and postprocessed again is the same member (entries of boxes up to rounding and the limit of 256), and the preprocessed member has a log-probability.", "quantifier": "all nestings of Discrete, MultiDiscrete, MultiBinary, Box, Tuple and Dict spaces, all members, variates and tie breaks", "why_tests_cant": "all nestings, members and random tie breaks; the tests use one space with Discrete spaces that start at 0", "anchors": ["coax/proba_dists/_composite.py:ProbaDist.preprocess_variate", "coax/proba_dists/_composite.py:ProbaDist.postprocess_variate", "coax/proba_dists/_categorical.py:CategoricalDist.preprocess_variate"]}
{"id": "C77", "title": "SuccessorStateQ is reward plus discounted value of the successor", "statement": "The q-function made of v, p and r gives q(s, a) = r(s, a) + gamma times the expected v(s') with s' ~ p(s, a), where v and r are what these functions return when called; entry a of q(s) is q(s, a), for every combination of type-1 and type-2 models.", "quantifier": "all v, p, r of either type, all value transforms, gammas, states and actions", "why_tests_cant": "all function approximators and transforms; the tests only check shapes", "anchors": ["coax/_core/successor_state_q.py:SuccessorStateQ.function_type1", "coax/_core/successor_state_q.py:SuccessorStateQ.function_type2"]}
{"id": "C78", "title": "ModelUpdater fits dynamics models to what was observed", "statement": "The loss of ModelUpdater is the weighted mean of the losses of the samples, it is least exactly when the model predicts the observed reward or next observation, and a model with zero loss returns what was observed when it is called; a regularizer adds its weighted mean. A stochastic model is fitted to the distribution of observations.", "quantifier": "all batches, weights, regression losses, reward functions and transition models", "why_tests_cant": "all batches and models; the tests only check that parameters change", "anchors": ["coax/model_updaters/_model_updater.py:ModelUpdater"]}
{"id": "C79", "title": "diff_transform computes finite differences and loses nothing", "statement": "For stacked frames, diff_transform gives at distance k from the end of the last axis the k-th finite difference of the most recent frames (position, velocity, acceleration, ...); it is its own inverse, and it maps constant frames to the position alone; the matrix is n by n and fewer than one frame is rejected.", "quantifier": "all numbers of frames and all frames", "why_tests_cant": "all numbers of frames; tests compare a few literal matrices", "anchors": ["coax/utils/_array.py:diff_transform", "coax/utils/_array.py:diff_transform_matrix"]}
{"id": "C80", "title": "Quantile fractions split the unit interval evenly and are embedded injectively", "statement": "quantiles_uniform splits the unit interval into parts of equal expected length ending at 1; quantiles gives n equally spaced fractions whose average over a quantile function approximates the mean; quantile_cos_embedding gives the features cos(pi i tau), 0 <= i < n, of the documentation and distinguishes all fractions.", "quantifier": "all numbers of quantiles and features, all random numbers, all quantile functions", "why_tests_cant": "expectations over random fractions, all quantile functions", "anchors": ["coax/utils/_quantile_funcs.py:quantiles_uniform", "coax/utils/_quantile_funcs.py:quantiles", "coax/utils/_quantile_funcs.py:quantile_cos_embedding"]}
{"id": "C81", "title": "default_preprocessor treats batches and single members alike and separates members", "statement": "Row i of a preprocessed batch is the preprocessed member i; batch_to_single undoes single_to_batch; members of the space are preprocessed without error and different members get different features.", "quantifier": "all nested spaces, batches, indices and members", "why_tests_cant": "all nestings of spaces and all members", "anchors": ["coax/utils/_array.py:default_preprocessor", "coax/utils/_array.py:batch_to_single", "coax/utils/_array.py:single_to_batch"]}
{"id": "C82", "title": "safe_sample returns a member of the space", "statement": "safe_sample returns an element of the given space, whatever the seed.", "quantifier": "all nested spaces and all random numbers", "why_tests_cant": "all spaces and all seeds", "anchors": ["coax/utils/_array.py:safe_sample", "coax/utils/_array.py:_safe_sample"]}
{"id": "C83", "title": "argmax and argmin return a maximising or minimising index and break ties evenly", "statement": "utils.argmax(rng, arr) returns an index of a maximal entry and argmin one of a minimal entry, for all random numbers that float32 can produce; each maximising index is equally likely.", "quantifier": "all arrays along the axis and all random numbers", "why_tests_cant": "a rare draw could return another index; the distribution over ties is not visible in a finite number of draws", "anchors": ["coax/utils/_array.py:argmax", "coax/utils/_array.py:argmin"]}
{"id": "C84", "title": "TD targets are contractions and fitted Q-iteration converges to the Bellman solution", "statement": "If two value functions differ by at most eps, their SimpleTD, Sarsa, ExpectedSarsa, QLearning and SoftQLearning targets differ in each row by at most |In| times eps (identity value transform; for QLearning type-2 q-functions, or type-1 without ties). Exact fitted iteration with QLearning targets in a finite environment with discounts below one converges geometrically to the only solution of the Bellman optimality equation. DoubleQLearning does not have the contraction property.", "quantifier": "all value functions, batches, finite environments, discounts below one and starting tables", "why_tests_cant": "a statement about limits and about all pairs of value functions", "anchors": ["coax/td_learning/_qlearning.py:QLearning.target_func", "coax/td_learning/_simple_td.py:SimpleTD.target_func", "coax/td_learning/_sarsa.py:Sarsa.target_func", "coax/td_learning/_expectedsarsa.py:ExpectedSarsa.target_func", "coax/td_learning/_softqlearning.py:SoftQLearning.target_func", "coax/td_learning/_doubleqlearning.py:DoubleQLearning.target_func"]}
{"id": "C85", "title": "SoftQLearning bootstraps with the entropy-regularised value of the Boltzmann policy", "statement": "The bootstrap value of SoftQLearning with temperature tau is the greatest value, over all policies, of expected q-value plus tau times entropy; it is attained by BoltzmannPolicy(q, tau) and by no other policy. Its target exceeds the ExpectedSarsa target with that policy by In times tau times the entropy of the policy.", "quantifier": "all q-functions, temperatures, batches and policies", "why_tests_cant": "an optimum over all policies; two classes and a distribution have to agree for all inputs", "anchors": ["coax/td_learning/_softqlearning.py:SoftQLearning.target_func", "coax/_core/value_based_policy.py:BoltzmannPolicy", "coax/td_learning/_expectedsarsa.py:ExpectedSarsa.target_func", "coax/proba_dists/_categorical.py:CategoricalDist.entropy"]}
{"id": "C86", "title": "Policy gradients are unbiased and insensitive to a baseline", "statement": "Averaged over actions drawn from the current policy, the gradient of the VanillaPG objective, and of the PPOClip objective at the recorded policy, is the gradient of the expected (weighted) advantage; subtracting from the advantages a number that depends only on the state does not change it.", "quantifier": "all batches of states, weights, advantages, baselines and differentiable logits", "why_tests_cant": "an expectation of gradients over all actions, for all policies", "anchors": ["coax/policy_objectives/_vanilla_pg.py:VanillaPG.objective_func", "coax/policy_objectives/_ppo_clip.py:PPOClip.objective_func", "coax/proba_dists/_categorical.py:CategoricalDist.log_proba"]}
{"id": "C87", "title": "Importance weights undo the bias of prioritized sampling", "statement": "With beta = 1 the expected weighted value of a prioritized batch is, up to a constant factor, the mean over all stored transitions.", "quantifier": "all histories of the buffer, all quantities, all random numbers", "why_tests_cant": "an expectation over the random numbers, for all buffer contents", "anchors": ["coax/experience_replay/_prioritized.py:PrioritizedReplayBuffer.sample"]}
{"id": "C88", "title": "A training loop learns from correct n-step targets of its own episodes", "statement": "In a loop of environment steps, tracer.add, draining the tracer into a SimpleReplayBuffer, and updates from sampled batches, each sampled row has as target the discounted rewards of the next n steps of the same episode plus the discounted bootstrap value n steps later, without bootstrap if the episode ended before. The loop never raises while collecting, and a batch can be drawn after enough steps.", "quantifier": "all sequences of steps, episode ends, samples, clears and other uses of random; all n, gamma, capacities; SimpleTD, Sarsa, QLearning and every other row-wise target", "why_tests_cant": "three components interact over unbounded histories with random draws; a misplaced episode boundary shows only in the values learned", "anchors": ["doc/examples/stubs/dqn.py", "doc/examples/stubs/ppo.py", "coax/reward_tracing/_nstep.py:NStep", "coax/experience_replay/_simple.py:SimpleReplayBuffer", "coax/td_learning/_qlearning.py:QLearning.target_func"]}
{"id": "C89", "title": "RandomPolicy reports the propensities of the actions that it draws", "statement": "RandomPolicy(s, return_logp=True) returns the log-density (or log-probability) of the uniform distribution over the action space, and dist_params describes the same distribution.", "quantifier": "all action spaces and actions", "why_tests_cant": "a density over a continuum of actions; the branch for Discrete spaces is never run by the tests", "anchors": ["coax/_core/random_policy.py:RandomPolicy.__call__", "coax/_core/random_policy.py:RandomPolicy.dist_params"]}
{"id": "C90", "title": "Asking a transition model for all actions or for one agrees", "statement": "TransitionModel(s) lists the successor states of all actions in order, and its entry a is what TransitionModel(s, a) returns, whichever type of network is used.", "quantifier": "all networks of both types, states, actions and pre- and postprocessors", "why_tests_cant": "two code paths (projection and repetition) must agree for all networks", "anchors": ["coax/_core/transition_model.py:TransitionModel.__call__", "coax/_core/transition_model.py:TransitionModel.function_type1", "coax/_core/transition_model.py:TransitionModel.function_type2"]}
{"id": "C91", "title": "Playing a MetaPolicyEnv is playing the chosen arms", "statement": "After reset, each valid meta-action applies the chosen arm to the present observation and its action to the environment; info contains that action, its log-propensity (zero if the arm cannot tell) and the other entries unchanged. Invalid meta-actions and steps before reset change nothing.", "quantifier": "all environments, arms and sequences of meta-actions", "why_tests_cant": "arbitrary environments and arms over unbounded episodes", "anchors": ["coax/wrappers/_meta_policy.py:MetaPolicyEnv"]}
{"id": "C92", "title": "make_dmc gives the environment that was asked for", "statement": "make_dmc returns an environment with the given settings; its observations are members of its observation space; it reports termination exactly if the dm_control episode ended with discount zero.", "quantifier": "all sequences of calls, all specifications and observations", "why_tests_cant": "depends on the global registry, that is on all earlier calls; the reason why an episode ended is rarely checked", "anchors": ["coax/utils/_dmc_gym.py:make_dmc", "coax/utils/_dmc_gym.py:DmcGymWrapper.step", "coax/utils/_dmc_gym.py:spec_to_box", "coax/utils/_dmc_gym.py:flatten_obs"]}
{"id": "C93", "title": "unvectorize undoes vmap", "statement": "If f is g vectorised over the axes in_axes and out_axes, then unvectorize(f, in_axes, out_axes) applied to a single input returns what g returns; a wrong number of axes raises ValueError.", "quantifier": "all functions, pytrees, shapes and axes (including negative ones and None)", "why_tests_cant": "a statement about arbitrary functions and array shapes", "anchors": ["coax/utils/_array.py:unvectorize"]}
{"id": "C94", "title": "tree_sample draws the same rows from all leaves", "statement": "tree_sample returns a pytree whose row j is, in all leaves, the row of one common position of the input; without replacement the positions are distinct; it fails exactly if there are too few rows, no leaves, or leaves of different sizes. The argument axis selects the axis.", "quantifier": "all pytrees, sizes, random draws and axes", "why_tests_cant": "random draws and arbitrary pytrees; misaligned leaves still have the right shapes", "anchors": ["coax/utils/_array.py:tree_sample"]}
{"id": "C95", "title": "Stacked networks can be addressed one by one", "statement": "After stack_trees of the parameters and states of several networks and tiling them over a batch, row i is exactly the parameters and state of network i.", "quantifier": "all numbers of networks, all pytrees of equal shapes, all repetitions", "why_tests_cant": "arbitrary shapes; swapping two networks keeps all shapes", "anchors": ["coax/utils/_array.py:stack_trees", "coax/td_learning/_clippeddoubleqlearning.py:ClippedDoubleQLearning.target_func"]}
{"id": "C96", "title": "double_relu loses no information", "statement": "double_relu splits every feature into its negative and positive part; the input can be recovered from the output; the sum of magnitudes stays.", "quantifier": "all arrays", "why_tests_cant": "injectivity is a statement about all pairs of inputs", "anchors": ["coax/utils/_array.py:double_relu"]}
{"id": "C97", "title": "Gradient diagnostics describe the whole gradient", "statement": "The maximum is the largest magnitude of any entry of any leaf, the norm is the Euclidean norm over all leaves (zero exactly for the zero gradient); the diagnostics per leaf combine to the global ones; the magnitude quantiles are ordered quantiles of all entries.", "quantifier": "all non-empty gradients", "why_tests_cant": "real-valued pytrees of arbitrary structure", "anchors": ["coax/utils/_array.py:get_grads_diagnostics", "coax/utils/_array.py:get_magnitude_quantiles", "coax/utils/_array.py:tree_ravel"]}
{"id": "C98", "title": "Prioritized training loops keep the priorities of the latest TD errors", "statement": "In the training loops with a PrioritizedReplayBuffer (also asynchronous ones, where steps, additions by other actors, sampling and learning interleave arbitrarily), each stored transition has the priority (|delta|+epsilon)^alpha of the TD error computed last for it, batches are drawn with these probabilities and carry the matching importance weights, no step is lost, and updates with outdated batches neither raise nor change other transitions.", "quantifier": "all updaters, all interleavings of events, all capacities, n, gamma, alpha, beta, epsilon", "why_tests_cant": "all interleavings of actors and learners, with transitions overwritten between sampling and updating", "anchors": ["doc/examples/stubs/dqn_per.py", "doc/examples/atari/apex_dqn.py", "coax/experience_replay/_prioritized.py:PrioritizedReplayBuffer", "coax/reward_tracing/_nstep.py:NStep"]}
{"id": "C99", "title": "On-policy loops update from the transitions of the acting policy", "statement": "In the on-policy training loops (PPO, A2C) no step raises, a round of updates takes place as soon as the buffer is full, its minibatches are drawn from transitions of consecutive steps with the action and log-propensity of the policy that acted, all of them are of the present acting policy, and no transition is left out between rounds.", "quantifier": "all policies and updaters, all sequences of environment steps, all capacities, n, gamma, batch sizes", "why_tests_cant": "all histories of episodes whose ends fall anywhere relative to the rounds of updates", "anchors": ["doc/examples/stubs/ppo.py", "doc/examples/stubs/a2c.py", "doc/examples/pendulum/ppo.py", "coax/reward_tracing/_nstep.py:NStep", "coax/experience_replay/_simple.py:SimpleReplayBuffer"]}
{"id": "C100", "title": "Reward tracers accept the log-propensities of policies", "statement": "The log-propensity that a policy returns together with a sampled action can be passed to a reward tracer: it is non-positive, so the tracer does not raise and the step is not lost.", "quantifier": "all distribution parameters, all sampled actions, all states, rewards, n and gamma", "why_tests_cant": "whether a positive log-density is sampled depends on the parameters reached in training", "anchors": ["coax/reward_tracing/_transition.py:TransitionBatch.from_single", "coax/_core/base_stochastic_func_type2.py:sample_func", "coax/proba_dists/_normal.py:NormalDist.log_proba", "coax/proba_dists/_categorical.py:CategoricalDist.log_proba"]}
{"id": "C101", "title": "Random keys are reproducible and never used twice", "statement": "The keys that function approximators hand out are determined by the seed given last and the number of keys taken since, and keys handed out at different times are unrelated: neither is derived from the other and no key can be derived from both.", "quantifier": "all programs that create, copy, seed and use any number of objects in any order", "why_tests_cant": "repetition of random numbers depends on the interleaving of uses and copies in the whole program", "anchors": ["coax/_base/mixins/_random_state.py:RandomStateMixin", "coax/_base/mixins/_copy.py:CopyMixin.copy", "coax/_core/base_func.py:BaseFunc.__init__"]}
{"id": "C102", "title": "Function approximators are built as their arguments say", "statement": "The constructor of a function approximator accepts exactly the documented signatures (type 1, and type 2 for discrete actions), uses every argument that is given and the documented default otherwise, and initialises the network with inputs that are preprocessed in the same way as later inputs.", "quantifier": "all signatures, spaces, preprocessors, distributions, value ranges, transforms and seeds", "why_tests_cant": "an ignored argument only shows as a different network or distribution, and only for non-default values", "anchors": ["coax/_core/v.py:V", "coax/_core/q.py:Q", "coax/_core/policy.py:Policy", "coax/_core/stochastic_v.py:StochasticV", "coax/_core/stochastic_q.py:StochasticQ", "coax/_core/stochastic_reward_function.py:StochasticRewardFunction", "coax/_core/transition_model.py:TransitionModel", "coax/_core/stochastic_transition_model.py:StochasticTransitionModel"]}
{"id": "C103", "title": "Traced targets are unbiased", "statement": "In an online loop over a Markov decision process, whatever was traced before, the target for a step that is computed from the traced transition has as expectation the n-fold Bellman operator of the acting policy applied to the value function (SimpleTD, Sarsa); for QLearning it is one step followed by n - 1 steps of the acting policy and the greedy value, which for n = 1 is the Bellman optimality operator; the expectation of a Monte-Carlo return is the value of the state for the policy.", "quantifier": "all Markov decision processes with finitely many actions and outcomes, all policies, value functions, n, gamma, and all reachable states of the tracer", "why_tests_cant": "expectation over all trajectories, with terminations before, at and after the n-th step", "anchors": ["coax/reward_tracing/_nstep.py:NStep", "coax/reward_tracing/_montecarlo.py:MonteCarlo", "coax/td_learning/_simple_td.py:SimpleTD", "coax/td_learning/_sarsa.py:Sarsa", "coax/td_learning/_qlearning.py:QLearning", "doc/examples/stubs/sarsa.py", "doc/examples/stubs/reinforce.py"]}
{"id": "C104", "title": "Tabular value learning converges", "statement": "In a finite deterministic environment the params of a tabular q-function that is updated by QLearning, ExpectedSarsa or SoftQLearning converge, from any initial params, to the unique solution of the Bellman equation of the algorithm, and the target network does as well, for every sequence of batches in which every state and action occurs infinitely often and the target network is updated again and again; nothing raises. For QLearning the limit is the largest discounted return that any sequence of actions attains, and after finitely many updates every greedy action is optimal. The same holds for the online loop with an NStep tracer, however actions are chosen.", "quantifier": "all finite deterministic environments, gamma in [0,1), initial params, batch sequences, soft updates, behaviour, mse and huber losses, importance weights; infinitely many updates", "why_tests_cant": "a limit over infinitely many updates; a test sees one finite run of one environment", "anchors": ["coax/td_learning/_base.py:BaseTDLearningQ", "coax/td_learning/_qlearning.py:QLearning", "coax/td_learning/_expectedsarsa.py:ExpectedSarsa", "coax/td_learning/_softqlearning.py:SoftQLearning", "coax/_core/base_func.py:BaseFunc.soft_update", "coax/reward_tracing/_nstep.py:NStep", "doc/examples/stubs/qlearning.py", "doc/examples/stubs/dqn.py"]}
{"id": "C105", "title": "A distributed agent counts its steps and stops", "statement": "When rollout workers and learners run rollout_loop and learn_loop concurrently against one parameter store, env.T of the store is the number of steps made in reported episodes, and every worker stops after env.T has reached max_total_steps.", "quantifier": "all numbers of workers, all interleavings of their remote calls, all episode lengths, warm-ups and capacities; finite and infinite executions", "why_tests_cant": "all interleavings, and termination of infinite executions", "anchors": ["coax/_core/worker.py:Worker.rollout_loop", "coax/_core/worker.py:Worker.learn_loop", "coax/_core/worker.py:Worker.buffer_sample", "doc/examples/atari/apex_dqn.py"]}
{"id": "C106", "title": "A distributed agent loses no update", "statement": "Learners only learn from transitions that rollout workers added before; every pulled state is the one pushed last; the state of the parameter store is the result of all updates one after the other; the exponent beta of the buffer follows its schedule.", "quantifier": "all numbers of workers, all interleavings of their remote calls, all updaters", "why_tests_cant": "all interleavings of concurrent processes", "anchors": ["coax/_core/worker.py:Worker.pull_state", "coax/_core/worker.py:Worker.push_state", "coax/_core/worker.py:Worker.learn_loop", "doc/examples/atari/apex_dqn.py"]}
{"id": "C107", "title": "Compiled functions behave like the functions they were made from", "statement": "Calling a function compiled with coax.utils.jit gives what the function itself gives at that moment; in particular hyperparameters, loss functions and regularizers assigned later take effect at the next evaluation, also after storing and loading.", "quantifier": "all bodies, all histories of calls, assignments and reloads, all shapes and static arguments", "why_tests_cant": "a test rarely evaluates before assigning, and staleness depends on the whole history of shapes", "anchors": ["coax/utils/_jit.py:JittedFunc", "coax/regularizers/_entropy.py:EntropyRegularizer", "coax/regularizers/_nstep_entropy.py:NStepEntropyRegularizer", "coax/td_learning/_base.py:BaseTDLearningQ", "coax/proba_dists/_composite.py:ProbaDist"]}
{"id": "C108", "title": "A rendered episode shows the states of the episode", "statement": "generate_gif records one frame per state of an episode played with the policy, resized as requested, and ends with the episode or after max_episode_steps (from the specification, or 10000); render_episode shows the same states.", "quantifier": "all environments, policies, sizes and limits", "why_tests_cant": "all environments and episode lengths; the tests have no display", "anchors": ["coax/utils/_misc.py:generate_gif", "coax/utils/_misc.py:render_episode"]}
{"id": "C109", "title": "reload_recursive reloads every submodule in order of dependence", "statement": "reload_recursive terminates, reloads each module that the given one refers to (with reload_external_modules also external ones) exactly once, and every module after those it refers to.", "quantifier": "all graphs of references between modules, cyclic ones included", "why_tests_cant": "all module graphs", "anchors": ["coax/utils/_misc.py:reload_recursive", "coax/utils/_misc.py:_reload"]}
{"id": "C110", "title": "What the constructors accept can be used", "statement": "The type predicates recognise the classes they are about; updaters, policy objectives, regularizers and composed functions accept exactly the documented kinds of arguments and raise otherwise; an accepted updater can compute TD errors and be updated; its optimizer can be replaced by one with a state of the same structure.", "quantifier": "all classes of objects, structures of parameters and combinations of arguments", "why_tests_cant": "the combinations of classes, lists, None and structures are not enumerated by tests, and errors appear only at the first update", "anchors": ["coax/utils/_misc.py:is_qfunction", "coax/utils/_misc.py:is_stochastic", "coax/td_learning/_base.py:BaseTDLearningQ.__init__", "coax/td_learning/_clippeddoubleqlearning.py:_check_input_lists", "coax/policy_objectives/_base.py:PolicyObjective.optimizer", "coax/_core/successor_state_q.py:SuccessorStateQ"]}
{"id": "C111", "title": "The random draws of an update are independent", "statement": "No two random draws made while computing a TD error, a policy objective or a model loss (preprocessing, dropout, sampling) use keys one of which is, or is derived from, the other; over a whole training program all draws of all updates are independent.", "quantifier": "all updaters, objectives, regularizers, kinds of functions, keys and training programs", "why_tests_cant": "independence is a statement about all keys and about every pair of draws inside nested functions; reused keys give plausible numbers", "anchors": ["coax/td_learning/_base.py:257", "coax/td_learning/_base.py:414", "coax/td_learning/_clippeddoubleqlearning.py:141", "coax/policy_objectives/_base.py:67", "coax/policy_objectives/_soft_pg.py:41", "coax/policy_objectives/_deterministic_pg.py:100", "coax/regularizers/_nstep_entropy.py:89-96", "coax/model_updaters/_model_updater.py:71-88"]}
{"id": "C112", "title": "check_preprocessors tells whether preprocessors are the same, check_array accepts what it is asked for", "statement": "check_preprocessors returns True for the same preprocessors in any order and False for preprocessors that differ, and raises ValueError for fewer than two; check_array accepts an array exactly if it has the requested kind, number of dimensions, dtype, shape and axis size, and raises TypeError otherwise.", "quantifier": "all spaces, samples, preprocessors (random ones included), seeds; all arrays and requests", "why_tests_cant": "all preprocessors and samples; numerical tolerance and broadcasting hide differences", "anchors": ["coax/utils/_array.py:140-186", "coax/utils/_array.py:189-238"]}
{"id": "C113", "title": "get_transition_batch returns a valid batch of the environment", "statement": "For every environment and batch size, get_transition_batch returns a batch whose fields all have that size, whose states and actions are members of the spaces, whose propensities are probabilities, whose discounts are gamma or zero and whose importance weights are numbers between 0.01 and 100; invalid sizes and discount factors raise TypeError.", "quantifier": "all spaces, batch sizes, discount factors and random draws", "why_tests_cant": "nested spaces and random draws are unbounded, and the bad draws are rare", "anchors": ["coax/utils/_array.py:587-642"]}
{"id": "C114", "title": "Wrapped environments report the actions that were really taken", "statement": "After a step of an environment inside any number of Box action wrappers, info['a_orig'] lists the actions of this step that the wrappers passed on, the innermost first, and the infos of earlier steps are unchanged.", "quantifier": "all stacks of wrappers, actions, environments and sequences of steps", "why_tests_cant": "stacks of wrappers and histories are unbounded, and dicts are shared by reference", "anchors": ["coax/_base/mixins/_add_orig_to_info.py:22-30", "coax/wrappers/_box_spaces.py:42-47", "coax/wrappers/_box_spaces.py:83-88"]}
{"id": "C115", "title": "Constructors accept exactly the networks whose outputs are as documented", "statement": "The constructors of value functions, policies and models accept a network exactly if its outputs have the documented structure, kind and shapes, for every batch size and for training and evaluation; they raise TypeError otherwise.", "quantifier": "all networks, distributions (nested ones included), shapes and batch sizes", "why_tests_cant": "all networks and nested distributions; a wrong batch size or evaluation mode only shows later", "anchors": ["coax/_core/base_func.py:71-86", "coax/_core/v.py:149-161", "coax/_core/q.py:285-297", "coax/_core/base_stochastic_func_type1.py:412-432", "coax/_core/base_stochastic_func_type2.py:188-208", "coax/_core/transition_model.py:300-320"]}
{"id": "C116", "title": "Stochastic functions return samples, modes and means for the action that was asked for", "statement": "Called with a state, a stochastic function of states and actions returns for every action a sample of the distribution for that action with its log-probability, independent of the others, and modes and means likewise; entry a agrees with the call for the action a; this holds for both model types and for all rows of a batch.", "quantifier": "all networks of both types, batches, distributions, numbers of actions", "why_tests_cant": "the arrangement of replicas must be right for all batch sizes and numbers of actions; independence is a statement about laws", "anchors": ["coax/_core/base_stochastic_func_type1.py:44-57", "coax/_core/base_stochastic_func_type1.py:248-377", "coax/_core/base_stochastic_func_type1.py:434-451", "coax/_core/base_stochastic_func_type2.py:30-112"]}
{"id": "C117", "title": "Sampling a quantile distribution bootstraps the values of each row", "statement": "EmpiricalQuantileDist.sample returns for every row of the batch as many numbers as there are quantiles, drawn from the values of that row, and log_proba returns one log-probability for each row; so that value functions with quantiles can be sampled, and their mean is the mean of the quantiles of each action.", "quantifier": "all values, batch sizes and keys", "why_tests_cant": "what is drawn is random, and rows of the same batch look alike", "anchors": ["coax/proba_dists/_empirical_quantile.py:31-39", "coax/_core/base_stochastic_func_type1.py:59-70"]}
{"id": "C118", "title": "Entropy and KL regularizers of all policies", "statement": "For every distribution a policy can have, EntropyRegularizer is -beta times the entropy of the distribution and KLDivRegularizer is beta times the divergence from the priors, never negative and zero exactly if the distributions agree; the default priors are neutral.", "quantifier": "all distributions (nested, normal, squashed), parameters and beta", "why_tests_cant": "integrals over all parameters and nested structures", "anchors": ["coax/regularizers/_entropy.py:35-37", "coax/regularizers/_kl_div.py:41-48", "coax/proba_dists/_composite.py:129-175", "coax/proba_dists/_composite.py:222-233", "coax/proba_dists/_squashed_normal.py:60-64"]}
{"id": "C119", "title": "Tabular value learning converges almost surely in stochastic environments", "statement": "In a finite stochastic environment QLearning, ExpectedSarsa and SoftQLearning with a table, the mean squared error and decreasing learning rates (infinite sum, finite sum of squares) converge almost surely to the unique solution of their Bellman equation, from any initial params, with or without a target network; in the online loop it is enough that the environment is connected and every action has at least some probability, as with EpsilonGreedy.", "quantifier": "all finite environments, discount factors below one, behaviours of the agent, schedules, initial params", "why_tests_cant": "a limit with probability one over all infinite random histories", "anchors": ["coax/td_learning/_base.py:60-116", "coax/td_learning/_qlearning.py:111-146", "coax/td_learning/_expectedsarsa.py:100-118", "coax/td_learning/_softqlearning.py:95-106", "doc/examples/stubs/qlearning.py:45-61", "doc/examples/stubs/dqn.py:64-71"]}
{"id": "C120", "title": "Updaters, target networks and derived policies share exactly what they should", "statement": "In any program that creates, copies, trains, synchronises and uses function approximators, weights change only where the program trains, sets or smooths them; every update is computed with the present weights of exactly the functions named in the constructor of the updater; target networks and copies stay fixed until they are written to, while policies derived from a q-function follow it; optimizers of different updaters do not interfere; so the loops for DQN and DDPG compute these algorithms.", "quantifier": "all programs (finite sequences of operations on any number of objects, also with exceptions), networks, batches and optimizers", "why_tests_cant": "aliasing shows only in particular combinations of shared objects and orders of operations, of which there are infinitely many", "anchors": ["coax/_core/base_func.py:93-155", "coax/_core/value_based_policy.py:22-60", "coax/_core/value_based_policy.py:202-271", "coax/_base/mixins/_copy.py:5-22", "coax/td_learning/_base.py:24-183", "coax/td_learning/_base.py:333-553", "coax/td_learning/_clippeddoubleqlearning.py:98-227", "coax/policy_objectives/_base.py:124-221", "doc/examples/stubs/ddpg.py", "doc/examples/stubs/dqn.py", "doc/examples/stubs/td3.py"]}
{"id": "C121", "title": "What value learning converges to is optimal, and the derived policies attain it", "statement": "The values to which Q-learning converges are the best expected returns of any policy, even with memory, and the modes of EpsilonGreedy and BoltzmannPolicy with these values attain them; after finitely many updates the learned policy is optimal, almost surely. The values of soft Q-learning are the best sums of return and entropy, attained by BoltzmannPolicy with the same temperature; those of expected Sarsa are the return of the target policy. EpsilonGreedy and BoltzmannPolicy with the values of a policy are not worse than that policy.", "quantifier": "all finite stochastic environments, discount factors below one, policies (also history dependent), values, epsilons and temperatures", "why_tests_cant": "it compares with all policies, over infinitely many steps of random episodes", "anchors": ["coax/_core/value_based_policy.py:189-198", "coax/_core/value_based_policy.py:254-257", "coax/td_learning/_qlearning.py", "coax/td_learning/_softqlearning.py", "coax/td_learning/_expectedsarsa.py", "doc/examples/stubs/qlearning.py:45-61"]}
{"id": "C122", "title": "Learning distributions of returns over a discretized interval converges", "statement": "The target of distributional TD learning over a discretized interval contracts the Cramer distance by the square root of the discount factor, so that for every policy there is exactly one table of distributions that equals its own projected targets, and tables that minimize the cross-entropy loss of Sarsa again and again converge to it, up to the floor of 1e-16. If the targets stay in the range of the atoms, its means are the values of the policy; and the means of the tables learned by QLearning converge to the optimal values.", "quantifier": "all finite stochastic environments, policies, discount factors below one, numbers of atoms, ranges and initial tables", "why_tests_cant": "it is about limits of distributions over infinitely many updates, for all environments", "anchors": ["coax/proba_dists/_discretized_interval.py:69-119", "coax/proba_dists/_categorical.py", "coax/td_learning/_base.py", "coax/td_learning/_sarsa.py", "coax/td_learning/_qlearning.py"]}
{"id": "C123", "title": "The picture of a ConnectFour game shows the position", "statement": "render shows each field of the board at its place with the symbol of its owner, so that two positions with the same picture have the same board; it marks the column of the last action with a symbol that is filled if the tokens of the player who moved are, and nothing before the first action. The mask of available actions has an entry for exactly the columns that have a free field.", "quantifier": "all boards and all sequences of legal moves", "why_tests_cant": "it quantifies over all positions; a picture is not compared with the board by any test", "anchors": ["coax/envs/_connect_four.py:127-128", "coax/envs/_connect_four.py:190-220", "coax/envs/_connect_four.py:275-279"]}
{"id": "C124", "title": "Equality of transition batches", "statement": "Two transition batches are equal exactly if all their fields have the same structure and values that agree up to the tolerance of numpy.allclose; comparing never raises; a batch is equal to itself and not to other objects. As a tuple a batch has its eleven fields in their order, and missing weights and indices become ones and 0, 1, 2, ...", "quantifier": "all batches, structures, shapes and values", "why_tests_cant": "tests compare batches that were built alike; broadcasting and truncated comparisons only show for other shapes", "anchors": ["coax/reward_tracing/_transition.py:81-97", "coax/reward_tracing/_transition.py:215-246"]}
{"id": "C125", "title": "Workers share the buffer, metrics and state of their parameter store", "statement": "A worker passes its buffer calls and metrics on to its parameter store, through any chain of stores: the buffer at the end has seen exactly the calls of all workers that lead to it, in their order, and pulled metrics are the averages of everything they pushed. pull_state and push_state copy the state between a worker and that store and change nothing else. The environment of a worker is monitored and has a limit on the length of episodes, or the constructor raises.", "quantifier": "all numbers of workers, chains of stores and programs of calls", "why_tests_cant": "it is about all interleavings of calls of any number of workers", "anchors": ["coax/_core/worker.py:202-230", "coax/_core/worker.py:255-284", "coax/_core/worker.py:308-334"]}
{"id": "C126", "title": "Learning the quantiles of returns", "statement": "With Sarsa and a q-function that predicts quantiles, there are a least and a greatest table of values that balance the loss against their own targets, and sweeps of updates approach the range between them at the rate of the discount factor from everywhere. Values that minimize the loss are quantiles of their targets up to the width 1 of the quadratic part of the loss, and are the return itself for all fractions if nothing is random.", "quantifier": "all finite environments, policies, discount factors below 1, fractions, initial values and numbers of sweeps", "why_tests_cant": "it is about the limit of unboundedly many sweeps in all environments; a test of the loss cannot tell what minimizes it", "anchors": ["coax/value_losses/_losses.py:189-243", "coax/proba_dists/_empirical_quantile.py:41-65", "coax/td_learning/_base.py:266-269", "coax/td_learning/_base.py:423-426", "coax/td_learning/_sarsa.py:69-76"]}
{"id": "C127", "title": "Almost-sure convergence of double Q-learning and Sarsa", "statement": "With a table and slowly decreasing learning rates, DoubleQLearning with a target network converges almost surely to the optimal values, although its targets choose with one table and evaluate with another; Sarsa converges almost surely to the expected returns of the policy that chooses the actions. Both hold for given sequences of transitions and for the online loop of the examples with an n-step tracer, and nothing raises.", "quantifier": "all finite environments with random outcomes, discount factors below 1, initial tables, learning-rate schedules with infinite sum and finite sum of squares, target-network rates in (0, 1], processes of states, actions and outcomes with the stated conditional probabilities", "why_tests_cant": "it is about the limit of an unbounded random process; a run of a test is one finite sample", "anchors": ["coax/td_learning/_doubleqlearning.py:99-134", "coax/td_learning/_sarsa.py:69-80", "coax/td_learning/_base.py:60-116", "doc/examples/frozen_lake/double_qlearning.py:41-61", "coax/_core/base_func.py:88-117"]}
{"id": "C128", "title": "Almost-sure policy evaluation with SimpleTD", "statement": "With a table of state values and slowly decreasing learning rates, SimpleTD with or without a target network converges almost surely to the expected returns of the policy that chooses the actions, for given sequences of transitions and for the online loop of the actor-critic example, and nothing raises.", "quantifier": "all finite environments with random outcomes, policies, discount factors below 1, initial tables, learning-rate schedules with infinite sum and finite sum of squares, target-network rates in (0, 1], processes of states, actions and outcomes with the stated conditional probabilities", "why_tests_cant": "it is about the limit of an unbounded random process; a run of a test is one finite sample", "anchors": ["coax/td_learning/_simple_td.py:71-81", "coax/td_learning/_base.py:223-302", "coax/td_learning/_base.py:60-116", "doc/examples/frozen_lake/a2c.py:43-67", "coax/_core/base_func.py:88-117"]}
{"id": "C129", "title": "Values learned with the default loss", "statement": "With the default loss (Huber) of the updaters, the learned action values converge almost surely to the solution of the Bellman equation, as with the squared loss.", "quantifier": "all finite environments with random outcomes, discount factors below 1, widths delta of the quadratic part of the loss, initial tables, learning-rate schedules with infinite sum and finite sum of squares, target-network rates in (0, 1]", "why_tests_cant": "it is about the limit of an unbounded random process; a run of a test is one finite sample", "anchors": ["coax/td_learning/_base.py:28", "coax/value_losses/_losses.py:52-99", "coax/td_learning/_qlearning.py:111-135", "coax/td_learning/_base.py:223-302"]}
{"id": "C130", "title": "Learning from a replay buffer", "statement": "In the training loop with a tracer, a replay buffer, mini-batches and a target network, the learned action values converge almost surely to the solution of the Bellman equation.", "quantifier": "all finite environments with random outcomes, discount factors below 1, capacities, batch sizes, warm-up lengths, initial tables, learning-rate schedules with infinite sum and finite sum of squares, target-network rates in (0, 1], generators of the buffer", "why_tests_cant": "it is about the limit of an unbounded random process; a run of a test is one finite sample", "anchors": ["doc/examples/cartpole/dqn.py:32-76", "coax/experience_replay/_simple.py", "coax/reward_tracing/_nstep.py", "coax/td_learning/_qlearning.py"]}
{"id": "C131", "title": "An agent that acts with what it has learned learns to act optimally", "statement": "In the training loop where actions are drawn from the epsilon-greedy or Boltzmann policy on the values learned so far, nothing raises, the learned values converge almost surely to the solution of the Bellman equation, from some step on the mode of the policy is optimal, and the policy that acts is worth as much as any other up to what it explores.", "quantifier": "all finite environments with random outcomes in which states can be reached from each other, discount factors below 1, schedules of epsilon in [0, 1] and of temperatures bounded below by a positive number, initial tables and states, learning-rate schedules, type-1 and type-2 functions, generators with independent draws", "why_tests_cant": "it is about the limit of a random process in which actions depend on everything learned before; a test sees one finite sample", "anchors": ["doc/examples/stubs/qlearning.py:28-61", "doc/examples/frozen_lake/qlearning.py:20-57", "doc/examples/stubs/soft_qlearning.py:28-61", "coax/_core/value_based_policy.py", "coax/td_learning/_qlearning.py"]}
{"id": "C132", "title": "The sum tree in floating-point arithmetic", "statement": "With doubles instead of exact numbers, the total of a sum tree after any history of writes is a rounded sum of the present values only (rounding errors do not accumulate over writes), within a relative error of about log2(capacity) roundings; every draw gives a position whose interval of the exact cumulative distribution contains it up to a proved error, so that a position is drawn with the frequency of its value up to twice that error; positions with value zero are never drawn.", "quantifier": "all capacities, histories of writes, non-negative values, draws in [0, 1], all rounding functions that are monotone, idempotent and of bounded relative error, in particular rounding to nearest with ties to even", "why_tests_cant": "the draws that show a rounding error are about one in 2^53, and the number of histories is unbounded", "anchors": ["coax/utils/_segment_tree.py:88-117", "coax/utils/_segment_tree.py:299-301", "coax/utils/_segment_tree.py:342-397"]}
{"id": "C133", "title": "Clipped double Q-learning learns the optimal values", "statement": "Two tables are learned with ClippedDoubleQLearning, a fair coin deciding in each step which of them is updated, with a target network for each. No update raises, and both tables and both target networks converge almost surely to the only solution of the Bellman optimality equation: the minimum over the tables does not bias the limit.", "quantifier": "all finite stochastic environments, discounts below 1, initial tables and target networks, both types of q-functions, all ways of choosing states and actions that update each pair often enough, all decreasing schedules of learning rates with the conditions of Robbins and Monro that hardly differ at times that hardly differ, all rates of the target networks with an infinite sum", "why_tests_cant": "a limit over infinitely many random steps, for all environments and schedules", "anchors": ["coax/td_learning/_clippeddoubleqlearning.py:119-190", "coax/td_learning/_clippeddoubleqlearning.py:229-333", "doc/examples/frozen_lake/td3.py:44-47", "doc/examples/frozen_lake/td3.py:71-80"]}
{"id": "C134", "title": "Looking several steps ahead evaluates the policy", "statement": "In the online loop with an NStep tracer for any number of steps, with the last transitions of each episode cut off at its end, Sarsa, ExpectedSarsa and SimpleTD learn the values of the policy that chooses the actions: the params and those of the target network converge almost surely to the expected discounted returns of that policy, and nothing raises.", "quantifier": "all finite stochastic environments, discounts below 1, numbers of steps, initial tables and target networks, policies and ways of exploring that visit each pair often enough, all decreasing schedules of learning rates with the conditions of Robbins and Monro, all rates of the target network in (0, 1]", "why_tests_cant": "a limit over infinitely many random steps, for all environments, numbers of steps and schedules; successive targets share rewards and are not independent", "anchors": ["coax/reward_tracing/_nstep.py:42-62", "coax/reward_tracing/_nstep.py:64-90", "coax/td_learning/_sarsa.py:69-80", "coax/td_learning/_expectedsarsa.py:100-118", "coax/td_learning/_simple_td.py:71-81", "doc/examples/stubs/sarsa.py:1-52"]}
{"id": "C135", "title": "What Q-learning learns with several steps", "statement": "In the online loop with an NStep tracer for n steps, QLearning converges almost surely to the only solution of the Bellman equation in which n - 1 actions of the exploring policy follow on the first one and only then the greatest value is taken. That solution lies between the values of the exploring policy and the optimal values; it is optimal for n = 1 and if the exploring policy chooses only optimal actions; otherwise it need not be, and its greatest values need not belong to the best actions.", "quantifier": "all finite stochastic environments, discounts below 1, numbers of steps, initial tables and target networks, policies and ways of exploring that visit each pair often enough, all decreasing schedules of learning rates with the conditions of Robbins and Monro, all rates of the target network in (0, 1]", "why_tests_cant": "a limit over infinitely many random steps, for all environments, numbers of steps and schedules", "anchors": ["coax/reward_tracing/_nstep.py:64-90", "coax/td_learning/_qlearning.py:111-147", "doc/examples/stubs/qlearning.py:1-50"]}
{"id": "C136", "title": "Sarsa with the policy that acts on what is being learned", "statement": "In the loop of the Sarsa examples the actions come from EpsilonGreedy on the q-function that Sarsa updates. Nothing raises; and almost surely, if the values of epsilon in use converge, the values converge to those of the best policy among all (also with memory) that choose each action at least as often as EpsilonGreedy does when it explores, and the return of the policy that acts converges to that largest return. With BoltzmannPolicy any limit is the table of values of its own Boltzmann policy; there can be several such tables. In any case the values end up, up to any margin, not above the optimal ones and at most gamma * temperature * log(n) / (1 - gamma) below them, and the policy that acts loses at most temperature * log(n) / (1 - gamma)^2.", "quantifier": "all finite stochastic environments in which every state can be reached from every other, discounts below 1, initial tables, schedules of epsilon (or temperature), tie-breaking rules, decreasing schedules of learning rates with the conditions of Robbins and Monro", "why_tests_cant": "a limit over infinitely many random steps in which policy and values depend on each other, and a maximum over all policies, for all environments and schedules", "anchors": ["doc/examples/stubs/sarsa.py:29-61", "doc/examples/frozen_lake/sarsa.py:20-53", "coax/td_learning/_sarsa.py:69-80", "coax/_core/value_based_policy.py:185-199", "coax/reward_tracing/_nstep.py:64-90"]}
{"id": "C137", "title": "REINFORCE climbs the expected return of its own policy", "statement": "In the REINFORCE loop of the examples (actions drawn from the policy, MonteCarlo tracer, VanillaPG with the returns as advantages) nothing raises; and almost surely the expected return of the policy that is being learned converges while all of its partial derivatives with respect to the logits tend to zero.", "quantifier": "all finite stochastic environments with finite episodes and partial observation, discounts, initial logits, tie-breaking rules, temperatures of the Gumbel-softmax, decreasing schedules of learning rates with the conditions of Robbins and Monro", "why_tests_cant": "a limit over infinitely many random episodes in which the policy that acts is the one that is changed, for all environments and schedules", "anchors": ["doc/examples/frozen_lake/reinforce.py:20-52", "doc/examples/stubs/reinforce.py:30-52", "coax/policy_objectives/_vanilla_pg.py:37-57", "coax/policy_objectives/_base.py:45-90", "coax/reward_tracing/_montecarlo.py:31-75"]}
{"id": "C138", "title": "ExpectedSarsa with a policy on the values being learned", "statement": "In the loop of the ExpectedSarsa example the actions and the probabilities in the targets come from a policy on the q-function that is updated. Nothing raises. With EpsilonGreedy the values almost surely converge to those of the best policy that explores as much, and the return of the policy that acts converges to the largest one. With BoltzmannPolicy the values end up, up to any margin, not above the optimal ones and at most gamma * temperature * log(n) / (1 - gamma) below them, the policy that acts loses at most temperature * log(n) / (1 - gamma)^2, and any limit is the table of values of its own Boltzmann policy.", "quantifier": "all finite stochastic environments in which every state can be reached from every other, discounts below 1, initial tables, epsilons and temperatures, tie-breaking rules, decreasing schedules of learning rates with the conditions of Robbins and Monro", "why_tests_cant": "a limit over infinitely many random steps in which policy, targets and values depend on each other, for all environments and schedules", "anchors": ["doc/examples/frozen_lake/expected_sarsa.py:20-55", "coax/td_learning/_expectedsarsa.py:100-118", "coax/_core/value_based_policy.py:34-46", "coax/_core/value_based_policy.py:185-265"]}
{"id": "C139", "title": "Double Q-learning with a target network, acting on the values being learned", "statement": "In the loop of the double Q-learning example the actions come from BoltzmannPolicy (or EpsilonGreedy) on q, DoubleQLearning (or QLearning) updates q with targets that use q_targ, and q_targ follows q by soft updates. Nothing raises; almost surely the values of q and of q_targ converge to the solution of the Bellman optimality equation, from some step on the mode of the policy is optimal, and an epsilon-greedy policy that acts is in the end worth as much as any other policy up to what it explores.", "quantifier": "all finite stochastic environments in which every state can be reached from every other, discounts below 1, initial tables of q and q_targ, rates of the target network in (0, 1], schedules of temperature (bounded below) or epsilon, tie-breaking rules, decreasing schedules of learning rates with the conditions of Robbins and Monro", "why_tests_cant": "a limit over infinitely many random steps in which actions, targets, values and lagging values depend on each other, for all environments and schedules", "anchors": ["doc/examples/frozen_lake/double_qlearning.py:20-61", "coax/td_learning/_doubleqlearning.py:99-134", "coax/_core/base_func.py:88-89", "coax/_core/value_based_policy.py:185-265"]}
{"id": "C140", "title": "The model-based loop learns the values of the best policy that explores", "statement": "In the loop of the model-based example the actions come from EpsilonGreedy on SuccessorStateQ, which looks one step ahead with a transition model, a reward function and the value function that SimpleTD updates. If the model is exact, then nothing raises; almost surely the values converge to the largest returns among the policies that explore as much as EpsilonGreedy, and the policy that acts is in the end worth as much as that, up to any error.", "quantifier": "all finite stochastic environments in which every state can be reached from every other, exact models of either type, discounts below 1, initial values, schedules of epsilon, tie-breaking rules, decreasing schedules of learning rates with the conditions of Robbins and Monro", "why_tests_cant": "a limit over infinitely many random steps in which the actions depend on the values that are being learned, for all environments, models and schedules", "anchors": ["doc/examples/cartpole/model_based.py:32-72", "coax/_core/successor_state_q.py:156-215", "coax/td_learning/_simple_td.py:71-81", "coax/_core/value_based_policy.py:34-44", "coax/_core/value_based_policy.py:189-198"]}
{"id": "C141", "title": "Square-bracket lookups of the segment tree return the reductions of blocks of values, and writes through them leave the tree damaged until the values are set again", "statement": "After any history of set_values calls, tree[level] lists the reductions of the blocks of 2^(height-1-level) values, tree[level, index] picks entries, parts or lists of it, negative levels and indices count from the end, and anything else raises IndexError. A write through tree.values or tree[-1] changes only that value; the root stays wrong through all calls that avoid the value and its sibling, and a set_values call that includes the overwritten positions makes everything consistent again. A write to an inner level may stay forever.", "quantifier": "all capacities, reducers with unit, histories of calls, levels, indices, overwritten positions and values", "why_tests_cant": "quantifies over all capacities, reducers, histories and lookups; the tests look at a few trees and no test writes through a view", "anchors": ["coax/utils/_segment_tree.py:35-39", "coax/utils/_segment_tree.py:64-69", "coax/utils/_segment_tree.py:71-86", "coax/utils/_segment_tree.py:190-200"]}
{"id": "C142", "title": "The DQN loop learns the optimal values while it acts on the values that it learns from its replay buffer", "statement": "In the loop of the DQN examples (NStep tracer with n=1, SimpleReplayBuffer, QLearning or SoftQLearning with a target network that follows with a constant rate) with tables, where every action is drawn from the BoltzmannPolicy or EpsilonGreedy policy on the current q, in a finite connected environment whose episodes do not end: nothing raises, and almost surely q and q_targ converge to the solution of the Bellman equation and the mode of the policy becomes optimal.", "quantifier": "all finite connected stochastic environments without ends of episodes, all schedules of exploration, capacities, batch sizes, generators of the buffer that draw the newest transition with some probability, decreasing slow learning rates, initial values; almost all random numbers", "why_tests_cant": "a statement about infinite runs with probability one; tests run a few updates with a fixed batch", "anchors": ["doc/examples/cartpole/dqn.py:29-75", "doc/examples/stubs/dqn.py:46-71", "coax/experience_replay/_simple.py:40-83", "coax/td_learning/_qlearning.py:111-146"]}
{"id": "C143", "title": "What the seed of a replay buffer determines, what clear does to it, and what sampling does to other random draws", "statement": "A PrioritizedReplayBuffer made with a random_seed answers every sequence of calls in a way determined by its arguments and the seed. Its clear() makes it as new, including the random numbers: they start again, so a loop that clears, fills with the same advantages and samples draws the same identifiers in every round. Without a seed, clear() takes new entropy. SimpleReplayBuffer.clear() does not start again, and every call of its sample() sets the global state of random, whatever the program did to it, to the very state from which the next sample() draws.", "quantifier": "all seeds, generators, capacities, parameters, sequences of calls before and after clear, entropies, transitions, numbers of rounds", "why_tests_cant": "it relates all continuations of two different histories; tests look at one sample with one seed", "anchors": ["coax/experience_replay/_prioritized.py:68-84", "coax/experience_replay/_prioritized.py:208-212", "coax/utils/_segment_tree.py:299-310", "coax/experience_replay/_simple.py:31-35", "coax/experience_replay/_simple.py:80-89"]}
{"id": "C144", "title": "A checkpoint made with dump is restored by load, with all references between the objects in it", "statement": "A program that uses what load (loads) returns sees exactly what it would have seen with the dumped object at the moment of the dump, including which objects are the same; nothing it does is seen by the program that was there before, and vice versa. Objects that were dumped one by one share nothing after loading. load returns what was dumped last to the path, also if directories had to be made. A dump that raises leaves the earlier checkpoint at that path alone.", "quantifier": "all heaps of objects (also cyclic), dumped values, programs on both sides and interleavings of them, processes in which the value is loaded, disks, paths, later dumps to other paths", "why_tests_cant": "it quantifies over all object graphs and all programs that use them; tests compare a few attributes", "anchors": ["coax/utils/_misc.py:133-184", "coax/utils/_misc.py:187-236", "coax/utils/_misc.py:239-252", "coax/utils/_misc.py:255-267"]}
{"id": "C145", "title": "Policies over nested action spaces sample members with independent parts of the right laws", "statement": "Calling a policy in a state returns a member of the action space. The entries of MultiDiscrete and MultiBinary and the members of Tuple and Dict, however nested, are independent of each other; each discrete part is distributed as the softmax of its own logits and each Box as the normal distribution of its own mean and variance, squashed into the Box. mode and mean return a member whose discrete parts are most likely and whose Boxes are the squashed means.", "quantifier": "all nested spaces, all distribution parameters, all temperatures, all events for each of the parts", "why_tests_cant": "independence and laws of parts are statements about probability measures; a reused random key or a mixed-up name in a Dict still gives valid samples", "anchors": ["coax/proba_dists/_composite.py:ProbaDist.sample", "coax/proba_dists/_composite.py:ProbaDist.mode", "coax/proba_dists/_composite.py:ProbaDist.mean", "coax/_core/base_stochastic_func_type2.py:sample_func"]}
{"id": "C146", "title": "affine_transform of a distribution over a nested space", "statement": "affine_transform of a distribution over a space made of Boxes returns the parameters of the joint law of scale * X + shift, with a scale and a shift for each Box, also with value transforms for the parts. With a discrete part it raises NotImplementedError; parameters, scales and shifts of the wrong structure are rejected.", "quantifier": "all nestings of spaces, all parameters, scales and shifts that are structured like the space, all value transforms", "why_tests_cant": "equality of laws for all nestings and real parameters; no test calls it", "anchors": ["coax/proba_dists/_composite.py:177-198", "coax/proba_dists/_composite.py:207", "coax/proba_dists/_normal.py:NormalDist.affine_transform"]}
{"id": "C147", "title": "values learned with a policy regularizer", "statement": "A value function trained with EntropyRegularizer(pi, beta), while pi chooses the actions, learns the expected discounted sum of the rewards and of beta times the entropy of pi in every state visited, for any number of steps n of the tracer; a Boltzmann policy with temperature beta made from the q-values is at least as good as pi by this measure.", "quantifier": "all finite environments, policies, values of beta and discount factors, almost all executions of the loop; for the equality of updates all batches, loss functions and learning rates", "why_tests_cant": "limits of random infinite executions; the tests only run one update with a regularizer", "anchors": ["coax/td_learning/_base.py:244-252", "coax/td_learning/_base.py:284-285", "coax/td_learning/_base.py:400-408", "coax/td_learning/_base.py:441-442", "coax/regularizers/_entropy.py:EntropyRegularizer", "coax/regularizers/_kl_div.py:KLDivRegularizer", "coax/regularizers/_base.py:batch_eval"]}
{"id": "C148", "title": "example data of function approximators", "statement": "The inputs from which example_data initialises and checks a network are a batch of the features of members of the observation and action spaces, with the same tree structure and numbers of columns as every batch of transitions in training and every single observation in calls; the outputs have as many rows as asked for, and data of type 2 exist exactly for discrete actions.", "quantifier": "all nested spaces, batch sizes, random numbers, and preprocessors that return one row of fixed width per element", "why_tests_cant": "unbounded nesting of spaces and all random draws; the tests use one space of each kind with a batch of one row", "anchors": ["coax/_core/q.py:Q.example_data", "coax/_core/v.py:V.example_data", "coax/_core/base_stochastic_func_type1.py:example_data", "coax/_core/base_stochastic_func_type2.py:example_data", "coax/utils/_array.py:safe_sample", "coax/utils/_array.py:default_preprocessor"]}
{"id": "C149", "title": "value functions that are linear in their params", "statement": "With a value function that is linear in its params, such as the one of the model-based example, repeated SimpleTD updates with a batch of transitions converge, and the values they converge to have a squared error on the states of the batch of at most 1/(1-gamma^2) times the least possible one.", "quantifier": "all features, fixed terms, initial params, rewards, numbers of steps, discount factors below 1, and batches traced from complete episodes", "why_tests_cant": "a limit over infinitely many updates and an inequality over all params; tests make one update; on other batches the same updates diverge", "anchors": ["coax/td_learning/_simple_td.py:SimpleTD.target_func", "coax/td_learning/_base.py:BaseTDLearningV", "coax/_core/v.py:V", "coax/reward_tracing/_nstep.py:NStep", "doc/examples/cartpole/model_based.py:func_v"]}
{"id": "C150", "title": "q-functions that are linear in their params", "statement": "With a q-function that is linear in its params, of type 1 or type 2, repeated updates with the transitions of complete episodes, as a whole or in mini-batches drawn uniformly, converge, and the values they converge to have a squared error on the steps of the episodes of at most 1/(1-gamma^2) times the least possible one.", "quantifier": "all features, fixed terms, initial params, rewards, numbers of steps, discount factors below 1, complete episodes and mini-batch sizes; both types of functions", "why_tests_cant": "a limit over infinitely many updates, almost surely over all draws, and an inequality over all params; tests make one update; QLearning diverges on the same data", "anchors": ["coax/td_learning/_sarsa.py:Sarsa.target_func", "coax/td_learning/_qlearning.py:QLearning.target_func", "coax/td_learning/_base.py:BaseTDLearningQ", "coax/_core/q.py:Q", "coax/reward_tracing/_nstep.py:NStep", "doc/examples/frozen_lake/sarsa.py:func"]}
{"id": "C151", "title": "linear functions with the default loss function", "statement": "With a value function that is linear in its params and the default loss function (Huber), repeated updates with the transitions of complete episodes and a small learning rate converge to the values that they converge to with mse, if some params give exactly the right values.", "quantifier": "all features, initial params, rewards, complete episodes and small learning rates", "why_tests_cant": "a limit over infinitely many updates from all initial params; tests make one update, and near the limit the property holds, while from other params updates diverge slowly", "anchors": ["coax/td_learning/_base.py:BaseTDLearning.__init__", "coax/value_losses/_losses.py:huber", "coax/td_learning/_simple_td.py:SimpleTD.target_func", "coax/td_learning/_sarsa.py:Sarsa.target_func", "coax/reward_tracing/_nstep.py:NStep"]}
{"id": "C152", "title": "ExpectedSarsa with linear q-functions", "statement": "With a q-function that is linear in its params, of type 1 or type 2, repeated updates of ExpectedSarsa with the transitions of complete episodes and a small learning rate converge, to values that are the projection of what the transitions say about them.", "quantifier": "all features, fixed terms, policies, initial params, rewards, discount factors below 1 and batches; both types of functions", "why_tests_cant": "a limit over infinitely many updates from all initial params; tests make one update; on some episodes of the same policy updates diverge, on others they converge", "anchors": ["coax/td_learning/_expectedsarsa.py:ExpectedSarsa.target_func", "coax/td_learning/_base.py:BaseTDLearningQWithTargetPolicy", "coax/_core/q.py:Q", "coax/reward_tracing/_nstep.py:NStep", "doc/examples/frozen_lake/expected_sarsa.py:func"]}
{"id": "C153", "title": "example_data describes the function that the constructor takes", "statement": "With the same arguments, the class method example_data succeeds whenever the constructor does, and the data it returns are made with the preprocessors and for the distribution that the constructed object uses.", "quantifier": "all spaces, preprocessors, distributions, value ranges, numbers of bins, transforms and signatures", "why_tests_cant": "the tests call example_data with default arguments; a difference only shows for arguments that are not defaults, as a network that is written for other inputs or outputs", "anchors": ["coax/_core/v.py:V.example_data", "coax/_core/q.py:Q.example_data", "coax/_core/policy.py:Policy.example_data", "coax/_core/stochastic_v.py:StochasticV.example_data", "coax/_core/stochastic_q.py:StochasticQ.example_data", "coax/_core/stochastic_reward_function.py:StochasticRewardFunction", "coax/_core/transition_model.py:TransitionModel.example_data", "coax/_core/stochastic_transition_model.py:StochasticTransitionModel.example_data"]}
{"id": "C154", "title": "seeds of DeepMind Control environments", "statement": "An environment of DmcGymWrapper that is reset with a seed behaves from then on as a new environment made with that seed, whatever happened before; resets without a seed, steps and renderings do not change its seed, and its domain, task and picture settings never change.", "quantifier": "all suites of deterministic environments, settings, seeds and sequences of calls before and after the reset", "why_tests_cant": "all histories of calls; tests reset once", "anchors": ["coax/utils/_dmc_gym.py:DmcGymWrapper.__init__", "coax/utils/_dmc_gym.py:DmcGymWrapper._make_env", "coax/utils/_dmc_gym.py:DmcGymWrapper.reset", "coax/utils/_dmc_gym.py:DmcGymWrapper.step", "coax/utils/_dmc_gym.py:DmcGymWrapper.render"]}
