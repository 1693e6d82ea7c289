{"id": "C01", "title": "Buffer writes touch exactly the requested window", "statement": "update_buffer(updates, start) with an in-range start stores updates at [start, start+len) along the buffer's cursor dimension, leaves every other cell and the shape unchanged, and a fresh buffer reads -inf everywhere. A negative start counts from the end, as in python.", "quantifier": "all ranks, shapes, cursor dimensions, start offsets that fit, and update contents", "why_tests_cant": "a test fixes one shape and offset; the claim is for every rank/axis/offset and every untouched cell", "anchors": ["src/flowMC/resource/buffers.py:Buffer.__init__", "src/flowMC/resource/buffers.py:Buffer.update_buffer"]}
{"id": "C02", "title": "Successive appends build a faithful log", "statement": "Writing blocks one after another, each at the end of the previous one, leaves the buffer equal to the concatenation of the blocks followed by untouched -inf rows, as long as the total fits. In particular N successive calls of a step strategy (thinning dividing the step count, room for all blocks) leave in its three buffers the recorded rows of call 1, ..., call N one after the other, nothing else changed, and the cursor behind the last block.", "quantifier": "every finite sequence of blocks of any lengths whose total fits, any chain count and dimension", "why_tests_cant": "unbounded histories of writes; off-by-one overlaps only show for particular length sequences", "anchors": ["src/flowMC/resource/buffers.py:Buffer.update_buffer", "src/flowMC/strategy/take_steps.py:TakeSteps.__call__"]}
{"id": "C03", "title": "A write that does not fit never destroys recorded samples", "statement": "A write whose window would run past the end of the buffer does not overwrite previously recorded rows.", "quantifier": "all buffers, blocks and offsets including those past the end", "why_tests_cant": "tests only exercise writes that fit; the silent clamping only shows on overflow", "anchors": ["src/flowMC/resource/buffers.py:Buffer.update_buffer"]}
{"id": "C04", "title": "Buffer save/load round trip", "statement": "Loading a saved buffer gives back a buffer with the same name, contents, cursor and cursor dimension, so that later updates behave as on the original.", "quantifier": "all buffers", "why_tests_cant": "the repo has no such test and a test would sample one buffer; the claim is for every cursor and cursor_dim", "anchors": ["src/flowMC/resource/buffers.py:Buffer.save_resource", "src/flowMC/resource/buffers.py:Buffer.load_resource"]}
{"id": "C05", "title": "State updates are per-key last-write-wins", "statement": "State.update(keys, values) sets every listed key to its (last) paired value and changes no other key; surplus keys or values are ignored; UpdateState changes only the named State resource and neither the rng key nor the positions.", "quantifier": "all states, key lists with duplicates, and value lists of any lengths", "why_tests_cant": "duplicates and length mismatches form an unbounded space", "anchors": ["src/flowMC/resource/states.py:State.update", "src/flowMC/strategy/update_state.py:UpdateState.__call__"]}
{"id": "C06", "title": "State save/load round trip", "statement": "Loading a saved State gives back a State with the same name and data.", "quantifier": "all states", "why_tests_cant": "must hold for every dictionary; no test exists", "anchors": ["src/flowMC/resource/states.py:State.save_resource", "src/flowMC/resource/states.py:State.load_resource"]}
{"id": "C07", "title": "Sampler construction precedence", "statement": "If both resources and strategies are given they (and the given strategy_order) are used and the bundle is ignored; otherwise the bundle's resources, strategies and order are all used; with neither, construction raises ValueError.", "quantifier": "all combinations of present/absent arguments and their contents", "why_tests_cant": "decision table over arbitrary objects, including partially given arguments", "anchors": ["src/flowMC/Sampler.py:Sampler.__init__"]}
{"id": "C08", "title": "sample() is sequential composition of strategies", "statement": "sample runs the strategies in strategy_order exactly once each per occurrence and in order, threading the rng key, resources and positions from one to the next; running order A++B equals running A and then B from where A ended.", "quantifier": "all strategy dictionaries, all orders (with repetitions, any length), all resources and positions", "why_tests_cant": "all schedules", "anchors": ["src/flowMC/Sampler.py:Sampler.sample"]}
{"id": "C09", "title": "Failure in the middle of a run has exactly the prefix's effects", "statement": "If strategy_order contains an unknown name (ValueError) or a strategy raises, the effects on resources are exactly those of the strategies before it (plus the failing strategy's own partial effects), and no later strategy runs.", "quantifier": "every order and every failure position", "why_tests_cant": "all crash points", "anchors": ["src/flowMC/Sampler.py:Sampler.sample"]}
{"id": "C10", "title": "Keyword overrides only touch known hyperparameters", "statement": "Extra keyword arguments of Sampler set an attribute exactly when the name is a non-dunder attribute of the class (verbose, logging, outdir, and the methods); all other keywords are silently ignored and n_dim, n_chains, rng_key, resources, strategies, strategy_order cannot be overridden this way.", "quantifier": "all keyword dictionaries", "why_tests_cant": "arbitrary keyword sets", "anchors": ["src/flowMC/Sampler.py:Sampler.__init__"]}
{"id": "C11", "title": "A second sample() call draws fresh randomness and does not corrupt production samples", "statement": "Calling sample again on the same sampler uses randomness independent of the first call, and its training phase writes to training buffers, not to the production buffers.", "quantifier": "all samplers and all histories of sample() calls", "why_tests_cant": "histories of calls; tests call sample once", "anchors": ["src/flowMC/Sampler.py:Sampler.sample", "src/flowMC/resource_strategy_bundle/RQSpline_MALA.py", "src/flowMC/strategy/take_steps.py:TakeSteps.__call__"]}
{"id": "C12", "title": "Chain batching does not change results", "statement": "For any chain_batch_size the recorded positions, log-probabilities, acceptances and the returned key and positions are identical to those of the unbatched run.", "quantifier": "all numbers of chains (not only multiples of the batch size), all batch sizes, kernels, keys", "why_tests_cant": "remainder batches for every n_chains/batch_size pair", "anchors": ["src/flowMC/strategy/take_steps.py:TakeSteps.__call__"]}
{"id": "C13", "title": "Chains are independent", "statement": "In a step strategy the rows recorded for one chain depend only on that chain's start position and that chain's randomness, never on the other chains. The same holds for the position a tempering call returns and the replicas it stores for a chain (given the temperatures), and for the position AdamOptimization returns for a chain; the keys of different chains of a tempering call are disjoint.", "quantifier": "all chain counts, chains, other chains' positions and randomness", "why_tests_cant": "relational property over pairs of runs", "anchors": ["src/flowMC/strategy/take_steps.py:TakeSteps.__call__", "src/flowMC/strategy/take_steps.py:TakeSerialSteps.sample", "src/flowMC/strategy/take_steps.py:TakeGroupSteps.sample", "src/flowMC/strategy/parallel_tempering.py:ParallelTempering.__call__", "src/flowMC/strategy/optimization.py:AdamOptimization.__call__"]}
{"id": "C14", "title": "Recorded log-probabilities match recorded positions (local kernels)", "statement": "For GaussianRandomWalk, MALA and HMC, every row recorded by TakeSerialSteps has log_prob equal to logpdf evaluated at the recorded position.", "quantifier": "all targets, keys, start positions, numbers of steps, thinning", "why_tests_cant": "invariant of an unbounded iteration for every outcome of the accept/reject sequence", "anchors": ["src/flowMC/strategy/take_steps.py:TakeSerialSteps", "src/flowMC/resource/kernel/Gaussian_random_walk.py", "src/flowMC/resource/kernel/MALA.py", "src/flowMC/resource/kernel/HMC.py"]}
{"id": "C15", "title": "Recorded log-probabilities match recorded positions (flow kernel)", "statement": "For NFProposal, every row recorded by TakeGroupSteps has log_prob equal to logpdf at the recorded position, whatever the proposal batch size.", "quantifier": "all targets, flows, batch sizes, step counts", "why_tests_cant": "every n_steps/batch size combination and accept sequence", "anchors": ["src/flowMC/strategy/take_steps.py:TakeGroupSteps.sample", "src/flowMC/resource/kernel/NF_proposal.py:NFProposal.kernel"]}
{"id": "C16", "title": "Acceptance flags tell the truth", "statement": "A kernel step with acceptance flag false returns the incoming position (and keeps the chain where it was); with flag true it returns the proposed position; so consecutive rows differ only where the later row's flag is true.", "quantifier": "all kernels, targets, random draws, steps", "why_tests_cant": "all accept/reject histories", "anchors": ["src/flowMC/resource/kernel/Gaussian_random_walk.py:kernel", "src/flowMC/resource/kernel/MALA.py:kernel", "src/flowMC/resource/kernel/HMC.py:kernel", "src/flowMC/resource/kernel/NF_proposal.py:kernel"]}
{"id": "C17", "title": "Thinning records every t-th step and returns the last recorded row", "statement": "With thinning t the rows recorded are steps 0, t, 2t, ... of the chain, and the position handed to the next strategy is the last recorded row.", "quantifier": "all n_steps >= 1, all thinning >= 1, all chains", "why_tests_cant": "arithmetic over all step/thinning pairs", "anchors": ["src/flowMC/strategy/take_steps.py:TakeSteps.__call__"]}
{"id": "C18", "title": "No recorded row is lost between successive blocks under thinning", "statement": "Successive calls of a step strategy never overwrite rows recorded by the previous call.", "quantifier": "all n_steps and thinning, including thinning that does not divide n_steps, all numbers of calls", "why_tests_cant": "only non-dividing pairs fail; histories of calls", "anchors": ["src/flowMC/strategy/take_steps.py:TakeSteps.__call__"]}
{"id": "C19", "title": "Step strategies have a small footprint and fail before writing", "statement": "A step strategy changes only the three buffers named through the State resource and its own cursor; if a required resource is missing or of the wrong type it raises before modifying anything.", "quantifier": "all resource dictionaries, all missing/mistyped combinations", "why_tests_cant": "frame property over arbitrary dictionaries and every failing lookup", "anchors": ["src/flowMC/strategy/take_steps.py:TakeSteps.__call__"]}
{"id": "C20", "title": "Proposals with NaN or -inf log-density are never accepted", "statement": "No kernel ever accepts a proposal whose log-density is NaN or -inf; hence a chain that starts at a point of finite log-density never records such a point.", "quantifier": "all kernels, targets, draws (including u=0), any floating point arithmetic with IEEE special values", "why_tests_cant": "all special-value combinations along unbounded chains", "anchors": ["src/flowMC/resource/kernel/Gaussian_random_walk.py:kernel", "src/flowMC/resource/kernel/MALA.py:kernel", "src/flowMC/resource/kernel/HMC.py:kernel", "src/flowMC/resource/kernel/NF_proposal.py:kernel"]}
{"id": "C21", "title": "Acceptance probability is min(1, exp(log ratio))", "statement": "Given the log acceptance ratio r, the uniform draw accepts with probability exactly min(1, e^r); in particular a move with r >= 0 is accepted for every draw in (0,1).", "quantifier": "all real ratios and all draws", "why_tests_cant": "a probability statement over the continuum of draws", "anchors": ["src/flowMC/resource/kernel/Gaussian_random_walk.py:kernel", "src/flowMC/resource/kernel/MALA.py:kernel", "src/flowMC/resource/kernel/HMC.py:kernel", "src/flowMC/resource/kernel/NF_proposal.py:kernel", "src/flowMC/strategy/parallel_tempering.py:_exchange_step_body"]}
{"id": "C22", "title": "GaussianRandomWalk satisfies detailed balance", "statement": "One GaussianRandomWalk step with exact Gaussian and uniform draws is reversible with respect to, hence leaves invariant, the density exp(logpdf).", "quantifier": "all measurable targets, dimensions and non-zero step sizes", "why_tests_cant": "distributional exactness cannot be established by finite sampling", "anchors": ["src/flowMC/resource/kernel/Gaussian_random_walk.py:GaussianRandomWalk.kernel"]}
{"id": "C23", "title": "MALA satisfies detailed balance", "statement": "One MALA step with exact draws is reversible with respect to, hence leaves invariant, the density exp(logpdf); its proposal is normal with mean x + step_size^2/2 grad logpdf(x) and covariance step_size^2 times the identity.", "quantifier": "all measurable targets and gradient fields, dimensions and non-zero step sizes", "why_tests_cant": "distributional exactness cannot be established by finite sampling", "anchors": ["src/flowMC/resource/kernel/MALA.py:MALA.kernel"]}
{"id": "C24", "title": "HMC leapfrog trajectory is reversible and volume preserving", "statement": "Running the leapfrog integrator, flipping the momentum and running it again returns to the start; the map preserves phase-space volume; it performs n_leapfrog+1 drifts; the kernel's proposal is the end point of the trajectory of Hamilton's equations for the potential -logpdf and the kinetic energy of the acceptance test.", "quantifier": "all gradient fields, metrics, step sizes, n_leapfrog, start points", "why_tests_cant": "for every number of leapfrog steps and every potential", "anchors": ["src/flowMC/resource/kernel/HMC.py:HMC.leapfrog_kernel", "src/flowMC/resource/kernel/HMC.py:HMC.leapfrog_step", "src/flowMC/resource/kernel/HMC.py:HMC.__init__"]}
{"id": "C25", "title": "HMC leaves the target invariant", "statement": "One HMC step (fresh momentum, leapfrog, accept/reject) leaves the density exp(logpdf) invariant for every admissible condition_matrix.", "quantifier": "all measurable targets, gradient fields, step sizes, n_leapfrog and positive definite condition matrices", "why_tests_cant": "distributional exactness cannot be established by finite sampling", "anchors": ["src/flowMC/resource/kernel/HMC.py:HMC.kernel"]}
{"id": "C26", "title": "Flow global steps satisfy detailed balance", "statement": "The NFProposal accept/reject sweep leaves exp(logpdf) invariant whenever the flow's log_prob is, up to an additive constant, the log-density of the flow's samples.", "quantifier": "all measurable targets, all flows, all numbers of steps", "why_tests_cant": "distributional exactness cannot be established by finite sampling", "anchors": ["src/flowMC/resource/kernel/NF_proposal.py:NFProposal.kernel"]}
{"id": "C27", "title": "Flow proposal batching is invisible", "statement": "For every n_steps and batch size the kernel makes exactly n_steps proposals, never evaluates more than the batch size at a time, and pairs every proposal with the target log-density and flow log-density of that same proposal.", "quantifier": "all n_steps >= 0 and batch sizes >= 1", "why_tests_cant": "ceil/remainder arithmetic for all pairs", "anchors": ["src/flowMC/resource/kernel/NF_proposal.py:NFProposal.kernel", "src/flowMC/resource/kernel/NF_proposal.py:NFProposal.sample_flow"]}
{"id": "C28", "title": "Multi-step local sampling preserves the target", "statement": "If the chain's start is distributed as the target, then so is every row recorded by TakeSerialSteps after any number of steps, when distinct PRNG keys give independent exact draws.", "quantifier": "all step counts, targets, local kernels; an ideal PRNG", "why_tests_cant": "distribution after unboundedly many steps", "anchors": ["src/flowMC/strategy/take_steps.py:TakeSerialSteps.body", "src/flowMC/strategy/take_steps.py:TakeSerialSteps.sample", "src/flowMC/resource/kernel/Gaussian_random_walk.py", "src/flowMC/resource/kernel/MALA.py", "src/flowMC/resource/kernel/HMC.py"]}
{"id": "C29", "title": "Randomness is never reused across chains, steps or strategies", "statement": "Within one sample() run, different strategy calls, different chains of a call and different steps of a chain consult disjoint sets of PRNG keys; inside a step or call, the proposal noise and the acceptance decision, the batches of flow proposals, the moves at different temperatures, the exchanges, the choice of training data and the shuffles of the epochs are drawn with pairwise unrelated keys.", "quantifier": "all strategy orders, chain counts, step counts", "why_tests_cant": "key-derivation tree over unbounded runs", "anchors": ["src/flowMC/Sampler.py:Sampler.sample", "src/flowMC/strategy/take_steps.py:TakeSteps.__call__", "src/flowMC/strategy/parallel_tempering.py:ParallelTempering.__call__", "src/flowMC/strategy/train_model.py:TrainModel.__call__"]}
{"id": "C30", "title": "Replica exchange only permutes walkers", "statement": "The exchange sweep permutes the walkers of a chain among temperatures (no walker is lost or duplicated) and the log-likelihoods it carries stay attached to their walkers.", "quantifier": "all ladders, positions, likelihoods and accept sequences, any number of temperatures", "why_tests_cant": "all 2^(n-1) accept patterns for every n", "anchors": ["src/flowMC/strategy/parallel_tempering.py:_exchange", "src/flowMC/strategy/parallel_tempering.py:_exchange_step_body"]}
{"id": "C31", "title": "Replica exchange satisfies detailed balance", "statement": "One exchange sweep leaves the joint tempered distribution prod_i exp(logL(x_i)/T_i + logprior(x_i)) invariant.", "quantifier": "all measurable likelihoods/priors, all positive temperatures, any number of temperatures", "why_tests_cant": "distributional exactness", "anchors": ["src/flowMC/strategy/parallel_tempering.py:_exchange_step_body", "src/flowMC/resource/logPDF.py:TemperedPDF.tempered_log_pdf"]}
{"id": "C32", "title": "A parallel tempering call preserves the joint tempered distribution", "statement": "With temperatures held fixed, n_steps local moves at every temperature followed by the exchange sweep leave the joint tempered distribution invariant; the cold chain at T=1 targets likelihood*prior.", "quantifier": "all n_steps, ladders, targets", "why_tests_cant": "distributional exactness over unbounded steps", "anchors": ["src/flowMC/strategy/parallel_tempering.py:ParallelTempering.__call__", "src/flowMC/strategy/parallel_tempering.py:_ensemble_step", "src/flowMC/strategy/parallel_tempering.py:_individal_step"]}
{"id": "C33", "title": "Temperature adaptation keeps the ladder anchored and ordered below the top", "statement": "After any number of adaptations the first and last temperatures are unchanged, the temperatures other than the last remain strictly increasing, and all are at least the first; in particular T[0]=1 stays 1. One adaptation multiplies the gap between temperatures j and j+1 (j+1 not the top) by exp(100/n_chains * (a_j - a_(j+1))), where a_j is the fraction of chains that accepted the exchange of j and j+1.", "quantifier": "all ladders, acceptance histories, numbers of adaptations, chain counts", "why_tests_cant": "unbounded adaptation histories", "anchors": ["src/flowMC/strategy/parallel_tempering.py:_adapt_temperature"]}
{"id": "C34", "title": "Adapted temperatures never exceed the maximum temperature", "statement": "After adaptation the whole ladder is still increasing and bounded by the configured maximum temperature.", "quantifier": "all ladders and acceptance rates", "why_tests_cant": "only particular acceptance patterns break it", "anchors": ["src/flowMC/strategy/parallel_tempering.py:_adapt_temperature"]}
{"id": "C35", "title": "Parallel tempering adapts only while training", "statement": "With state training=False a parallel tempering call changes no resource; with training=True it changes only the tempered positions (to walkers 1.. of the exchange) and the temperatures.", "quantifier": "all resources, positions, data", "why_tests_cant": "frame property over arbitrary dictionaries", "anchors": ["src/flowMC/strategy/parallel_tempering.py:ParallelTempering.__call__"]}
{"id": "C36", "title": "All strategies of the tempering bundle target the same distribution", "statement": "In RQSpline_MALA_PT_Bundle the cold replica, the local stepper and the global stepper all target the same density, whatever prior the user supplies.", "quantifier": "all logpdf and logprior functions", "why_tests_cant": "relational claim over all user functions", "anchors": ["src/flowMC/resource_strategy_bundle/RQSpline_MALA_PT.py", "src/flowMC/resource/logPDF.py:TemperedPDF"]}
{"id": "C37", "title": "Masked coupling layers are invertible", "statement": "For a 0/1 mask and an elementwise-invertible inner bijector, inverse(forward(x)) = x and forward(inverse(y)) = y with opposite log-determinants, and masked coordinates pass through unchanged.", "quantifier": "all dimensions, masks, conditioners and inner bijectors", "why_tests_cant": "for every conditioner network and mask", "anchors": ["src/flowMC/resource/model/common.py:MaskedCouplingLayer", "src/flowMC/resource/model/common.py:MLPAffine", "src/flowMC/resource/model/common.py:ScalarAffine"]}
{"id": "C38", "title": "RealNVP is invertible with consistent log-determinants", "statement": "RealNVP.inverse inverts RealNVP.forward in both orders and the two log-determinants are negatives of each other.", "quantifier": "all numbers of layers, features, network weights, inputs", "why_tests_cant": "for all weights and inputs", "anchors": ["src/flowMC/resource/model/nf_model/realNVP.py:RealNVP.forward", "src/flowMC/resource/model/nf_model/realNVP.py:RealNVP.inverse", "src/flowMC/resource/model/nf_model/realNVP.py:AffineCoupling"]}
{"id": "C39", "title": "Spline knots are always valid", "statement": "For any conditioner output the spline's knot positions start at range_min, end at range_max and are strictly increasing with every bin at least min_bin_size, and all slopes exceed min_knot_slope; a zero raw slope gives slope 1.", "quantifier": "all raw parameters, numbers of bins, ranges wide enough", "why_tests_cant": "for all network outputs", "anchors": ["src/flowMC/resource/model/nf_model/rqSpline.py:_normalize_bin_sizes", "src/flowMC/resource/model/nf_model/rqSpline.py:_normalize_knot_slopes", "src/flowMC/resource/model/nf_model/rqSpline.py:RQSpline.get_params"]}
{"id": "C40", "title": "The spline is a strictly increasing bijection of the line", "statement": "For valid knots the spline forward map is strictly increasing and onto, maps knots to knots and is linear with the boundary slopes outside the range.", "quantifier": "all valid knots, slopes, numbers of bins, inputs", "why_tests_cant": "for all real inputs and parameters", "anchors": ["src/flowMC/resource/model/nf_model/rqSpline.py:_rational_quadratic_spline_fwd"]}
{"id": "C41", "title": "The spline inverse is exact", "statement": "The spline inverse composed with the forward map is the identity in both orders and its log-derivative is the negative of the forward one at the preimage.", "quantifier": "all valid knots with slopes bounded so that the floating-point clip is inactive, all inputs", "why_tests_cant": "for all real inputs and parameters", "anchors": ["src/flowMC/resource/model/nf_model/rqSpline.py:_rational_quadratic_spline_inv", "src/flowMC/resource/model/nf_model/rqSpline.py:_safe_quadratic_root"]}
{"id": "C42", "title": "The spline log-determinant is the log-derivative", "statement": "The log-determinant returned by the forward spline is the logarithm of the derivative of the returned value with respect to the input.", "quantifier": "all valid knots, all inputs (one-sided where the linear tails meet the knots is not needed: slopes match)", "why_tests_cant": "for all real inputs", "anchors": ["src/flowMC/resource/model/nf_model/rqSpline.py:_rational_quadratic_spline_fwd"]}
{"id": "C43", "title": "The spline flow is invertible with consistent log-determinants", "statement": "MaskedCouplingRQSpline.inverse inverts forward in both orders and the two log-determinants are negatives of each other.", "quantifier": "all layer counts, weights, inputs", "why_tests_cant": "for all weights and inputs", "anchors": ["src/flowMC/resource/model/nf_model/rqSpline.py:MaskedCouplingRQSpline.forward", "src/flowMC/resource/model/nf_model/rqSpline.py:MaskedCouplingRQSpline.inverse"]}
{"id": "C44", "title": "Flow samples have the flow's density", "statement": "The distribution of model.sample (base Gaussian through the inverse, then un-whitened) has density proportional to exp(model.log_prob).", "quantifier": "all weights, layer counts, dimensions, positive data variances", "why_tests_cant": "distributional statement for all parameters", "anchors": ["src/flowMC/resource/model/nf_model/realNVP.py:RealNVP.sample", "src/flowMC/resource/model/nf_model/realNVP.py:RealNVP.log_prob", "src/flowMC/resource/model/nf_model/rqSpline.py:MaskedCouplingRQSpline.sample", "src/flowMC/resource/model/nf_model/rqSpline.py:MaskedCouplingRQSpline.log_prob"]}
{"id": "C45", "title": "Flow log_prob is a normalised log-density", "statement": "exp(model.log_prob) integrates to one.", "quantifier": "all data means and covariances", "why_tests_cant": "an integral over the whole space for all parameters", "anchors": ["src/flowMC/resource/model/nf_model/realNVP.py:RealNVP.log_prob", "src/flowMC/resource/model/nf_model/rqSpline.py:MaskedCouplingRQSpline.log_prob"]}
{"id": "C46", "title": "Flow density uses the same base distribution as flow sampling", "statement": "log_prob evaluates the base distribution that sample draws from, for any base_dist supplied by the user.", "quantifier": "all base distributions", "why_tests_cant": "relational over user-supplied objects", "anchors": ["src/flowMC/resource/model/nf_model/realNVP.py:RealNVP.log_prob", "src/flowMC/resource/model/nf_model/realNVP.py:RealNVP.sample", "src/flowMC/resource/model/nf_model/rqSpline.py:MaskedCouplingRQSpline.log_prob"]}
{"id": "C47", "title": "Spline conditioner layout", "statement": "For every number of bins and features the spline recovers the number of bins from the network shape and reads widths, heights and slopes from disjoint, exhaustive parts of each feature's parameter row. Consequently layer i of every such flow, with whatever weights training gives it, is the textbook map: the coordinates f with f + i odd are kept, every other coordinate goes through the rational-quadratic spline (linear outside the range) whose knots and slopes are computed by the tanh network from the kept coordinates.", "quantifier": "all n_features >= 1 and num_bins >= 0, all weights, all inputs", "why_tests_cant": "integer arithmetic for all sizes; every input and all weights", "anchors": ["src/flowMC/resource/model/nf_model/rqSpline.py:RQSpline.__init__", "src/flowMC/resource/model/nf_model/rqSpline.py:RQSpline.get_params", "src/flowMC/resource/model/common.py:MLP"]}
{"id": "C48", "title": "Training returns the best snapshot", "statement": "train returns the model and optimizer state at the end of the first epoch whose recorded loss is the smallest, and the list of all epoch losses; epochs with NaN loss are never selected; if no loss is below 1e9 the original model and state are returned. A call of the TrainModel strategy trains the stored model from the stored optimizer state on examples drawn from the last history_window finite rows of every chain, stores the best model and the optimizer state back, appends the epoch losses, and changes nothing else.", "quantifier": "all loss sequences (including NaN), epochs, data, optimizers", "why_tests_cant": "all loss histories", "anchors": ["src/flowMC/resource/model/nf_model/base.py:NFModel.train", "src/flowMC/resource/model/flowmatching/base.py:FlowMatchingModel.train", "src/flowMC/strategy/train_model.py:TrainModel.__call__"]}
{"id": "C49", "title": "An epoch uses each example at most once in full batches", "statement": "One training epoch processes floor(n/b) batches of exactly b distinct examples, no example twice, skipping fewer than b examples; if b > n it makes a single step on all the data.", "quantifier": "all dataset sizes, batch sizes >= 1, permutations", "why_tests_cant": "all size combinations and permutations", "anchors": ["src/flowMC/resource/model/nf_model/base.py:NFModel.train_epoch"]}
{"id": "C50", "title": "The loss buffer records every epoch of every training call in order", "statement": "After any number of TrainModel calls that fit, the loss buffer holds the concatenation of the per-call loss sequences and its cursor their total length.", "quantifier": "all numbers of calls and epochs", "why_tests_cant": "histories of calls", "anchors": ["src/flowMC/strategy/train_model.py:TrainModel.__call__"]}
{"id": "C51", "title": "Training data are the most recent recorded samples of every chain", "statement": "TrainModel draws its examples only from the last history_window recorded (finite) rows of each chain.", "quantifier": "all buffers, fill levels, windows", "why_tests_cant": "NaN patterns, fill levels and window sizes are unbounded", "anchors": ["src/flowMC/strategy/train_model.py:TrainModel.__call__"]}
{"id": "C52", "title": "Non-trainable parameters stay frozen during training", "statement": "Parameters read through stop_gradient (masks, base distribution, data mean/covariance) are not changed by optimizer steps.", "quantifier": "all models, data, numbers of steps", "why_tests_cant": "for all training histories", "anchors": ["src/flowMC/resource/optimizer.py:Optimizer", "src/flowMC/resource/model/nf_model/base.py:NFModel.train_step", "src/flowMC/resource/model/common.py:MaskedCouplingLayer.mask", "src/flowMC/resource/model/common.py:Gaussian"]}
{"id": "C53", "title": "Adam optimisation respects its bounds", "statement": "After at least one step every coordinate of every optimised position lies within its bound, whatever the objective, noise and learning rate.", "quantifier": "all objectives, noises, step counts >= 1, bounds with lower <= upper, chain counts", "why_tests_cant": "for all objective/gradient values", "anchors": ["src/flowMC/strategy/optimization.py:AdamOptimization.optimize"]}
{"id": "C54", "title": "Adam bounds validation", "statement": "Bounds not of shape (k,2) are rejected at construction; bounds whose k is neither 1 nor n_dim are rejected at call time before anything is computed; the resources are returned untouched.", "quantifier": "all bounds shapes and dimensions", "why_tests_cant": "all shapes", "anchors": ["src/flowMC/strategy/optimization.py:AdamOptimization.__init__", "src/flowMC/strategy/optimization.py:AdamOptimization.optimize"]}
{"id": "C55", "title": "Flow-matching paths interpolate and report their velocity", "statement": "Path.sample with the conditional-OT scheduler equals x0 at t=0, x1 at t=1 and its second output is the time derivative of its first, so the loss is zero exactly for the velocity field x1-x0.", "quantifier": "all end points and times", "why_tests_cant": "for all reals", "anchors": ["src/flowMC/resource/model/flowmatching/base.py:CondOTScheduler", "src/flowMC/resource/model/flowmatching/base.py:Path.sample"]}
{"id": "C56", "title": "Flow-matching log_prob is the density of its samples", "statement": "FlowMatchingModel.log_prob(x) is the log-density at x of the distribution FlowMatchingModel.sample draws from (exact ODE solution).", "quantifier": "all velocity fields, means, covariances, points", "why_tests_cant": "for all fields and points", "anchors": ["src/flowMC/resource/model/flowmatching/base.py:Solver.log_prob", "src/flowMC/resource/model/flowmatching/base.py:FlowMatchingModel.log_prob", "src/flowMC/resource/model/flowmatching/base.py:FlowMatchingModel.sample"]}
{"id": "C57", "title": "The RQSpline-MALA bundle records every sample exactly once in the right buffer", "statement": "A full run from a fresh bundle (thinning dividing the step counts) fills the training buffers with the training loops' local and global rows in order and the production buffers with the production loops' rows in order; training never touches production buffers and conversely; acceptance rows of local/global steps go to their own buffers.", "quantifier": "all chain counts, dimensions, step counts, loop counts, thinning, kernels' outcomes", "why_tests_cant": "cursor bookkeeping over unbounded loops", "anchors": ["src/flowMC/resource_strategy_bundle/RQSpline_MALA.py", "src/flowMC/strategy/take_steps.py", "src/flowMC/strategy/update_state.py", "src/flowMC/strategy/lambda_function.py", "src/flowMC/Sampler.py"]}
{"id": "C58", "title": "The production phase does not adapt", "statement": "During the production phase of a bundle run the flow, the optimizer, the global sampler, the loss buffer and the training buffers do not change; and a training call of a bundle depends on nothing but the flow, its optimizer, the training positions and the loss buffer.", "quantifier": "all numbers of production loops and all states in which production starts", "why_tests_cant": "invariant over unbounded loops", "anchors": ["src/flowMC/resource_strategy_bundle/RQSpline_MALA.py", "src/flowMC/resource_strategy_bundle/RQSpline_MALA_PT.py"]}
{"id": "C59", "title": "Global steps always use the latest trained flow", "statement": "Whenever the global stepper runs in a bundle run, the flow inside the global sampler is the current model resource.", "quantifier": "every loop of every run", "why_tests_cant": "invariant over unbounded loops", "anchors": ["src/flowMC/resource_strategy_bundle/RQSpline_MALA.py:update_model", "src/flowMC/resource_strategy_bundle/RQSpline_MALA_PT.py:update_model"]}
{"id": "C60", "title": "Bundle schedules are well formed", "statement": "Every name in a bundle's strategy_order is a key of its strategies, the order has the stated number of local/global/training steps, training calls occur only before the switch to production, (when each thinning divides its step count) buffer sizes equal the number of rows that will be written, and every training call trains for n_epochs epochs with batches of batch_size on at most n_max_examples of the last history_window recorded positions of every chain.", "quantifier": "all loop counts and step counts", "why_tests_cant": "all loop counts", "anchors": ["src/flowMC/resource_strategy_bundle/RQSpline_MALA.py", "src/flowMC/resource_strategy_bundle/RQSpline_MALA_PT.py"]}
{"id": "C61", "title": "The tempering bundle keeps sample accounting and its cold temperature", "statement": "In RQSpline_MALA_PT_Bundle the recorded sample buffers are filled exactly as in the plain bundle, the ladder starts as n_temperatures equally spaced values from 1 to max_temperature and its first value is 1 throughout the run; each replica makes n_tempered_steps steps per tempering call, or n_local_steps if that is not positive.", "quantifier": "all configurations and histories", "why_tests_cant": "invariant over unbounded loops", "anchors": ["src/flowMC/resource_strategy_bundle/RQSpline_MALA_PT.py", "src/flowMC/strategy/parallel_tempering.py"]}
{"id": "C62", "title": "LogPDF construction and pytree round trip", "statement": "LogPDF/TemperedPDF need variables or n_dims (else ValueError), n_dims equals the number of variables, default variables are x_0..x_{n-1} continuous, calling the object evaluates the function it was given, and unflatten(flatten(p)) behaves as p.", "quantifier": "all constructor arguments", "why_tests_cant": "all argument combinations", "anchors": ["src/flowMC/resource/logPDF.py:LogPDF", "src/flowMC/resource/logPDF.py:TemperedPDF"]}
{"id": "C63", "title": "Production sampling is exact", "statement": "With the flow frozen, a production phase consisting of any number of local and global blocks leaves each chain's distribution equal to the target if it started there.", "quantifier": "all loop counts, step counts, thinning, flows with correct density", "why_tests_cant": "distributional statement over unbounded runs", "anchors": ["src/flowMC/resource_strategy_bundle/RQSpline_MALA.py", "src/flowMC/strategy/take_steps.py", "src/flowMC/resource/kernel/NF_proposal.py", "src/flowMC/resource/kernel/MALA.py"]}
{"id": "C64", "title": "Tempered density interpolates between posterior and prior", "statement": "TemperedPDF at temperature T is logL/T + logprior; at T=1 it equals logL + logprior, and it is monotone in 1/T; calling the object itself gives the untempered likelihood, and a step strategy that is given it as its log-density takes exactly the steps it would take with a LogPDF of the likelihood, whatever the prior.", "quantifier": "all likelihoods, priors, temperatures", "why_tests_cant": "for all functions", "anchors": ["src/flowMC/resource/logPDF.py:TemperedPDF"]}
{"id": "C65", "title": "Production tempering continues the replica chains", "statement": "Outside training, the hot replicas of parallel tempering continue from one call to the next: the replica positions a call ends with are the ones the next call starts with, as during training.", "quantifier": "all histories of tempering calls", "why_tests_cant": "statement about the persisted state after every call", "anchors": ["src/flowMC/strategy/parallel_tempering.py:ParallelTempering.__call__"]}
{"id": "C66", "title": "A bundle run with valid settings never raises", "statement": "Sampler.sample on RQSpline_MALA_Bundle and on RQSpline_MALA_PT_Bundle returns without an exception whenever the numbers of chains, steps (and temperatures) and the batch sizes are positive, each thinning divides its step count, there is one start with finite coordinates per chain, and the log-density is NaN or -inf at every position with a non-finite coordinate (for the tempered bundle: and so is the prior, or max_temperature is at least 1).", "quantifier": "all configurations, random keys, flows, optimisers, data, priors, ladders and loop counts", "why_tests_cant": "progress over unbounded loops; each strategy can raise on a missing or ill-shaped resource, an overflowing loss buffer, an empty or ragged training set", "anchors": ["src/flowMC/resource_strategy_bundle/RQSpline_MALA.py", "src/flowMC/resource_strategy_bundle/RQSpline_MALA_PT.py", "src/flowMC/strategy/take_steps.py", "src/flowMC/strategy/train_model.py", "src/flowMC/strategy/parallel_tempering.py", "src/flowMC/Sampler.py"]}
{"id": "C67", "title": "Targets with hard boundaries", "statement": "For a log-density that evaluates to -inf or NaN outside a region (whatever its gradient is there), one step of random-walk, MALA, HMC (with gradients finite everywhere) or flow proposals is reversible with respect to the target restricted to the region; a chain started inside never leaves it, never contains a non-finite position, and every row of a chain started from the truncated target has the truncated target distribution - for single chains, for sweeps of flow proposals in any batches, and for the production buffer of a whole sample call.", "quantifier": "all regions, log-densities, gradients, step sizes, numbers of steps", "why_tests_cant": "distributional statement over unbounded chains with NaN and -inf values on a set of proposals of arbitrary shape", "anchors": ["src/flowMC/resource/kernel/Gaussian_random_walk.py:GaussianRandomWalk.kernel", "src/flowMC/resource/kernel/MALA.py:MALA.kernel", "src/flowMC/resource/kernel/HMC.py:HMC.kernel", "src/flowMC/resource/kernel/NF_proposal.py:NFProposal.kernel", "src/flowMC/strategy/take_steps.py:TakeSerialSteps.sample", "src/flowMC/strategy/take_steps.py:TakeGroupSteps.sample"]}
{"id": "C68", "title": "Flow-matching training keeps pairs together and returns the best snapshot", "statement": "FlowMatchingModel.train feeds the optimiser, in every epoch, batches of exactly batch_size examples (one batch of everything if there are fewer rows), each example built from x0, x1 and t of one and the same row, no row twice, x1 whitened with the mean and standard deviation assigned from the rows of x1; it returns one loss per epoch and the model and optimiser state of the first epoch with the smallest non-NaN loss below 1e9.", "quantifier": "all data sets, batch sizes, permutations, optimisers, numbers of epochs, NaN losses", "why_tests_cant": "quantifies over every data set, permutation and optimiser history", "anchors": ["src/flowMC/resource/model/flowmatching/base.py:FlowMatchingModel.train", "src/flowMC/resource/model/flowmatching/base.py:FlowMatchingModel.train_epoch"]}
{"id": "C69", "title": "Training standardises the data", "statement": "train() assigns to the model the mean and the unbiased covariance of the training data; with them the whitened training data have average 0 and variance 1 in every non-constant feature and un-whitening is the exact inverse; with an optimiser that does not decay them, the returned model carries these statistics unless no epoch improved. For a flow-matching model the data are the rows of x1.", "quantifier": "all data sets with at least two rows, all optimisers without weight decay", "why_tests_cant": "for all real data sets and optimiser histories", "anchors": ["src/flowMC/resource/model/nf_model/base.py:NFModel.train", "src/flowMC/resource/model/flowmatching/base.py:FlowMatchingModel.train"]}
{"id": "C70", "title": "Chains converge to the target from every start", "statement": "For a log-density that is finite everywhere and whose exponential has a finite integral, the distribution of the position of a chain of random-walk or MALA steps with non-zero step size, of flow proposals (with any flow whose log_prob is, up to a constant, the log-density of its samples), and of the alternation of the two in the production loops of RQSpline_MALA_Bundle converges in total variation to the normalised target, whatever distribution the chain starts from: for every eps there is an N, independent of the number of loops, such that every recorded production row from the N-th on has the target distribution up to eps, wherever training left the chains and however badly the flow was trained.", "quantifier": "all targets, gradients, step sizes, flows, start distributions, step counts, thinnings, loop counts, eps", "why_tests_cant": "limit statement over unbounded chains and arbitrary start distributions", "anchors": ["src/flowMC/resource/kernel/Gaussian_random_walk.py", "src/flowMC/resource/kernel/MALA.py", "src/flowMC/resource/kernel/NF_proposal.py", "src/flowMC/strategy/take_steps.py", "src/flowMC/resource_strategy_bundle/RQSpline_MALA.py"]}
{"id": "C71", "title": "Geometric convergence when the flow covers the target", "statement": "If the density of the frozen flow is everywhere at least 1/C times the density of the normalised target, then every flow proposal brings the distribution of a chain closer to the target by the factor 1 - 1/C in total variation and local steps (random walk, MALA, HMC with diagonal mass matrix) never take it further away; so from every start row j of the production buffer has the target distribution up to (1 - 1/C)^(number of flow proposals in the loops completed before row j).", "quantifier": "all targets, flows, local kernels, start distributions, step counts, thinnings, loop counts, C", "why_tests_cant": "quantitative statement about distributions over unbounded chains and arbitrary starts", "anchors": ["src/flowMC/resource/kernel/NF_proposal.py", "src/flowMC/strategy/take_steps.py", "src/flowMC/resource_strategy_bundle/RQSpline_MALA.py"]}
{"id": "C72", "title": "Production averages converge to target means", "statement": "For a log-density that is finite everywhere with a finite integral and a frozen flow whose log_prob is, up to a constant, the log-density of its samples: for every bounded measurable function f (in particular the indicator of any region) and all delta, eps > 0 there is an L such that with L or more production loops of RQSpline_MALA_Bundle the probability that in some chain the average of f over all rows of positions_production differs by more than delta from the mean of f under the target is at most eps - whatever distribution the chains start production from.", "quantifier": "all targets, flows, bounded functions, start distributions, step counts, thinnings, delta, eps", "why_tests_cant": "law of large numbers for correlated samples over unbounded runs", "anchors": ["src/flowMC/resource/kernel/MALA.py", "src/flowMC/resource/kernel/NF_proposal.py", "src/flowMC/strategy/take_steps.py", "src/flowMC/resource_strategy_bundle/RQSpline_MALA.py"]}
{"id": "C73", "title": "What flow proposals sample when log_prob is wrong", "statement": "If the samples of a flow have log-density lq but its log_prob returns a different function l, then chains of flow proposals converge in total variation, from every start, to the distribution with density proportional to exp(target - l + lq) when that is integrable; hence they converge to the target if and only if l - lq is almost everywhere constant, and alternating with correct local steps does not help: started from the target, a loop of local steps and at least one flow proposal stays at the target exactly when l - lq is almost everywhere constant. In particular RealNVP with a base_dist other than the standard normal samples target(x) * base(z(x)) / N(0,I)(z(x)).", "quantifier": "all targets, flows, reported and true log-densities, starts, step counts, batch sizes", "why_tests_cant": "limit distribution over unbounded chains for arbitrary functions", "anchors": ["src/flowMC/resource/kernel/NF_proposal.py", "src/flowMC/strategy/take_steps.py", "src/flowMC/resource/model/nf_model/realNVP.py:RealNVP.log_prob"]}
{"id": "C74", "title": "Chains converge to a target with hard boundaries from every start inside", "statement": "If the log-density is finite inside a region S of any shape (connected or not) and -inf or NaN outside, and its exponential has a positive finite integral over S, then chains of random-walk or MALA steps with a finite non-zero step size, of flow proposals (with any flow whose log_prob is, up to a constant, the log-density of its samples), and the alternation of the two in the production loops of RQSpline_MALA_Bundle, started anywhere inside S, stay inside S at finite points and converge in total variation to the normalised truncated density: for every eps there is an N, independent of the number of loops, such that every production row from the N-th on has the truncated target distribution up to eps.", "quantifier": "all regions, targets, gradients (NaN outside allowed), step sizes, flows, start distributions inside, step counts, thinnings, loop counts, eps", "why_tests_cant": "limit statement over unbounded chains, arbitrary regions and start distributions", "anchors": ["src/flowMC/resource/kernel/Gaussian_random_walk.py", "src/flowMC/resource/kernel/MALA.py", "src/flowMC/resource/kernel/NF_proposal.py", "src/flowMC/strategy/take_steps.py", "src/flowMC/resource_strategy_bundle/RQSpline_MALA.py"]}
{"id": "C75", "title": "Composed distributions sum log-densities over blocks and sample them independently", "statement": "Composable(distributions, partitions): if the ranges tile the coordinates, log_prob(x) is the sum of the blocks' log_prob, exp(log_prob) is a probability density whenever the blocks' are, and the rows put together from the entries of sample(key, n) are n independent draws from it; surplus distributions or ranges are silently ignored; a coordinate in no range does not influence log_prob, whose exponential then has infinite mass.", "quantifier": "all numbers and lengths of blocks, all block distributions, inputs, keys, sample counts, all ranges (negative and out-of-range bounds included)", "why_tests_cant": "quantifies over every composition and is a statement about distributions", "anchors": ["src/flowMC/resource/model/common.py:Composable.log_prob", "src/flowMC/resource/model/common.py:Composable.sample"]}
{"id": "C76", "title": "The training loss is the negative log-likelihood of what the flow samples", "statement": "For a RealNVP with the default base distribution (also trained) and for the spline flow while its affine layers are trivial, the loss of a non-empty batch is minus the average log-likelihood of the batch under the density of the model's own samples, up to a constant that depends on the stored variances only (so the missing whitening Jacobian of log_prob does not distort training). Hence on data distributed like p the expected losses of two models with the same statistics differ by the difference of their Kullback-Leibler divergences from p, and on data that some model can represent the minimum is attained exactly by the models that sample that distribution.", "quantifier": "all batches, data distributions, layer counts, weights, statistics", "why_tests_cant": "statement about distributions and all parameter values", "anchors": ["src/flowMC/resource/model/nf_model/base.py:NFModel.loss_fn", "src/flowMC/resource/model/nf_model/realNVP.py:RealNVP.log_prob", "src/flowMC/resource/model/nf_model/rqSpline.py:MaskedCouplingRQSpline.log_prob"]}
{"id": "C77", "title": "The optimiser's steps are bounded, and its direction is that of the noisy gradient", "statement": "AdamOptimization started inside its bounds moves every coordinate of every chain by at most 7.3 * learning_rate * n_steps, however steep the log-density; a chain started at a stationary point stays there whatever the noise; the first step moves every coordinate by less than the learning rate, uphill when 1 + noise_level*z > 0 and downhill when it is negative, so that with a positive noise_level it goes downhill with probability Phi(-1/noise_level) (0.46 with the default noise_level 10) and uphill with the larger probability Phi(1/noise_level).", "quantifier": "all log-densities, gradients, learning rates, noise levels, draws, step counts, bounds", "why_tests_cant": "holds for every gradient history; statement about a distribution", "anchors": ["src/flowMC/strategy/optimization.py:AdamOptimization.optimize", "src/flowMC/strategy/optimization.py:AdamOptimization.__init__"]}
{"id": "C78", "title": "Tempering in production keeps the cold distribution over successive calls", "statement": "Outside training, if the replicas of a chain have the joint tempered distribution when production starts, the walker handed on by every tempering call (not only the first) has the target distribution likelihood times prior.", "quantifier": "all ladders, numbers of local moves, likelihoods, priors and numbers of calls, in an ideal random world", "why_tests_cant": "a statement about the distribution after a history of calls; each call on its own is exact (C32)", "anchors": ["src/flowMC/strategy/parallel_tempering.py:ParallelTempering.__call__"]}
{"id": "C79", "title": "Training moves the flow's parameters by a bounded amount, whatever the data", "statement": "One training call with the library's optimizer returns the flow untouched or a flow whose every parameter w is within n_epochs * steps_per_epoch * learning_rate * (7.3 + 1e-4 |w|) of its value after the data statistics were set (steps_per_epoch = max(1, n_examples // batch_size)), and inside [-73000, 73000] unless it started outside; for momenta other than 0.9 the same holds with 1e8 for 7.3. Gradients of norm above 1 count only through their direction: multiplying them by positive factors changes nothing. The optimizer's memory of earlier training calls does not weaken the bounds.", "quantifier": "all losses, gradients (of any size), data, batches, shuffles, epochs, learning rates in [0, 10000], optimizer histories; exact arithmetic", "why_tests_cant": "holds for every history of gradients", "anchors": ["src/flowMC/resource/optimizer.py:Optimizer.__init__", "src/flowMC/resource/model/nf_model/base.py:NFModel.train_step", "src/flowMC/resource/model/nf_model/base.py:NFModel.train"]}
{"id": "C80", "title": "get_distribution is the histogram of the whole buffer, and raises while a cell is unwritten", "statement": "buffer.get_distribution(n_bins) returns n_bins counts and n_bins+1 strictly increasing, equally spaced edges from the least to the greatest value (half a unit around a single value); every cell lies in exactly one bin (the right-most edge belongs to the last bin), the j-th count is the number of cells in bin j and the counts add up to the number of cells. It raises ValueError exactly when n_bins < 1 or some cell is not a finite number; hence on every new buffer, and, after a complete run of either ready-made sampler, on all four acceptance buffers (each is as long as the position buffer and the rows of the other stepper are never written), while a position buffer gives n_chains*n_steps*n_dims counts as soon as its positions are finite.", "quantifier": "all buffer shapes and contents (infinities and NaN included), bin counts, and all complete runs of the two bundles", "why_tests_cant": "ranges over all contents and over the state after arbitrary runs", "anchors": ["src/flowMC/resource/buffers.py:Buffer.get_distribution", "src/flowMC/resource_strategy_bundle/RQSpline_MALA.py", "src/flowMC/resource_strategy_bundle/RQSpline_MALA_PT.py"]}
{"id": "C81", "title": "Saving and loading a flow gives back the flow, or raises", "statement": "model.load_model(path) (also under the name load_resource) after other.save_model(path) returns exactly the saved model when both have the same architecture, whatever the receiver's parameters and whatever was saved under other paths before or later; in general it returns exactly when the file's records begin with one record of the right dtype and shape (type, for Python numbers) for every array and number of the receiver, and then every array and number of the result comes from the file in order; otherwise it raises. Records beyond those needed are ignored without an error; functions and static fields are the receiver's.", "quantifier": "all models (pytrees), parameter values, architectures of saver and receiver, paths and sequences of saves, arbitrary file contents", "why_tests_cant": "ranges over all pairs of architectures and histories of saves", "anchors": ["src/flowMC/resource/model/nf_model/base.py:NFModel.save_model", "src/flowMC/resource/model/nf_model/base.py:NFModel.load_model", "src/flowMC/resource/model/flowmatching/base.py:FlowMatchingModel.save_model", "src/flowMC/resource/model/flowmatching/base.py:FlowMatchingModel.load_model"]}
{"id": "C82", "title": "to_precision converts every array and nothing else, and checkpoints of another precision are refused", "statement": "flow.to_precision(name) raises ValueError exactly when name is, up to letter case, none of float16, bfloat16, float32, float64; otherwise the result has the same leaves, every array (integer ones included) has that dtype, its old shape and its converted values, and whatever is not an array is unchanged. Repeating it changes nothing; converting to a wider type and back returns the flow; a file saved before the conversion loads into the converted flow exactly when the conversion changed no dtype.", "quantifier": "all models, names, conversions", "why_tests_cant": "ranges over all models and names", "anchors": ["src/flowMC/resource/model/nf_model/base.py:NFModel.to_precision", "src/flowMC/resource/model/nf_model/base.py:NFModel.load_model"]}
{"id": "C83", "title": "The adaptive run converges: training leaves no bias", "statement": "In a call of sample with the MALA bundle the flow used in production is the outcome of training and therefore random and correlated with everything drawn before, and so are the positions the chains start production from. Nevertheless, for every eps there is an N, not depending on the number of production loops, such that in production every row from the N-th on, of every chain, has the target distribution up to eps and is, up to eps, independent of everything that happened before production (training samples, shuffles, the flow itself, the initial positions).", "quantifier": "all targets with finite integral, step sizes, thinnings, families of flows whose log_prob is the log-density of their samples up to a constant, distributions of the trained flow and of the starting positions, numbers of production loops; in an ideal random world", "why_tests_cant": "a statement about distributions after an unbounded number of steps, conditional on a random flow", "anchors": ["src/flowMC/resource_strategy_bundle/RQSpline_MALA.py", "src/flowMC/Sampler.py", "src/flowMC/resource/kernel/NF_proposal.py"]}
{"id": "C84", "title": "A strategy depends only on the resources it is configured with", "statement": "Calling TakeSerialSteps/TakeGroupSteps, TrainModel, UpdateState or ParallelTempering on two resource dictionaries that agree on the resources named in its configuration (for the steppers: kernel, log-density, state and the buffers the state entries point at) returns the same key and positions or raises the same exception, and leaves dictionaries that still agree wherever they agreed before; so does any sequence of strategies. Nothing else in the dictionary can influence it.", "quantifier": "all resource dictionaries, configurations, keys, positions, data, sequences of strategies", "why_tests_cant": "ranges over all pairs of dictionaries", "anchors": ["src/flowMC/strategy/take_steps.py", "src/flowMC/strategy/train_model.py", "src/flowMC/strategy/update_state.py", "src/flowMC/strategy/parallel_tempering.py", "src/flowMC/Sampler.py"]}
{"id": "C85", "title": "A longer production run extends a shorter one", "statement": "Running a bundle (with or without tempering) with the same seed, settings and initial positions but more production loops gives identical training (same samples, losses, flow, optimizer, temperatures, key and positions, or the same exception), and the production buffers of the shorter run are exactly the first rows of those of the longer run.", "quantifier": "all configurations, seeds, initial positions, log-densities, flows and pairs of loop counts", "why_tests_cant": "relates pairs of runs of unbounded length", "anchors": ["src/flowMC/resource_strategy_bundle/RQSpline_MALA.py", "src/flowMC/resource_strategy_bundle/RQSpline_MALA_PT.py", "src/flowMC/Sampler.py"]}
{"id": "C86", "title": "Initial flow parameters are drawn independently and reproducibly", "statement": "Constructing a spline flow or a RealNVP draws every array of network weights and biases, in every layer of the flow and of its networks, with a key of its own derived from the constructor's key (no key is derived from another one), with the documented scale; the affine parts start as the identity; two sources of randomness that agree on the keys derived from the constructor's key build the same flow.", "quantifier": "all dimensions, numbers of layers, hidden shapes, keys and sources of randomness", "why_tests_cant": "ranges over all architectures and random sources", "anchors": ["src/flowMC/resource/model/nf_model/rqSpline.py", "src/flowMC/resource/model/nf_model/realNVP.py:RealNVP.__init__", "src/flowMC/resource/model/common.py:MLP.__init__"]}
{"id": "C87", "title": "A longer training extends a shorter one", "statement": "Running a bundle (with or without tempering) with the same seed, settings and initial positions but more training loops (and any number of production loops) repeats the shorter training first: after the common loops the key, positions, flow, optimizer, proposal, state and temperatures are identical, and at the end of both runs the training samples, log-probabilities, acceptances and losses of the shorter run are exactly the first rows of those of the longer one. In particular the larger buffers of the longer run, whose unwritten part lies next to the written one, never leak into the training data.", "quantifier": "all configurations, seeds, initial positions, log-densities, flows, numbers of training loops and of production loops", "why_tests_cant": "relates pairs of runs of unbounded length", "anchors": ["src/flowMC/resource_strategy_bundle/RQSpline_MALA.py", "src/flowMC/resource_strategy_bundle/RQSpline_MALA_PT.py", "src/flowMC/Sampler.py", "src/flowMC/strategy/train_model.py"]}
{"id": "C88", "title": "Averages over an adaptive run converge", "statement": "In a call of sample with the MALA bundle, where the flow used in production is the random outcome of training: for every bounded function f of the position and all delta, eps > 0 there is an L such that with L or more production loops the call returns and, with probability at least 1 - eps, the average of f over the production rows of positions_production of every chain is within delta of the mean of f under the target. Nothing is assumed about what training achieves.", "quantifier": "all targets with finite integral, step sizes, thinnings, numbers of chains, families of flows whose log_prob is the log-density of their samples up to a constant, training procedures that keep the flow in the family, random initial positions, bounded functions; in an ideal random world", "why_tests_cant": "a statement about the distribution of averages over runs of unbounded length, with a random flow", "anchors": ["src/flowMC/resource_strategy_bundle/RQSpline_MALA.py", "src/flowMC/Sampler.py", "src/flowMC/resource/kernel/NF_proposal.py", "src/flowMC/strategy/train_model.py"]}
{"id": "C89", "title": "Samples of different chains are jointly independent", "statement": "In a call of sample with the MALA bundle all chains propose from one flow, which was trained on the samples of all of them. Nevertheless, for every eps there is an N, not depending on the number of production loops, such that for any choice of one production row (from the N-th on) of each chain, the chosen rows are jointly, in total variation up to eps, independent draws from the target, and independent of everything that happened before production. So n_chains chains give n_chains independent samples.", "quantifier": "all targets with finite integral, step sizes, thinnings, numbers of chains, choices of rows, families of flows whose log_prob is the log-density of their samples up to a constant, training procedures that keep the flow in the family, random initial positions; in an ideal random world", "why_tests_cant": "a statement about the joint distribution of rows of several chains in runs of unbounded length, with a random flow", "anchors": ["src/flowMC/resource_strategy_bundle/RQSpline_MALA.py", "src/flowMC/Sampler.py", "src/flowMC/resource/kernel/NF_proposal.py", "src/flowMC/strategy/train_model.py", "src/flowMC/strategy/take_steps.py:TakeSteps.__call__"]}
{"id": "C90", "title": "Adaptive runs on targets with hard boundaries", "statement": "A call of sample with the MALA bundle on a target that is -inf or NaN outside a region (a prior with hard boundaries), started at finite points inside, with a flow that is trained on the run's own samples and knows nothing of the boundaries: the call returns; every production row is a finite point inside the region; and for every eps there is an N, not depending on the number of production loops, such that for any choice of one production row (from the N-th on) of each chain, the chosen rows are jointly, in total variation up to eps, independent draws from the target restricted to the region and normalised, independent of everything that happened before production. Nothing is assumed about what training achieves.", "quantifier": "all regions (measurable, of any shape) and targets of positive and finite mass, step sizes, thinnings, numbers of chains, choices of rows, families of flows whose log_prob is the log-density of their samples up to a constant, training procedures that keep the flow in the family, random initial positions inside; arithmetic with infinities and NaN, in an ideal random world", "why_tests_cant": "a statement about distributions of rows in runs of unbounded length, with a random flow and exceptional floating-point values", "anchors": ["src/flowMC/resource_strategy_bundle/RQSpline_MALA.py", "src/flowMC/Sampler.py", "src/flowMC/resource/kernel/MALA.py", "src/flowMC/resource/kernel/NF_proposal.py", "src/flowMC/strategy/train_model.py"]}
{"id": "C91", "title": "What a trained spline flow proposes", "statement": "For every value of its parameters, inverse of MaskedCouplingRQSpline is the exact inverse of the layers applied with their spline and affine halves exchanged (not of forward), so sample returns independent points with the log-density obtained that way; log_prob is the log-density of the samples (up to a constant) if and only if the exchange changes it by a constant almost everywhere. Flow proposals from a trained flow therefore converge to target * sample density / exp(log_prob), and the production phase of the MALA bundle, started from the target distribution, records rows with exactly the target distribution if and only if the exchange does not matter; for a concrete trained flow it does, even when the target is exp(log_prob) itself.", "quantifier": "all parameter values, layer counts, dimensions, bin counts, consistent base distributions, positive variances, targets with finite integrals, bundle configurations and runs; ideal random world, the guard of the quadratic formula inactive", "why_tests_cant": "a statement about the distribution of samples for all real parameter values and of rows in complete runs", "anchors": ["src/flowMC/resource/model/nf_model/rqSpline.py", "src/flowMC/resource/kernel/NF_proposal.py", "src/flowMC/resource_strategy_bundle/RQSpline_MALA.py"]}
{"id": "C92", "title": "Collapsed training data never damages the flow or the chains", "statement": "If some coordinate of the training rows has one value only (all chains stuck, a single row, a constant parameter; rows that are not finite are discarded first), train returns the flow and the optimizer state it was given, unchanged, whatever the number of epochs and the batch size; each recorded loss is NaN or +inf; and a call of TrainModel leaves every resource except the loss buffer as it was. A flow whose data variance is 0 or NaN in some coordinate gives log_prob NaN or -inf at every point, NaN at each of its own proposals, and a sweep of NF proposals with it returns every row at the current position with its own log-probability, nothing accepted.", "quantifier": "all flows of masked coupling layers (any conditioners, also ones producing NaN or infinities), base log-densities that propagate non-finite values, parameters, optimizer settings and histories, data, epochs, batch sizes, keys, targets, numbers of proposals; arithmetic with infinities and NaN (no rounding)", "why_tests_cant": "all parameter values and data with a degenerate coordinate, where tests on samples of data never go", "anchors": ["src/flowMC/resource/model/nf_model/base.py:NFModel.train", "src/flowMC/resource/model/nf_model/base.py:NFModel.train_step", "src/flowMC/resource/model/nf_model/rqSpline.py", "src/flowMC/resource/model/nf_model/realNVP.py:RealNVP.log_prob", "src/flowMC/strategy/train_model.py", "src/flowMC/resource/kernel/NF_proposal.py"]}
{"id": "C93", "title": "A small error of log_prob costs a small bias", "statement": "If the flow reports a log_prob that is not the log-density of its samples, its proposals sample a distorted distribution (target - log_prob + log-density of the samples). If all probabilities under the distorted distribution are within tau of those under the target and its density is at most C times that of the flow's samples, then from every start, after any mixture of exact local steps and n flow proposals, all probabilities are within (1 - 1/C)^n + (2C - 1) tau of those under the target; the same bound holds for every production row of a bundle run, with n the number of flow proposals in the completed loops. In particular, if log_prob is off by at most delta everywhere (up to a constant) and the target density is at most C times the sample density, the bias that remains is at most 2 C (exp(2 delta) - 1).", "quantifier": "all targets with finite integral, flows (samples and log_prob unrelated), exact local kernels, starts, sequences of steps, bundle configurations and runs; ideal random world", "why_tests_cant": "a quantitative statement about distributions of rows in runs of unbounded length, for all errors of the flow", "anchors": ["src/flowMC/resource/kernel/NF_proposal.py", "src/flowMC/resource/kernel/MALA.py", "src/flowMC/resource_strategy_bundle/RQSpline_MALA.py", "src/flowMC/resource/model/nf_model/base.py"]}
{"id": "C94", "title": "Samplers composed by the user keep and reach the target", "statement": "A sampler built from any dictionary of strategies called in any order and any number of times, where each strategy called is a stepper with a random walk, MALA, HMC (diagonal mass matrix) or flow-proposal kernel for the same target distribution (any step counts, thinnings, chain batches and buffers), or moves no chain (UpdateState, TrainModel, callables of the user that replace no kernel and no log-density): if the position of a chain has the target distribution at the start, it has it between any two calls and at the end, and so has every row any of the steppers records. From an arbitrary start, the position at the end has the target distribution up to (1 - 1/C)^n in total variation, n being the number of flow proposals made with flows covering the target up to the factor C, whatever else is called in between.", "quantifier": "all dictionaries, orders, call counts, kernels with exact settings, flows whose log_prob is the log-density of their samples up to a constant, targets, starts independent of the draws; ideal random world", "why_tests_cant": "all orders and histories of calls, and distributions", "anchors": ["src/flowMC/Sampler.py", "src/flowMC/strategy/take_steps.py:TakeSteps.__call__", "src/flowMC/resource/kernel/MALA.py", "src/flowMC/resource/kernel/HMC.py", "src/flowMC/resource/kernel/Gaussian_random_walk.py", "src/flowMC/resource/kernel/NF_proposal.py", "src/flowMC/strategy/update_state.py:UpdateState", "src/flowMC/strategy/train_model.py", "src/flowMC/strategy/lambda_function.py:Lambda"]}
{"id": "C95", "title": "Error bars of production averages", "statement": "A call of sample with the MALA bundle, where every flow training can reach covers the target up to a factor C (target density at most C times the density of the flow): for a function f whose values differ by at most B and n production loops, from every start, the average of f over the production rows of each chain of positions_production has a bias of at most 2 B / (n (1 - rho)) and a mean square error of at most B^2 (1 + 4 / (1 - rho)) / n as an estimate of the mean of f under the target, where rho = (1 - 1/C)^k and k is the number of flow proposals of a loop up to the last recorded one; averaging over all chains divides the mean square error by the number of chains, up to the square of the bias, although all chains share one flow trained on all of them. So the probability of missing the truth by more than delta is at most those errors over delta^2.", "quantifier": "all targets with finite integral, step sizes, thinnings, numbers of chains and loops, families of flows covering the target and whose log_prob is the log-density of their samples up to a constant, training procedures that keep the flow in the family, random initial positions, bounded functions; in an ideal random world", "why_tests_cant": "an explicit bound on moments of averages over runs of unbounded length, with a random flow", "anchors": ["src/flowMC/resource_strategy_bundle/RQSpline_MALA.py", "src/flowMC/Sampler.py", "src/flowMC/resource/kernel/NF_proposal.py", "src/flowMC/strategy/train_model.py"]}
{"id": "C96", "title": "Posterior means over an adaptive run converge", "statement": "A call of sample with the MALA bundle, where the flow is trained on the chains' own history: for every function f of the parameters that is integrable under the target distribution, bounded or not (a parameter, its square, a product of two), from every start and for every tolerance and confidence, there is a number of production loops from which on the call returns and, with that confidence, the average of f over the production rows of every chain of positions_production is within the tolerance of the mean of f under the target. No moment beyond the mean of |f| is needed, and nothing is assumed about what training achieves.", "quantifier": "all targets with finite integral, step sizes, thinnings, numbers of chains, families of flows whose log_prob is the log-density of their samples up to a constant, training procedures that keep the flow in the family, random initial positions, integrable functions, tolerances and confidences; in an ideal random world", "why_tests_cant": "a limit theorem for unbounded functions over runs of unbounded length with a random flow", "anchors": ["src/flowMC/resource_strategy_bundle/RQSpline_MALA.py", "src/flowMC/Sampler.py", "src/flowMC/resource/kernel/NF_proposal.py", "src/flowMC/resource/kernel/MALA.py", "src/flowMC/strategy/train_model.py"]}
{"id": "C97", "title": "Any order of calls that keeps using a mixing stepper reaches the target", "statement": "A sampler built from any dictionary of strategies, each a stepper with a random walk, MALA, HMC (diagonal mass matrix) or flow-proposal kernel for the same target, or a strategy that moves no chain (UpdateState, TrainModel, callables of the user that replace no kernel and no log-density). If the initial position of a chain has a density, then for every tolerance there is a number N such that in whatever order the strategies are called (no period, no balance between them is needed), once steppers with a random walk, MALA, HMC with short trajectories (see the property on HMC alone) or flow proposals have been called N times altogether, the position of the chain has all probabilities within the tolerance of those under the target, and so has every row any stepper records afterwards. N depends on the dictionary, the target and the start, not on the order. If there is no HMC stepper with longer trajectories in the dictionary the initial positions may be arbitrary, also fixed points.", "quantifier": "all dictionaries, orders and lengths of runs, step counts, thinnings, kernels with exact settings, flows whose log_prob is the log-density of their samples up to a constant, targets with finite integral, starts independent of the draws; ideal random world", "why_tests_cant": "all orders of calls, runs of unbounded length, and distributions", "anchors": ["src/flowMC/Sampler.py", "src/flowMC/strategy/take_steps.py:TakeSteps.__call__", "src/flowMC/resource/kernel/MALA.py", "src/flowMC/resource/kernel/HMC.py", "src/flowMC/resource/kernel/Gaussian_random_walk.py", "src/flowMC/resource/kernel/NF_proposal.py"]}
{"id": "C98", "title": "Chains of HMC steps converge to the target", "statement": "For a log-density that is finite everywhere, whose exponential has a finite integral, a diagonal mass matrix with positive entries and a non-zero step size, the distribution of the position of a chain of HMC steps converges in total variation to the normalised target from every start.", "quantifier": "all targets, mass matrices, step sizes, n_leapfrog, starts; ideal random world", "why_tests_cant": "a statement about the limit of distributions for all settings", "anchors": ["src/flowMC/resource/kernel/HMC.py", "src/flowMC/strategy/take_steps.py:TakeSerialSteps.sample"]}
{"id": "C99", "title": "Averages over one long call converge", "statement": "A stepper with a random walk, MALA, HMC with short trajectories (diagonal mass matrix) or flow-proposal kernel is used for one long call of TakeSteps, from any start and after any earlier calls of such steppers or of strategies that move no chain. For every function f that is integrable under the target (a parameter, its square, the indicator of a set) and every tolerance and confidence there is a number L such that whenever the call records at least L rows, then with that confidence the average of f over the rows of a chain that the call writes into the positions buffer is within the tolerance of the mean of f under the target. No rows need to be discarded as burn-in, thinning does not matter, and L does not depend on the chain's index, the buffers, where the cursor stands, or the other chains.", "quantifier": "all targets with finite integral, kernels with exact settings, histories of calls, thinnings, chain batches, buffers, starts independent of the draws, integrable functions, tolerances and confidences, and all numbers of steps beyond L; ideal random world", "why_tests_cant": "a limit theorem over calls of unbounded length, for all functions and histories", "anchors": ["src/flowMC/strategy/take_steps.py:TakeSteps.__call__", "src/flowMC/resource/kernel/MALA.py", "src/flowMC/resource/kernel/HMC.py", "src/flowMC/resource/kernel/Gaussian_random_walk.py", "src/flowMC/resource/kernel/NF_proposal.py"]}
{"id": "C100", "title": "Posterior means over an adaptive run with hard boundaries converge", "statement": "A call of sample with the MALA bundle on a log-density that is minus infinity outside a set (a prior with bounds) and finite inside it, whose exponential has a finite positive integral over the set, with all chains started inside; the flow is trained on the chains' own history and its density is positive everywhere. Then in every run every production row of every chain is a finite point of the set, and for every function f that is integrable under the truncated target, bounded or not, and every tolerance and confidence, there is a number of production loops from which on the call returns and, with that confidence, the average of f over the production rows of every chain of positions_production is within the tolerance of the mean of f under the truncated target.", "quantifier": "all sets and log-densities with finite positive integral, step sizes, thinnings, numbers of chains, families of flows whose log_prob is the log-density of their samples up to a constant, training procedures that keep the flow in the family, initial positions inside, integrable functions, tolerances and confidences; in an ideal random world", "why_tests_cant": "a limit theorem for unbounded functions over runs of unbounded length with a random flow and with infinities and NaN in the arithmetic", "anchors": ["src/flowMC/resource_strategy_bundle/RQSpline_MALA.py", "src/flowMC/Sampler.py", "src/flowMC/resource/kernel/NF_proposal.py", "src/flowMC/resource/kernel/MALA.py", "src/flowMC/strategy/train_model.py"]}
{"id": "C101", "title": "Error bars of production averages with hard boundaries", "statement": "A call of sample with the MALA bundle on a log-density that is minus infinity or NaN outside a set (a prior with bounds) and finite inside it, with all chains started inside, where every flow training can reach covers the truncated target up to a factor C (at every point inside, the density of the truncated target is at most C times the density of the flow). Then every production row is a finite point of the set, and for a function f whose values inside the set differ by at most B - a parameter itself, when the set is bounded - and n production loops, the average of f over the production rows of each chain has a bias of at most 2 B / (n (1 - rho)) and a mean square error of at most B^2 (1 + 4 / (1 - rho)) / n as an estimate of the mean of f under the truncated target, where rho = (1 - 1/C)^k and k is the number of flow proposals of a loop up to the last recorded one; averaging over all chains divides the mean square error by the number of chains, up to the square of the bias. So the probability of missing the truth by more than delta is at most those errors over delta^2.", "quantifier": "all sets and log-densities with finite positive integral, step sizes, thinnings, numbers of chains and loops, families of flows covering the truncated target and whose log_prob is the log-density of their samples up to a constant, training procedures that keep the flow in the family, random initial positions inside, functions bounded inside; in an ideal random world", "why_tests_cant": "an explicit bound on moments of averages over runs of unbounded length, with a random flow and with infinities and NaN in the arithmetic", "anchors": ["src/flowMC/resource_strategy_bundle/RQSpline_MALA.py", "src/flowMC/Sampler.py", "src/flowMC/resource/kernel/NF_proposal.py", "src/flowMC/strategy/train_model.py"]}
{"id": "C102", "title": "An inexact log-density costs a small bias", "statement": "If the log-density given to the MALA bundle differs everywhere (inside the region, if there are hard boundaries) by at most delta, up to a constant, from the log-density one means - because its value is rounded, interpolated, or computed by an emulator - then a call of sample still samples what one means up to that: late production rows have the intended distribution up to 1 - exp(-2 delta) in every probability, given everything before production, and for every function f with a mean under the intended distribution the averages of f over the production rows of every chain of positions_production come, for long enough runs and with any confidence, within any tolerance plus (exp(2 delta) - 1) times the mean absolute deviation of f of that mean. The gradient may be anything.", "quantifier": "all pairs of log-densities within delta, all deltas, regions, step sizes, thinnings, numbers of chains, families of flows whose log_prob is the log-density of their samples up to a constant, training procedures that keep the flow in the family, initial positions, integrable functions, tolerances and confidences; in an ideal random world", "why_tests_cant": "a bound on the limit of runs of unbounded length, for all errors and functions", "anchors": ["src/flowMC/resource_strategy_bundle/RQSpline_MALA.py", "src/flowMC/Sampler.py", "src/flowMC/resource/kernel/MALA.py", "src/flowMC/resource/kernel/NF_proposal.py", "src/flowMC/strategy/train_model.py"]}
{"id": "C103", "title": "Credible intervals and quantiles over an adaptive run converge", "statement": "A call of sample with the MALA bundle, with the flow trained on the chains' own history, with or without hard boundaries. For every quantity g computed from the parameters (a parameter, for instance) and every tolerance and confidence, there is a number of production loops from which on, with that confidence, in every chain of positions_production all intervals (bounded or not) at once contain, up to the tolerance, the fraction of production rows that is their probability under the target. Hence an interval that contains a fraction p of the rows, however it was chosen by looking at the rows (a credible interval), has probability p under the target up to the tolerance, and sample quantiles are quantiles of the target up to the tolerance.", "quantifier": "all targets with finite integral (and sets, with hard boundaries), measurable quantities, intervals simultaneously, step sizes, thinnings, numbers of chains, families of flows whose log_prob is the log-density of their samples up to a constant, training procedures that keep the flow in the family, initial positions, tolerances and confidences; in an ideal random world", "why_tests_cant": "a limit theorem, uniform over all intervals, over runs of unbounded length with a random flow", "anchors": ["src/flowMC/resource_strategy_bundle/RQSpline_MALA.py", "src/flowMC/Sampler.py", "src/flowMC/resource/kernel/NF_proposal.py", "src/flowMC/resource/kernel/MALA.py", "src/flowMC/strategy/train_model.py"]}
{"id": "C104", "title": "Recorded acceptance flags estimate the stationary acceptance rate", "statement": "A stepper with a random walk, MALA, HMC with short trajectories (diagonal mass matrix) or flow-proposal kernel is used for one long call of TakeSteps, from any start and after any earlier calls of such steppers or of strategies that move no chain. For every tolerance and confidence there is L such that if the call records at least L rows, then with that confidence the average of the entries of the acceptance buffer recorded for a chain is within the tolerance of the kernel's stationary acceptance rate: the mean, over a point drawn from the target and the kernel's own draws, of the Metropolis acceptance probability (min(1, p(y)/p(x)) for the random walk, with the drift correction for MALA, the energy difference for HMC, min(1, p(y)q(x)/(p(x)q(y))) for flow proposals). So acceptance rates read off the buffers can be used to tune step sizes and to judge the flow.", "quantifier": "all targets with finite integral, kernels with exact settings, histories of calls, thinnings, chain batches, buffers, starts independent of the draws, tolerances and confidences, and all numbers of steps beyond L; ideal random world", "why_tests_cant": "a limit theorem over calls of unbounded length, for all histories", "anchors": ["src/flowMC/strategy/take_steps.py:TakeSteps.__call__", "src/flowMC/resource/kernel/MALA.py", "src/flowMC/resource/kernel/HMC.py", "src/flowMC/resource/kernel/Gaussian_random_walk.py", "src/flowMC/resource/kernel/NF_proposal.py"]}
{"id": "C105", "title": "The log-density is needed only up to a constant", "statement": "Adding a constant to the log-density given by the user (leaving out, or putting in, its normalisation) changes nothing but the recorded log-densities, which are larger by that constant: one step of a local kernel, a serial scan, a group of flow proposals make the same proposals and take the same decisions; a call of TakeSteps, TrainModel, UpdateState or ParallelTempering (where the prior may have its own constant) returns the same key and positions or raises the same exception, leaves the same buffers, models, kernels, optimisers and states, and in the buffers of log-densities the same entries plus the constant. So for any sequence of such calls, and for a whole call of sample with the MALA bundle or the tempering bundle, with the same key: same positions, same acceptance flags, same trained flow, same temperatures. The positions AdamOptimization returns are the same too.", "quantifier": "all log-densities and constants, kernels, strategies, buffers, orders of calls, keys, random number generators, initial positions and data; exact arithmetic", "why_tests_cant": "a relation between two runs of unbounded length, for all targets and histories", "anchors": ["src/flowMC/Sampler.py", "src/flowMC/strategy/take_steps.py", "src/flowMC/strategy/train_model.py", "src/flowMC/strategy/parallel_tempering.py", "src/flowMC/resource/kernel/MALA.py", "src/flowMC/resource/kernel/HMC.py", "src/flowMC/resource/kernel/Gaussian_random_walk.py", "src/flowMC/resource/kernel/NF_proposal.py", "src/flowMC/resource_strategy_bundle/RQSpline_MALA.py", "src/flowMC/resource_strategy_bundle/RQSpline_MALA_PT.py"]}
{"id": "C106", "title": "The initial Hamiltonian HMC reports is the energy of a drawn momentum", "statement": "HMC.get_initial_hamiltonian, called with the potential and kinetic energies of the kernel, returns minus the log-density at the position plus the kinetic energy of a momentum drawn with the given key from the normal distribution with the precisions on the diagonal of the condition matrix, as its documentation says and as the kernel does in its own accept/reject step.", "quantifier": "all condition matrices, log-densities, positions, data, keys and random number generators", "why_tests_cant": "all matrices and draws, including the arithmetic with infinities and NaN", "anchors": ["src/flowMC/resource/kernel/HMC.py:HMC.get_initial_hamiltonian", "src/flowMC/resource/kernel/HMC.py"]}
{"id": "C107", "title": "The acceptance rate of flow proposals measures how far the flow is from the target", "statement": "Let R be the stationary acceptance rate of the flow's proposals, the number to which the recorded acceptance flags of a long call of flow proposals average (with any tolerance and confidence, from any start, after any earlier calls that keep the target). Then no probability under the flow's distribution differs from the one under the target by more than 1 - R; conversely if none differs by more than e, then R is at least (1 - e)^2; R is 1 exactly when the flow's distribution is the target; and if the log-densities differ by at most delta up to a constant, R is at least exp(-2 delta). So the recorded global acceptance rate certifies the quality of the trained flow.", "quantifier": "all targets with finite integral, flows whose log_prob is the log-density of their samples up to a constant, histories of calls, thinnings, buffers, starts independent of the draws; ideal random world", "why_tests_cant": "inequalities between distributions, for all targets and flows, and a limit theorem for the recorded rate", "anchors": ["src/flowMC/resource/kernel/NF_proposal.py", "src/flowMC/strategy/take_steps.py:TakeSteps.__call__"]}
{"id": "C108", "title": "Small steps are accepted", "statement": "If the log-density and the gradient are continuous, then for the random walk, MALA and HMC (any condition matrix, a fixed number of leapfrog steps): from every position and for all normal draws the probability of accepting the proposal tends to 1 as step_size tends to 0; the mean acceptance probability under any distribution of positions tends to 1; and for every tolerance there is a step size such that with any smaller one the acceptance flags recorded by a long enough call average to 1 up to the tolerance, with any confidence. So a low acceptance rate can always be cured by reducing the step size.", "quantifier": "all continuous log-densities and gradients, positions, draws, distributions of positions, condition matrices, numbers of leapfrog steps; for the recorded flags: settings for which the chains converge, histories of calls, thinnings, starts; ideal random world", "why_tests_cant": "a limit for all targets and positions, and over calls of unbounded length", "anchors": ["src/flowMC/resource/kernel/Gaussian_random_walk.py", "src/flowMC/resource/kernel/MALA.py", "src/flowMC/resource/kernel/HMC.py", "src/flowMC/strategy/take_steps.py:TakeSteps.__call__"]}
{"id": "C109", "title": "No region is missed", "statement": "A call of sample with the MALA bundle, with the flow trained on the chains' own history, and flows that cover the target up to a factor C >= 1 (normalised target density at most C times the flow's). For every region A of the parameter space, the probability that none of the rows of a chain of positions_production lies in A is at most (1 - (1 - rho) p)^n, where p is the probability of A under the target, n the number of production loops and rho < 1 the per-loop factor (1 - 1/C)^k given by the k flow proposals up to the last recorded one; that no row of any chain lies in A, at most (1 - (1 - rho) p)^(n * n_chains). This holds from any initial positions, even if all chains start outside A, in one mode of a multimodal target. So log(1/e) / ((1 - rho) p) loops suffice to visit A with probability 1 - e, and every region of positive volume has p > 0.", "quantifier": "all targets with finite integral, regions, initial positions, step sizes, thinnings, numbers of loops and chains, families of flows covering the target, training procedures that keep the flow in the family; ideal random world", "why_tests_cant": "a probability over runs of unbounded length, for all targets, regions and training histories", "anchors": ["src/flowMC/resource_strategy_bundle/RQSpline_MALA.py", "src/flowMC/Sampler.py", "src/flowMC/resource/kernel/NF_proposal.py", "src/flowMC/strategy/train_model.py"]}
{"id": "C110", "title": "Units and origin of the parameters do not matter", "statement": "Express the parameters in other units and with another origin, x -> s x + o with s not 0: give the sampler the log-density as a function of the new parameters, kernels with the step size multiplied by s, a flow in new units (its samples mapped, its log_prob up to a constant) and the initial positions in new units. Then with the same key everything happens the same way: a step of GRW, MALA or HMC, a serial scan, a sweep of flow proposals, the steps of tempered replicas and the exchanges make the mapped proposals and take the same decisions; a step strategy, a state update, any sequence of them, the production phase of the MALA bundle and a call of sample raise the same exception or return the same key and the mapped positions, record the mapped positions and leave everything else they record - log-densities, acceptance flags, states, cursors - the same. (Training the flow is not included: AdamW pulls data_mean to zero, C52, so the origin matters to it.)", "quantifier": "all scales s other than 0 and origins, log-densities, kernels, flows, strategies and their orders, buffers, keys, random number generators, initial positions and data; exact arithmetic", "why_tests_cant": "a relation between two runs of unbounded length, for all targets and changes of units", "anchors": ["src/flowMC/Sampler.py", "src/flowMC/strategy/take_steps.py", "src/flowMC/resource/kernel/MALA.py", "src/flowMC/resource/kernel/HMC.py", "src/flowMC/resource/kernel/Gaussian_random_walk.py", "src/flowMC/resource/kernel/NF_proposal.py", "src/flowMC/strategy/parallel_tempering.py", "src/flowMC/resource_strategy_bundle/RQSpline_MALA.py"]}
{"id": "C111", "title": "Points a chain cannot leave", "statement": "A chain at a point whose log-density is NaN or +inf never moves again: every later row of that chain repeats the position and the log-probability with acceptance 0, for every kernel, every key, and across all strategies of a bundle run to the end of production; in particular a chain whose initial position has such a log-density has that position recorded at every step. MALA also never leaves a point where a component of the gradient is NaN, even if the log-density is finite there, and MALA and HMC never accept such a point; the flow sampler accepts nothing while its own log-density at the current point is NaN, and a parallel tempering call returns a chain that enters at a NaN log-density where it was (its replicas with NaN log-density keep their temperature). A log-density of +inf is always accepted when proposed by the random walk. A start at log-density -inf, in contrast, is harmless: the first proposal with finite log-density (and finite gradient, flow density) is accepted.", "quantifier": "all targets, gradients, keys, settings, chain lengths, thinnings, numbers of loops, IEEE number formats", "why_tests_cant": "tests use log-densities that are finite everywhere; the claim is about every place of the special values and every later step of the run", "anchors": ["src/flowMC/resource/kernel/Gaussian_random_walk.py:kernel", "src/flowMC/resource/kernel/MALA.py:kernel", "src/flowMC/resource/kernel/HMC.py:kernel", "src/flowMC/resource/kernel/NF_proposal.py:kernel", "src/flowMC/strategy/take_steps.py:TakeSteps", "src/flowMC/resource_strategy_bundle/RQSpline_MALA.py:RQSpline_MALA_Bundle"]}
{"id": "C112", "title": "Several samplers in one program", "statement": "Samplers made from separately constructed bundles (or dictionaries) never influence each other: in any program of sample() calls, leaving out the calls on the others changes neither the outcome of the remaining calls nor anything read from this sampler's resources. Samplers made from the same bundle object are one sampler with several keys: a call on one is visible through all of them and the next call starts from what it left; in particular a second sampler made from a bundle that has completed a run records nothing in its training buffers - what is read there are the training samples of the first sampler.", "quantifier": "all programs of sample() calls on any number of samplers, all bundles, keys, starts, data, failing calls included", "why_tests_cant": "the claim is about aliasing of the dictionaries in all interleavings of calls; tests build one sampler per bundle", "anchors": ["src/flowMC/Sampler.py:Sampler.__init__", "src/flowMC/Sampler.py:Sampler.sample", "src/flowMC/resource_strategy_bundle/RQSpline_MALA.py:RQSpline_MALA_Bundle", "src/flowMC/strategy/train_model.py:TrainModel.__call__", "src/flowMC/strategy/take_steps.py:TakeSteps"]}
{"id": "C113", "title": "No region is missed, with hard boundaries", "statement": "A call of sample with the MALA bundle on a target with hard boundaries (-inf or NaN outside a region S of positive and finite mass), the flow being trained on the chains' own history, chains starting inside, and flows that cover the truncated target up to a factor C >= 1 at every point inside. For every region A, the probability that none of the rows of a chain of positions_production lies in A is at most (1 - (1 - rho) p)^n, where p is the probability of A under the truncated target, n the number of production loops and rho < 1 the per-loop factor of C109; that no row of any chain lies in A, at most (1 - (1 - rho) p)^(n * n_chains). So a chain started in a corner of the allowed region does not miss the rest of it, although MALA steps across the boundary are rejected and the gradient outside is NaN.", "quantifier": "all truncated targets of positive finite mass, regions, initial positions inside, step sizes, thinnings, numbers of loops and chains, families of flows covering the truncated target, training procedures that keep the flow in the family; ideal random world", "why_tests_cant": "a probability over runs of unbounded length, for all targets, walls, regions and training histories", "anchors": ["src/flowMC/resource_strategy_bundle/RQSpline_MALA.py", "src/flowMC/Sampler.py", "src/flowMC/resource/kernel/NF_proposal.py", "src/flowMC/strategy/train_model.py"]}
{"id": "C114", "title": "Optimisation with a small learning rate climbs", "statement": "For positions inside the bounds at which the log-density is differentiable with continuous gradient, the displacement of an optimisation call of n steps divided by the learning rate tends, as the learning rate goes to zero, to an explicit limit per coordinate: the bias-corrected Adam average of the noise factors times the sign of the gradient (n*g/(|g|+1e-8) without noise). The gain in log-density divided by the learning rate tends to the gradient times that limit. Hence with noise_level 0 every chain whose gradient is not zero ends at a higher log-density, and reports it, once the learning rate is small enough. With noise_level > 0 the gradient is multiplied by 1 + noise*N(0,1): when all factors of a chain are positive it ends higher, when all are negative it ends lower, and both happen with probability bounded away from zero however small the learning rate is. A learning rate that is not small can end lower even without noise.", "quantifier": "all log-densities, positions, numbers of chains and steps, bounds, noise levels, keys; limits as the learning rate tends to zero", "why_tests_cant": "statement about all sufficiently small learning rates and about the distribution of the noise; a test runs one learning rate and one seed", "anchors": ["src/flowMC/strategy/optimization.py:AdamOptimization.optimize", "src/flowMC/strategy/optimization.py:AdamOptimization.__init__"]}
{"id": "C115", "title": "Training on all the data with a small learning rate improves the flow", "statement": "With the library's Optimizer (gradient shortened to norm 1, AdamW with weight decay 1e-4) in its initial state, a batch_size of at least the number of examples, and a loss that is continuously differentiable in the parameters at the model whose data statistics were just set: as the learning rate tends to zero the loss recorded for epoch e, minus the first, divided by the learning rate, tends to -e times an explicit rate (gradient times step direction plus weight decay). If the rate is positive - which it is when some derivative is non-zero and no parameter is so large (order 1e4) that weight decay outweighs its gradient - then for every small enough learning rate the recorded losses fall strictly and the returned model has a smaller loss on the data than every recorded one. If the rate is negative, training returns a model that is worse than the one it started from, for every small enough learning rate. An optimizer that remembers earlier training data can make a training call return a worse model even where a fresh one would improve it.", "quantifier": "all flows, losses, data, numbers of epochs, momenta in [0, 1), keys; limits as the learning rate tends to zero", "why_tests_cant": "statement about all sufficiently small learning rates and all smooth losses; a test trains one model at one rate", "anchors": ["src/flowMC/resource/model/nf_model/base.py:NFModel.train", "src/flowMC/resource/model/nf_model/base.py:NFModel.train_epoch", "src/flowMC/resource/model/nf_model/base.py:NFModel.train_step", "src/flowMC/resource/optimizer.py:Optimizer.__init__"]}
{"id": "C116", "title": "HMC without inner leapfrog steps is MALA; without gradients both are random walks", "statement": "For the same key, an HMC kernel with n_leapfrog = 0, unit mass matrix and step size eps samples exactly the chain (positions, log-densities, acceptance flags) that MALA with step size eps samples, on every log-density. On a log-density whose gradient is zero everywhere MALA samples exactly the chain of GaussianRandomWalk with the same step size, and HMC with unit mass matrix that of GaussianRandomWalk with step size eps * (n_leapfrog + 1). Exchanging such kernels under a TakeSerialSteps strategy changes no result, no exception and no other resource.", "quantifier": "all log-densities, step sizes, keys, starts, numbers of steps and chains, chain batches (exact arithmetic)", "why_tests_cant": "equality of two programs for every target and key; tests compare moments of a few runs", "anchors": ["src/flowMC/resource/kernel/HMC.py:HMC.kernel", "src/flowMC/resource/kernel/HMC.py:HMC.leapfrog_step", "src/flowMC/resource/kernel/MALA.py:MALA.kernel", "src/flowMC/resource/kernel/Gaussian_random_walk.py:GaussianRandomWalk.kernel", "src/flowMC/strategy/take_steps.py:TakeSerialSteps.sample"]}
{"id": "C117", "title": "A walker moves at most one temperature colder per tempering call; production sees only the nearest replica", "statement": "Who is at the temperatures 0..r after an exchange sweep depends only on the walkers and temperatures at 0..r+1, and each of them was at one of 0..r+1 before, whatever the draws and the log-likelihoods (NaN included). With 0 < T_j <= T_(j+1), a walker at temperature j+1 that is at least as likely as all the colder ones ends at temperature j, whatever the uniform draws in (0, 1); between equal temperatures the exchange is always made. Since replicas are not written back in production, every sequence of production strategies of the tempered bundle gives the same keys, positions, exceptions and production buffers for any two contents of the replica buffer that agree on the first replica of every chain and any two ladders that agree on the two lowest temperatures: the other replicas have no effect on production.", "quantifier": "all temperatures, walkers, keys, log-likelihoods, numbers of temperatures and chains, sequences of production strategies, failing calls included", "why_tests_cant": "an information-flow claim over all replica contents, ladders and schedules", "anchors": ["src/flowMC/strategy/parallel_tempering.py:ParallelTempering._exchange", "src/flowMC/strategy/parallel_tempering.py:ParallelTempering._exchange_step_body", "src/flowMC/strategy/parallel_tempering.py:ParallelTempering.__call__", "src/flowMC/resource_strategy_bundle/RQSpline_MALA_PT.py:RQSpline_MALA_PT_Bundle"]}
{"id": "C118", "title": "A chain in equilibrium is stationary and can be read backwards", "statement": "When an exact stepper for the target (random walk, MALA, HMC with a diagonal mass matrix, or flow proposals; any thinning and chain batching) is called after any calls of exact strategies from a start distributed as the target, the rows it records for a chain have, read from the last to the first, the same joint distribution as read from the first to the last; and the joint distribution of any number of successive rows does not depend on where in the call they are. So autocovariances at a given lag do not depend on the position, as autocorrelation-time estimates assume, and no statistic can tell which end of the record came first.", "quantifier": "all targets, numbers of steps, thinnings, lags, blocks of rows, chains, prior calls of exact strategies, under the ideal-randomness assumption", "why_tests_cant": "equality of joint distributions of whole trajectories", "anchors": ["src/flowMC/resource/kernel/Gaussian_random_walk.py:GaussianRandomWalk.kernel", "src/flowMC/resource/kernel/MALA.py:MALA.kernel", "src/flowMC/resource/kernel/HMC.py:HMC.kernel", "src/flowMC/resource/kernel/NF_proposal.py:NFProposal.kernel", "src/flowMC/strategy/take_steps.py:TakeSerialSteps.sample", "src/flowMC/strategy/take_steps.py:TakeGroupSteps.sample"]}
{"id": "C119", "title": "Splitting a run into several calls", "statement": "Calling a stepper with n steps and no thinning m times records, for each chain, rows with the same joint distribution as one call with m*n steps from an equally distributed start, whatever the start. With thinning t (t divides n) a call returns the last recorded position, not the last computed one, so the m calls record what one unthinned call with m*(n-t+1) steps visits at the steps p*(n-t+1)+j*t: rows of the same call are t steps apart, but the last row of a call and the first row of the next are only one step apart, and t-1 steps of every call are thrown away.", "quantifier": "all exact steppers (random walk, MALA, HMC with a diagonal mass matrix, flow proposals), starts, numbers of steps and calls, thinnings dividing the number of steps, chains, cursors, under the ideal-randomness assumption", "why_tests_cant": "equality of joint distributions of whole records, for any number of calls", "anchors": ["src/flowMC/strategy/take_steps.py:TakeSteps.__call__", "src/flowMC/strategy/take_steps.py:TakeSerialSteps.sample", "src/flowMC/strategy/take_steps.py:TakeGroupSteps.sample"]}
{"id": "C120", "title": "Thinning never makes averages more accurate; longer calls never make them less accurate", "statement": "In equilibrium (start distributed as the target, any calls of exact strategies before), for any function g and any convex loss such as squared or absolute error, the expected loss of the average of g over the rows that a call of a stepper with n steps records for a chain is without thinning at most what it is with any thinning dividing n; and with m*n steps at most what it is with n steps.", "quantifier": "all exact steppers (random walk, MALA, HMC with a diagonal mass matrix, flow proposals), targets, functions, convex losses, numbers of steps, thinnings, factors m, chains, prior calls, under the ideal-randomness assumption", "why_tests_cant": "an inequality between expectations over all functions and losses", "anchors": ["src/flowMC/strategy/take_steps.py:TakeSteps.__call__", "src/flowMC/strategy/take_steps.py:TakeSerialSteps.sample", "src/flowMC/strategy/take_steps.py:TakeGroupSteps.sample"]}
{"id": "C121", "title": "Autocovariances of recorded rows have the signs and monotonicity that effective-sample-size estimators assume", "statement": "In equilibrium (start distributed as the target, any calls of exact strategies before), take the values of any function g with finite second moment at the rows that a call of a stepper with any thinning records for a chain. Their autocovariances about any constant exist; those at even lags are not negative; the sum of those at lags 2k and 2k+1 is not negative and not less than the sum of those at lags 2k+2 and 2k+3 (the premises of initial-positive and initial-monotone sequence estimators of autocorrelation times).", "quantifier": "all exact steppers (random walk, MALA, HMC with a diagonal mass matrix, flow proposals), targets, functions, constants, numbers of steps, thinnings, rows, lags, chains, prior calls, under the ideal-randomness assumption", "why_tests_cant": "inequalities between expectations for all functions and lags", "anchors": ["src/flowMC/strategy/take_steps.py:TakeSteps.__call__", "src/flowMC/strategy/take_steps.py:TakeSerialSteps.sample", "src/flowMC/strategy/take_steps.py:TakeGroupSteps.sample"]}
{"id": "C122", "title": "Flow proposals and random walks never give negative autocovariances, so their rows never beat independent draws", "statement": "In equilibrium (start distributed as the target, any calls of exact strategies before), take the values of any function g with finite second moment at the rows that a call of a stepper making flow proposals or random-walk moves records for a chain, with any thinning. Their autocovariances about any constant exist, are at every lag not negative, never increase with the lag, are convex in the lag and do not depend on the row; hence the mean square error of their average is at least that of as many independent draws (the effective sample size is at most the number of rows).", "quantifier": "all steppers with flow proposals (any flow whose log_prob is up to a constant that of its samples) or random walks (any step size), targets, functions, constants, numbers of steps, thinnings, rows, lags, chains, prior calls, under the ideal-randomness assumption", "why_tests_cant": "inequalities between expectations for all functions, targets, flows and lags", "anchors": ["src/flowMC/strategy/take_steps.py:TakeSteps.__call__", "src/flowMC/strategy/take_steps.py:TakeSerialSteps.sample", "src/flowMC/strategy/take_steps.py:TakeGroupSteps.sample", "src/flowMC/resource/kernel/Gaussian_random_walk.py:GaussianRandomWalk.kernel", "src/flowMC/resource/kernel/NF_proposal.py:NFProposal.kernel"]}
{"id": "C123", "title": "If the flow covers the target, flow steps forget geometrically and their rows count for at least rows/(2B-1) independent draws", "statement": "In equilibrium, call a stepper making flow proposals with any number of steps and thinning, and suppose the target's normalised density is nowhere more than B times the flow's. For every function g with finite second moment under the target, the autocovariances of the recorded values of g about the true mean lie between 0 and (1-1/B)^(lag*thinning) times the variance of g, and the mean square error of the average over the recorded rows is at most (2B-1)/rows times that variance: the effective sample size is at least rows/(2B-1), whatever g is. So rows >= (2B-1) variance/(eps delta^2) make the average miss the true mean by more than delta with probability at most eps. If the flow is the target (B=1), rows are uncorrelated and the error is exactly that of independent draws.", "quantifier": "all flows covering the target with any factor B >= 1, targets, functions, numbers of steps, thinnings, rows, lags, chains, prior calls, under the ideal-randomness assumption", "why_tests_cant": "inequalities between expectations for all functions, targets, flows and lags", "anchors": ["src/flowMC/strategy/take_steps.py:TakeSteps.__call__", "src/flowMC/strategy/take_steps.py:TakeGroupSteps.sample", "src/flowMC/resource/kernel/NF_proposal.py:NFProposal.kernel"]}
{"id": "C124", "title": "How often replicas are exchanged, what a full sweep does, and when adaptation stands still", "statement": "Two neighbouring temperatures: if the walker at the hotter one is at least as likely, the exchange always happens; otherwise with probability exp(-(1/T0-1/T1)(logL(x)-logL(y))). With any number N of temperatures, if neighbouring inverse temperatures differ by at most eta and the walkers' log-likelihoods by at most R, then with probability at least 1-(N-1)(1-exp(-eta R)) every exchange of a sweep happens, whatever the distribution of the walkers, and a sweep in which every exchange happens is a rotation: the coldest walker goes to the hottest temperature and every other walker one temperature down. Temperature adaptation leaves the ladder exactly as it is when all neighbouring pairs exchange equally often, such as always or never, even if the ladder is far too dense or far too sparse.", "quantifier": "all log-likelihoods, walkers, positive temperatures, numbers of temperatures and chains, keys, exchange flags, under the ideal-randomness assumption for the probabilities", "why_tests_cant": "probabilities of events over all draws, for all ladders and walkers of any number", "anchors": ["src/flowMC/strategy/parallel_tempering.py:_exchange_step_body", "src/flowMC/strategy/parallel_tempering.py:_exchange", "src/flowMC/strategy/parallel_tempering.py:_adapt_temperature"]}
{"id": "C125", "title": "Pooling n independently started chains divides the error by n", "statement": "If the positions of the chains before a call of an exact stepper (random walk, MALA, HMC, flow proposals; any number of steps and thinning) are pairwise independent draws from the target, then every recorded row of every chain is a draw from the target and any row of one chain is independent of any row of another. For every function g with finite second moment, the mean square error of its average over all rows of all n chains is exactly 1/n^2 times the sum of the single-chain mean square errors; with a flow covering the target up to a factor B it is at most (2B-1)/(n rows) times the variance of g, so the average misses the true mean by more than delta with probability at most that bound over delta^2. With flow proposals or random walk moves it is never less than 1/(n rows) times the variance. Thinning by a divisor of the number of steps never makes it smaller, and m times as many steps never make it larger.", "quantifier": "all exact steppers, targets, functions, numbers of chains, steps, thinnings, rows, starting positions known before the call, under the ideal-randomness assumption", "why_tests_cant": "independence and expectations over all draws, for all targets, functions and numbers of chains", "anchors": ["src/flowMC/strategy/take_steps.py:TakeSteps.__call__", "src/flowMC/strategy/take_steps.py:TakeSerialSteps.sample", "src/flowMC/strategy/take_steps.py:TakeGroupSteps.sample"]}
