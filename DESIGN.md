# Formal model of kazewong/flowMC (Lean 4)

## 1. Method and trusted base

* The theorem prover is Lean 4.33.0 with Mathlib; the kernel is trusted.  The only
  axioms any theorem may depend on are `propext`, `Classical.choice`, `Quot.sound`.
  No own axioms, no compiled-code tactics.
* The link between the model and `/repo` is reading: every model definition
  cites the file and lines it models and states its simplifications.
* Source layout (`lean/Verif/`):
  * `Jax/`   – the fragment of JAX/NumPy the code relies on (PRNG keys and splitting,
    n-d arrays, `dynamic_update_slice`, python slices, scans).
  * `Model/` – the code, function by function.
  * `Spec/`  – small, model-independent specifications (a log, a ladder, reversibility …).
  * `Lemmas/`– helper lemmas.
  * `Props/` – one theorem (or a few) per property, each with a concrete example
    showing that its hypotheses are satisfiable.

### What is modelled
| /repo file | model module | coverage |
|---|---|---|
| `resource/buffers.py`, `states.py`, `logPDF.py` | `Model/Resource`, `Model/Histogram` | all functions except printing |
| `resource/kernel/{Gaussian_random_walk,MALA,HMC,NF_proposal}.py` | `Model/Kernels` | all; HMC's matrix square root is a parameter `L` |
| `resource/model/nf_model/base.py` | `Model/Train`, `Model/Loss`, `Model/Serialise`, `Model/GenFlow` (loss, statistics, optimizer step and coupling flows in arithmetic with NaN and infinities) | `save_model`, `load_model`, `to_precision`, `train`, `train_epoch`, the value of `loss_fn`; one gradient step is `FlowOps.trainStep` |
| `resource/model/common.py` | `Model/Coupling`, `Model/Composable` | MLP (init, call), MLPAffine, ScalarAffine, MaskedCouplingLayer, Gaussian, Composable |
| `resource/model/nf_model/realNVP.py` | `Model/RealNVP` | AffineCoupling, RealNVP |
| `resource/model/nf_model/rqSpline.py` | `Model/RQSpline` | knots, splines, RQSpline, MaskedCouplingRQSpline |
| `resource/model/flowmatching/base.py` | `Model/FlowMatching`, `Model/FMTrain`, `Model/Stats`, `Model/Serialise` | save/load, Solver, CondOTScheduler, Path, sample, log_prob, loss, batches, `train_epoch`, `train`, statistics; the ODE solver is a parameter |
| `resource/optimizer.py` | `Model/Optimizer`, `Model/TrainStep` | clip + AdamW update in exact arithmetic; `NFModel.train_step` for arbitrary losses and gradients |
| `strategy/*.py` | `Model/Strategies`, `Model/Tempering`, `Model/Adam` | TakeSerialSteps, TakeGroupSteps, TrainModel, UpdateState, Lambda, ParallelTempering, AdamOptimization |
| `Sampler.py` | `Model/Sampler` | constructor, keyword loop, `sample` |
| `resource_strategy_bundle/*.py` | `Model/Bundle` | RQSpline_MALA_Bundle, RQSpline_MALA_PT_Bundle: resources, strategies, order |

### Specification modules (`Spec/`, independent of the model's helpers)
* `Log` – an abstract log of blocks; `Run` – what "sequential composition" and "prefix effects" mean.
* `StepCall` – what a step call must record: trajectories, thinning, positions before a step.
* `Keys` – descent of keys; two random worlds that agree on a set of keys.
* `Training`, `BundleRun` – best snapshot, loss log; bundle accounting as a log of blocks.
* `Markov` – invariance and reversibility of a random step w.r.t. a measure, target measure of a log-density.
* `Hamiltonian` – phase-space reversibility and volume preservation.
* `Ideal` – an ideal generator: a probability space of worlds in which draws at distinct keys are independent
  and have their exact laws (`IdealOn` restricts this to the keys descending from one key).
* `Flow`, `FlowLaw` – bijection pairs with log-determinants, the law of a flow sample.
* `Walls` – targets that evaluate to `-inf`/NaN outside a region, the truncated target distribution.
* `Converge` – the law after a random step, convergence in total variation, being close in law.
* `Misfit` – a flow whose samples and `log_prob` are unrelated, and the log-density that is sampled with it.
* `TrainedSpline` – the layers of a spline flow with spline and affine halves exchanged, and the log-density its samples really have.
* `Files` – where numpy puts archives.
* `Collapse` – constant coordinates, flows whose data variance is 0 or NaN, base densities that propagate non-finite values.
* `Composable` – blocks that tile the coordinates of a vector, Python ranges; `Histogram` – bins and cells; `Serialise` – architecture and contents of a module.
* `Draws` – which keys each call draws from; `Agree` – resource dictionaries that agree on some names, outcomes that are the same.
* `Adaptive` – families of flows driven by common base draws; being close in law and nearly independent of a past.
* `WallAverages` – averages over rows in arithmetic with infinities and NaN; rows that are finite points of a set.
* `Intervals` – the fraction of rows in an interval; all intervals having the right fraction.
* `Acceptance` – Metropolis acceptance probabilities of the kernels, their stationary means.
* `WallErrorBars` – the same as `ErrorBars`, in arithmetic with infinities and NaN; the density of a truncated target.
* `UpToConstant` – two resource dictionaries that differ by a constant in the log-densities and in the recorded log-densities.
* `Networks` – the textbook formulas of a network with one hidden layer of rectified units and of an affine coupling layer.
* `SplineFormula` – a tanh network of any depth and the rational-quadratic spline of the paper, as formulas.
* `WallVisits` – the same for buffers of floats with infinities and NaN.
* `Visits` – which regions the rows of a buffer visit.
* `Units` – parameters expressed in other units: log-density, kernels, flow, buffers, resources.
* `Traps` – the IEEE rules for `*`, `/` and finite numbers used by C111, `Frozen` (NaN or +inf), `Repeats`, and the history of a chain as read from the training and production buffers.
* `Shared` – samplers made from separate or from the same dictionaries; what a sampler sees of a store.
* `Climb` – exponentially weighted average, the pace of small-step Adam, noise factor of a step, room inside the bounds.
* `Improve` – parameters of a model, a smooth loss at a model, the shortened gradient and the rate at which the loss falls.
* `Rungs` – C117: lists that agree up to an index, resources that differ only far from the cold chain.
* `ErrorBars` – averages over all chains of a buffer; bias and mean square error of an estimate.
* `Learning` – training as an ordinary procedure: which draws it makes, that its steps are measurable; `FlowInit` – what fresh networks are made of; `AdamDraws` – the draws of the optimisation strategy.
* `Ode` – exact solutions of the flow ODE and of the augmented system (for flow matching).

### Witnesses
Most property files carry their witnesses as `example`s next to the theorems.  Longer ones live in separate modules: `WitnessRuns`, `WitnessCalls`
(runs and calls on concrete resources), `WitnessTraining`, `WitnessBundleTraining` (training calls and bundles), `WitnessFlows` (concrete flows),
`WitnessTemper` (C13 for tempering and optimisation), `WitnessKernels` (C20–C26, C31, C32, C67, C70–C74, C78 on a normal target, a walled normal target and a normal flow), `WitnessExtend` (C84, C85), `WitnessExtendTraining` (C87), `IdealWorld`, `ProductionExamples`, `ConvergeExamples`, `LearningExamples` (a probability space with one
independent draw per key, in which the bundle runs; in the last one the flow is moved at random by training).

### What is assumed (parameters of the model, not axioms)
* **Arithmetic.**  Numerical code is written once, polymorphic in a number type `F` with the operations the code
  uses.  Statements about probability, calculus and algebraic inverses are proved for `F = ℝ` (exact arithmetic:
  rounding is not modelled).  Statements about data movement hold for every `F`.  Statements about NaN/±inf are proved for
  every `F` satisfying explicit IEEE-754 special value laws (which hold with rounding), and `XR` (reals with NaN, ±inf)
  witnesses that those laws are satisfiable.  A target over ℝ is finite everywhere, so the invariance theorems C22–C28, C63 speak
  of finite log-densities; targets with `-inf`/NaN outside their support are treated over `XR` in C67 (finite arithmetic is
  exact real arithmetic there), and by C20/C66 (never accepted / never raises).
* **PRNG.**  Keys form a free split tree (`root seed`, `child k i`); a generator maps keys to draws.  Probabilistic
  theorems assume an ideal generator (`Spec/Ideal`).  Deterministic theorems hold for every generator.
* **Autodiff / optax / neural networks.**  A log-density carries an arbitrary gradient function; a conditioner network in
  the coupling theorems is an arbitrary function (MLPs are modelled as an instance); the training loop takes an arbitrary
  gradient step; AdamW itself is modelled for C52.
* **Python heap.**  Resources live in a dictionary from names to values; the model has no aliasing between two names
  (the code mutates resources in place; bundles give each name its own object, except the flow shared by `model` and
  `global_sampler`, which are immutable equinox modules).  Error returns keep the mutated heap, as Python does.
* **ODE solver** (diffrax) is a parameter; C56 assumes it returns exact solutions of a smooth field.
* **Targets and `n_steps`.**  TakeGroupSteps puts the key `n_steps` into `data`; the log-density seen by the flow kernel
  therefore gets a different `data` than the initial evaluation.  C15 assumes the target ignores that key
  (`IgnoresNSteps`), and shows that this is needed.

### Not modelled
jit/vmap compilation, dtype/precision (except special values), device placement, printing, tqdm, wall-clock and memory
behaviour, plotting, the bytes of the files written by `eqx.tree_serialise_leaves` (C81 models which leaves they hold and when they load), the empty stub files
`strategy/importance_sampling.py` and `strategy/sequential_monte_carlo.py`, and the stubs `Sampler.serialize`/`deserialize`.

Behaviours of the code noticed while reading that lie outside the model: HMC's default `condition_matrix=1` is a scalar, on which
`jnp.linalg.inv`/`cholesky` raise; `K = 0` spline bins raise while building the network; `Composable.sample` returns a
dictionary and cannot serve as `base_dist`; `FlowMatchingModel.log_prob` returns shape `(1,)`.

### Properties that are false of the code
For each of these the negation is proved for a concrete input, and a `_partial` theorem states what does hold:
C03 (overflowing write is clamped onto old rows), C04 (cursor and cursor_dim not saved), C06 (a pickled dictionary cannot be
loaded; and name/data swapped), C11 (second `sample` reuses keys and writes training rows into production buffers), C18
(ceil rows written, floor rows counted), C25 (correlated HMC metric), C34 (adapted ladder exceeds the maximum), C36 (prior only
in the cold replica's target), C43/C44 (order of the inverse inside a spline layer; visible after training because ScalarAffine is
trainable), C45 (missing whitening Jacobian), C46 (RealNVP ignores `base_dist` in `log_prob`), C51 (`history_window=0`, reshape
across chains), C52 (weight decay moves frozen parameters), C56 (base density at the end point), C78 (the law of the cold chain after repeated production tempering), C98 (HMC alone with trajectories of half a turn), C65 (replicas
discarded in production).

## 2. Properties: what is modelled and how it is proved

| id | model | proof |
|----|-------|-------|
| C01 | NDArr with `dynamic_update_slice_in_dim`, Buffer | index calculation, all ranks |
| C02 | sequence of `update_buffer` at running cursor | refinement to an abstract log, induction over blocks |
| C03 | same, start beyond the end | **false** (XLA clamps the start): negation for a concrete buffer; general clamp theorem as `_partial` |
| C04 | file contents as value | **false** (cursor, cursor_dim lost): negation; what is preserved as `_partial` |
| C05 | State.update as zip loop | induction over the key list |
| C06 | State.save/load | **false** (arguments swapped): negation; `_partial` gives what is returned |
| C07 | Sampler constructor | case analysis |
| C08 | Sampler.sample loop over strategy order | fold lemma over append |
| C09 | state+exception semantics | induction over the order |
| C10 | kwargs loop | induction over the kwargs |
| C11 | second sample call | **false**: same key reused, and training rows go to production buffers; negations, plus `_partial` |
| C12 | batched vs unbatched TakeSteps | list lemma on chunks |
| C13 | TakeSteps sampling, tempering call, optimisation call | rows (replicas, optimised positions) are a function of own start and keys; key sets of chains disjoint |
| C14 | serial scan with local kernels | invariant by induction over steps |
| C15 | NF kernel | invariant by induction |
| C16 | kernel steps | case analysis + trajectory induction |
| C17 | thinning slice | index lemma |
| C18 | two successive calls | **false** unless thinning divides n_steps (ceil vs floor): negation + `_partial` |
| C19 | TakeSteps call | frame theorem, failure leaves the heap equal |
| C20 | kernels over IEEE law class | case analysis; induction over steps |
| C21 | acceptance test over ℝ | Lebesgue measure of the accept set |
| C22–C23 | GRW, MALA over ℝ | general Metropolis–Hastings lemma, density symmetry, Gaussian push-forward |
| C24 | leapfrog | algebraic involution + volume preservation by shear composition |
| C25 | HMC | involutive MCMC lemma; **false** for correlated matrices; `_partial` for diagonal |
| C26 | NF kernel body | independence MH + C22 lemma, composition |
| C27 | NF batching | arithmetic on batch counts, list lemma |
| C28 | serial scan with ideal PRNG | induction over steps, independence of keys |
| C29 | key tree | prefix-freeness of key paths |
| C30 | exchange sweep | permutation induction |
| C31–C32 | exchange / PT over ℝ | swap of coordinates is measure preserving; sweep composition |
| C33 | temperature adaptation | induction over the scan |
| C34 | same | **false**: concrete ladder exceeding the maximum; C33 is the `_partial` |
| C35 | PT call | frame theorem |
| C36 | PT bundle | **false** for non-constant prior: witness; `_partial` for zero prior |
| C37–C38 | coupling, RealNVP | algebra over a field; induction over layers |
| C39–C43 | spline | real analysis; induction over bins and layers |
| C44 | flow sample/log_prob | Fubini on masked/unmasked coordinates, 1-D change of variables |
| C45 | whitening | **false** (missing −Σ log σ): witness; normalisation constant as `_partial` |
| C46 | RealNVP base_dist | **false**: witness; `_partial` for the default |
| C47 | num_bins, slices; the whole spline layer down to the network | Nat arithmetic; equality with the textbook formulas of `Spec/SplineFormula` (networks of any depth, softmax knots, rational-quadratic pieces) |
| C48 | train loop | induction over epochs |
| C49 | epoch | list lemma on permutation prefix |
| C50 | loss buffer | refinement to a log |
| C51 | TrainModel data selection | list lemmas; `_partial` (needs uniform finiteness across chains) |
| C52 | AdamW | **false** (weight decay): witness; `_partial` for zero-valued leaves |
| C53–C54 | AdamOptimization | clip lemma, induction over steps |
| C55 | CondOT path | calculus |
| C56 | FM log_prob | **false** (base density at x1): witness; exact discrepancy for every smooth field by Liouville's formula |
| C57–C61 | bundles | refinement of the concrete run to an abstract log run |
| C62 | LogPDF | case analysis |
| C63 | whole `sample` call of the plain bundle, production part, conditioned on the frozen flow | composition of C22–C28 with the key tree; the flow is any value of the training phase (an event of the world); the tempering bundle is excluded (C36, C65) |
| C64 | TemperedPDF | algebra |
| C65 | PT call outside training | **false**: witness; `_partial` for training |
| C66 | whole `sample` call of both bundles | totality: every lookup, shape and reshape succeeds; invariant "all recorded rows and replicas finite" by C20; tempered: the ladder stays ≥ 1, so a tempered density is NaN/-inf where the log-density is, whatever the prior |
| C67 | kernels over `XR` with a walled target | a Metropolis step censored outside a set stays reversible for the restricted measure; the `XR` kernels equal the censored real kernels almost surely; chains by the ideal-generator induction of C28 |
| C68 | flow-matching training loop | list lemmas on permuted batches, induction over epochs |
| C69 | `jnp.mean`, `jnp.cov` over ℝ | algebra of sums; invariant over the training loop |
| C70 | the kernels over ℝ as Markov operators on L²(π); rows of chains as iterates of the step law from any start | a Metropolis step is a self-adjoint contraction; powers of a self-adjoint contraction converge strongly to the projection on its fixed vectors (constants only, because accepted moves charge everything); −1 is excluded by the second power having the same property; truncation extends from L² to absolutely continuous starts, and the never-moved part decays from any start; alternation with flow proposals uses positivity of the independence sampler; production rows by the ideal-generator induction with histories of steps, distances never increasing under further steps |
| C71 | as C70 | a flow proposal moves from any point into A with probability at least π(A)/C (pointwise inequality of densities), hence contracts (layer-cake formula); invariant steps do not expand; induction over the history of steps of a production row |
| C72 | as C70 | the joint law of a row with everything recorded in earlier loops is again an iterate of step laws (a passenger component); means after a history are iterated backward operators, which converge pointwise to the target mean by C70 from point starts, hence in mean under the target by dominated convergence; so rows of distant loops decorrelate, the second moment of the average vanishes, Chebyshev and a union bound over the chains |
| C73 | as C70; `Spec/Misfit` (`misfit`, `FlowSamples`: samples and `log_prob` unrelated) | the acceptance ratio with target t and reported density l equals the one with target t − l + lq and density lq, so C70 gives the limit; limits are unique; densities proportional a.e. iff l − lq is a.e. constant; for loops: a fixed point of G flow steps is the limit of G·n flow steps; production phase: the first flow row of the first loop is an iterate of step laws from the target; RealNVP with a consistent base through the flow-density lemma of C44 |
| C74 | as C67 (arithmetic with infinities and NaN) and C70 | inside the walls the code's step equals an accept/reject step over ℝ that from (unreachable) points outside accepts any proposal inside; that step is reversible for the truncated target and its accepted moves charge exactly the null sets of the truncated target, so the operator argument of C70 applies; positivity of the flow step with the weight target/flow set to 0 outside; chains started inside never see the difference |
| C75 | `Composable.log_prob` / `sample` with Python slicing and `zip` (`Model/Composable`) | slices computed for every tiling, induction over the loops; blocks joined by a volume preserving bijection; independence of the sub-keys; a gap makes the density invariant under translations |
| C76 | value of `loss_fn` (`Model/Loss`), the flows of C44/C45 | density of the samples from C44 and the mass from C45; Gibbs' inequality through Mathlib's Kullback-Leibler divergence |
| C77 | `adamSolver` (optax.adam with its defaults) inside `AdamOptimization.optimize` (`Model/Adam`) | invariant `m² ≤ 53 v` on the moments and a bound on the bias corrections; clipping is non-expansive; the first step computed exactly |
| C78 | successive `ParallelTempering` calls with `training` off, ideal random world | **false**: with two temperatures and no local moves, the stored replica is never exchanged away; each test uses a fresh uniform number, so the walker is exchanged at the first success and then stays: strict decrease of the probability of every superlevel set from the second call on, and convergence in total variation to the *hot* distribution; `_partial`: the first call (C32) |
| C79 | `gradStep` (clip + AdamW) inside `train`, reals, arbitrary loss and gradient | invariant of the Adam moments (first moment ≤ √53·√second; with clipping |m| ≤ 1 − b1^t), carried through batches, epochs and the best-snapshot rule; clipping is scale invariant |
| C80 | `Buffer.get_distribution` / `np.histogram` over reals with infinities and NaN (`Model/Histogram`), row-major flattening | the index computation with its corrections equals the bin that contains the value; bins are disjoint; unwritten cells of the bundles' buffers from the recording invariant of C57/C61 |
| C81 | `save_model`/`load_model` = equinox leaf serialisation (`Model/Serialise`): modules as lists of leaves, files as lists of records | induction over leaves and records; a module is determined by architecture and contents |
| C82 | `to_precision` on the same leaves; conversion of contents a parameter | induction over leaves; with C81 for checkpoints |
| C83 | ideal random world with a family of flows pushing common base draws; trained flow and positions arbitrary random | pointwise convergence (C70) for every value of the flow, integrated over the outcomes of training (dominated convergence), independence of production keys from the past; end to end (`C83_adaptive`): the trained flow and the positions are measurable functions of the draws made with training keys, by induction over the training loops |
| C84 | pairs of resource dictionaries that agree on a set of names | case analysis of every strategy call; induction over sequences |
| C85 | two runs of a bundle with different production loop counts, run side by side | C84 for training; in production the logs of blocks are determined by key, positions and flow; recordings of a log and of an extension share a prefix |
| C86 | constructors of both flows over an abstract source of initial draws | explicit key of every array; the keys form an antichain below the constructor's key |
| C87 | two runs of a bundle with different numbers of training (and production) loops, run side by side | simulation relation over training loops: same logs and losses, resources agree outside the recording buffers; the finite-row filter ignores the unwritten rows of either capacity |
| C88 | as C83, with averages over all production rows of a chain | joint laws of pairs of rows with the past as passenger; correlations of distant rows vanish (pointwise convergence for each flow, integrated over flows and starts); second moment and Chebyshev |
| C89 | as C83, one production row from each chain | each chain uses its own keys: its row is determined by the past and its own draws, and (with everybody else's draws counted as past) fresh in total variation; fresh points combine by induction over the chains |
| C90 | as C89, on a target that is `-inf`/NaN outside a region, in arithmetic with infinities and NaN (`XR`) | the training argument of C83 for any property of recorded positions kept by both kinds of steps (here: finite, inside, measurable); inside the walls both steps are accept/reject steps for the truncated target (C74), conditionally on the flow |
| C91 | `SplineFlow` of the model for any parameters; `Spec/TrainedSpline` (layers with their halves exchanged) | inside a layer `inverse` undoes the affine half first, so it inverts the exchanged composition (pairs of inverses compose); change of variables through the exchanged map as in C44; two densities give the same law iff they differ by a constant a.e.; rows and limits through C73; production: the first flow row of the first loop already has the target law only if `log_prob` is right (C73 for loops), conversely C63 |
| C92 | `Model/GenFlow`: coupling flows, whitening, loss, statistics and the AdamW step written once for every number type and used at `XR`; `C92_is_*` proves that at ℝ it is the model of the other properties | the whitened coordinate is 0/0 or a/0, hence not finite, and no masked layer makes it finite again; so the loss is NaN or +inf and never `<` the best loss, and `best_model` starts as the flow that was given; the gradient is zero at the statistics, so the optimizer keeps the variance 0 or turns it into NaN (induction over batches and epochs); proposals are NaN in that coordinate, their `log_prob` is NaN, and NaN is never accepted. Exact arithmetic: with rounding the variance of a constant coordinate can be a tiny positive number, which this theorem does not speak about |
| C93 | local and flow steps as in C71/C73 (`nfBody` with any `log_prob`), rows of the production phase | the flow step is the honest step for the distorted target (C73), hence contracts towards it by 1 - 1/C (C71); triangle inequality with τ; induction over the sequence of steps keeps `(1-1/C)^n + (2C-1)τ`; bounded errors give density ratios within exp(±2δ) |
| C94 | `TakeSteps`, `UpdateState`, `TrainModel`, `Lambda`, user strategies in an arbitrary dictionary and order (`Spec.Completes`); `Spec.MovesNothing`, `Spec.ExactStepper` say which strategies are allowed | inversion of a successful call (which rows were sampled with which keys, which resources can have changed); induction over the list of calls keeps: law of the chain, its keys disjoint from all keys still to come, kernels and log-densities unchanged; laws of single calls from C28/C26, contraction from C71 |
| C95 | production rows of a bundle run with a random trained flow, as in C88/C89; `Spec.ErrorBars` (bias and mean square error per chain and pooled), `Spec.loopFactor` | each loop contracts by ρ whatever came before (C71 for a random flow), so a row is within ρ^j of the target given everything up to a row j loops earlier: correlations decay geometrically, the double sum of the second moment is a geometric series; chains are conditionally independent given the flow (C89), so cross terms are products of biases; Chebyshev |
| C96 | as C88, for `f` integrable under the target | split `f` at a level: the bounded part is C88; for the rest, after enough loops the joint law of past and position is close to past × target, hence (Hahn) on an event of high probability dominated by twice it, and the steps preserve that domination (they preserve the target for every flow), so Markov's inequality bounds the average of the rest; the rows before that are finitely many with fixed laws (tightness) and are diluted |
| C97 | as C94, with steppers marked as mixing (random walk, MALA, flow) | each exact step is a positive linear map that keeps the target and densities bounded by a multiple of it; after every call of a mixing stepper the laws of any two starts with bounded densities overlap by an amount that does not depend on the order (Metropolis steps reach everything), so the part they do not share shrinks; the number of calls is uniform over orders because the bound of the densities is; unbounded densities are truncated; fixed starts turn into densities except for the part never accepted, which dies out. No reversibility of the whole run, no periodicity |
| C98 | `hmcStep`, chains of HMC steps (`serialSample`) | **false** in general: in a standard normal the leapfrog map is conjugate to a rotation by θ with step size 2 sin(θ/2); θ = π/(n+1) makes every proposal (-x, -p), of equal energy. Proved (`_partial`): for short trajectories the end point is a bi-Lipschitz bijective function of the momentum (perturbation of free motion, explicit constant), so proposals have a positive density and the argument of C70 applies |
| C99 | `TakeSteps.run` (rows of one call of a serial or flow stepper) | pairs of rows have the joint law of the chain (`ChainRows`, from the key tree and from the product law of a sweep); decay of correlations by dominated convergence of k-step means, Chebyshev for bounded f; tails of integrable f bounded through a coupling to a measure dominated by 2μ |
| C100 | as C90 and C96: arithmetic with infinities and NaN, target cut off at a wall | rows of one loop as a function of (trained flow, rows before, fresh draws), staying inside surely (C67); abstract weak law of large numbers for loops that are nearly fresh draws of the target and whose law stays dominated (`Lemmas/LoopAverages`), fed by C90's convergence and C67's invariance |
| C101 | as C90/C100: arithmetic with infinities and NaN, target cut off at a wall, flow trained on the way; `Spec.WallErrorBars`, `Spec.wallDensity` | covering of the truncated target minorises a flow step inside the wall, so loops contract by ρ (`Lemmas/WallRate`); the second-moment argument of C95 for any rows produced loop by loop (`Lemmas/LoopErrors`); the part of f outside is irrelevant since rows are surely inside (C67) |
| C102 | bundle runs of C83, C96, C100 with a `logpdf` other than the intended one | the two normalised measures are at most exp(2δ) times each other (`withDensity_mono`), hence probabilities and means are close; combined with C83, C96, C100 |
| C103 | bundle runs of C96 and C100; `Spec.IntervalsCorrect` | the deterministic half of Glivenko–Cantelli (`Lemmas/Uniform`: closeness at finitely many quantiles implies closeness on all half lines), then C96/C100 for finitely many indicators and a union bound |
| C104 | long calls of C99; `Spec.localRate`, `Spec.flowRate`, `Spec.AcceptanceAfter` | the pair (position, last flag) is a Markov chain that converges with the chain (`Lemmas/OutChain`); the ergodic theorem of C99 for bounded functions applied to it; C21 turns the probability of the flag into the Metropolis probability |
| C105 | all strategies and both bundles, two runs side by side; `Spec/UpToConstant` (`PlusConst`, `ResourcesPlus`, `OutcomePlus`) | a relational invariant: the two heaps agree except for the log-densities and the buffers in which log-densities are recorded; every ratio and every difference of log-densities cancels the constant, every strategy keeps the relation, induction over the calls |
| C106 | `Model/Hamiltonian`: `get_initial_hamiltonian` for a number and for a matrix as condition matrix, in exact arithmetic and with infinities and NaN | false: the power `**-0.5` is taken entry by entry, so an entry 0 gives inf and then `inf * 0 = NaN` (`C106_nan`), and positive entries count the energy once per row (`C106_overcounts`); right for a number and in dimension one |
| C107 | `Spec.flowRate` of C104 and the recorded flags | with `w` the density of the target with respect to the flow, the rate is the mean of `min (w x) (w y)` over two draws of the flow (`Lemmas/MinRate`); this kernel is symmetric, which gives the upper bound on the distance; `min(ab', a'b) ≥ min(a,a')·min(b,b')` gives the lower bound; C104 for the buffers |
| C108 | `Spec.acceptAt`, `Spec.localRate` of C104 as functions of the step size | the log of each kernel's ratio is a function of step size, draws and position that is continuous also at step size 0 (for MALA after cancelling the step size; for HMC the leapfrog scan is continuous and the identity at 0); dominated convergence; C104 for the buffers |
| C109 | the production rows of the bundle (C83's adaptive call); `Spec.Misses` | the last recorded row of each loop comes after `k` flow proposals, so given the past it is in `A` with probability at least `(1 - ρ) π(A)` (`Lemmas/Covering`: minorisation by the target); the product over loops is bounded by conditioning loop after loop, over chains by independence given the training |
| C110 | all kernels, `TakeSteps`, `UpdateState`, `sample`, the bundle; `Spec.Units` relates two sets of resources | each kernel's proposal and ratio are computed to be equivariant (the MALA normalisation and the flow's volume factor cancel, leapfrog keeps the momenta); a simulation relation between the resource dictionaries is preserved by every strategy except training |
| C111 | all kernels, serial and flow calls, the whole bundle run read from its four sample buffers; any number type with the IEEE rules for special values | a NaN or +inf current log-density (or NaN gradient) makes every acceptance ratio NaN or -inf, so the comparison is false; induction over the scan, thinning keeps the pairwise relation, then over the blocks of C57. Leaving -inf: the ratio is +inf (`_exact`: on extended reals, finiteness of the Gaussian and kinetic terms proved) |
| C112 | `Model/Shared.lean`: sampler objects hold references to dictionaries in a store; programs of `sample` calls | a call writes only to the two dictionaries the object refers to: simulation between the full program and the program without the separate calls; the shared case is C11's analysis of a second run, with another key |
| C113 | as C109, over floats with infinities and NaN (C90's adaptive call on a walled target); `Spec.WallMisses` | `wall_hits`: a flow proposal reaches a region with at least `1/C` of its truncated probability from any point (`wall_minorise`), MALA steps keep what is covered; then as C109 |
| C114 | `AdamOptimization` (`Model/Adam.lean`) over the reals | The bias-corrected moments are written as weighted averages of the gradients along the path; the path stays within a constant times the learning rate of the start, so by continuity each average tends to the gradient at the start times the average of the noise factors (`C114_pace`, `C114_gain`); signs give `C114_which_way`, `C114_climbs`; the probability statements use independence of the normal draws at the step keys (`C114_noise`); `C114_overshoots` is the counterexample for large learning rates. |
| C115 | `NFModel.train` (`Model/Train.lean`) with `gradStep` (`Model/TrainStep.lean`) and the AdamW optimizer (`Model/Optimizer.lean`) over the reals; loss and gradient arbitrary | Induction on the steps: moments and parameters converge as the learning rate tends to zero (`C115_rate`); first-order expansion orders the losses, and C48 (first best snapshot) tells which model is returned (`C115_improves`, `C115_decay`); `C115_when` is the explicit condition on the weights; `C115_memory` is the counterexample for a used optimizer. |
| C116 | the three local kernels (`Model/Kernels.lean`), `serialSample`, `TakeSteps.run`, over the reals | Algebra: the two-row leapfrog table is the Langevin proposal, and the difference of the Hamiltonians is the MALA ratio (`C116_step`); induction over the trajectory for flat densities (`C116_flat_hmc`); induction over the scan (`C116_serial`); frame lemmas for a heap with another kernel (`C116_take_steps`). |
| C117 | `exchBody`, `exchScan`, `exchange`, `ParallelTempering.run`, the production phase of `ptBundle`; spec `Spec/Rungs` | Induction over the sweep: what it has passed it does not touch again, so index r is decided by indices up to r+1 (`C117_sees`, `C117_one_rung`); sign of the exchange ratio (`C117_certain`, `C117_best_moves`); relational induction over the strategies with C84 and the frame C58 (`C117_call`, `C117_production`). |
| C118 | `TakeSteps.run` with the kernels and `groupSample`, as recorded in the position buffer; `Lemmas/Paths` (expected products along a trajectory) | The expected product of functions of the successive rows is an iterated integral (induction over the steps, for serial and group sampling); detailed balance makes the step self-adjoint, so that the iterated integral can be turned round (`C118_backwards`); invariance lets leading factors of one be dropped (`C118_stationary`); boxes determine joint distributions. |
| C119 | `TakeSteps.run` (recorded rows, returned positions, cursor), repeated; `Lemmas/Paths` | Induction over the calls: the trajectory so far is a weight that the draws of the next call do not influence, and the iterated integral of m calls is that of the concatenated trajectory (`calls_path`); one long call is the case m = 1, and trajectories with the same start law have the same law (`C119_thinned`, `C119_split`). |
| C120 | as C118 | The rows of the unthinned call fall into t classes, those of the longer call into m blocks, each distributed as the rows of the thinned or shorter call (`IsPath.pick_law`, stationarity); Jensen (`C120_thinning`, `C120_longer`). |
| C121 | as C118 | With T the expectation after as many steps as the thinning, autocovariances are <g, T^l g>; T is self-adjoint (reversibility), so even lags are squares, and 1+T and 1-T are positive because E(g(Z0) +- g(Zt))^2 >= 0; applied to T^k g and (1+T) T^k g, in [0,∞]-valued parts (`Lemmas/Autocov`, `C121_autocovariances`). |
| C122 | as C118, with `grwStep` and `nfBody` | Accepted moves have the kernel min(w(x), w(y)) (with respect to the flow, or from the middle of a random walk move: `walk_middle`), an integral of products 1[s<w(x)] 1[s<w(y)], hence positive (`min_form`, `metropolis_positive`); then all lags, convexity from (1-T)T^l(1-T), monotonicity from C121 and convexity (`C122_positive`); the variance of the average has only non-negative off-diagonal terms (`C122_effective_size`). |
| C123 | as C122, for flow proposals | A covered step is at least 1/B times a fresh draw from the target (`flow_refreshes`, from the minorisation of C71), so the expected squared change of a centred function is at least 1/B of that between independent points (`lagReal_gap`); iterated on the averaged function for even lags, and by positivity (C122) for odd lags (`lagReal_geometric`); the sum of the geometric bounds over all pairs of rows gives the error of the average (`sum_distances`); Chebyshev gives the number of rows needed (`C123_how_many`); B=1 with C122 gives equality (`C123_perfect`). |
| C124 | `exchange`, `exchScan`, `exchBody`, `adaptTemperature` | Acceptance of one pair from C21; induction over the sweep with the travelling walker (`exchScan_true`), permutation of the log-likelihoods and a union bound over the draws of the sweep (`C124_close`); induction over the ladder (`C124_adaptation`). |
| C125 | as C118, for all chains of a call | The law of the rows of one chain holds with any weight known without the chain's own keys (`StepperPaths`); applied to the second chain with the first one's rows as weight, then to the first with the second's start as weight (`two_chains`); cross terms of the pooled error vanish (`C125_pooled`); with C123 (`C125_flow`); Chebyshev (`C125_error_bars`); with C122 (`C125_at_most`); with C120 (`C125_thinning`, `C125_longer`). The squared errors are also shown integrable, so no integral is a junk value. |

No property is out of reach of an executable model; those whose truth involves floating point
rounding or PRNG quality are stated for exact arithmetic / an ideal generator as described above.
