import Verif.Model.Resource
/-
Model of /repo/src/flowMC/resource/kernel/{Gaussian_random_walk,MALA,HMC,NF_proposal}.py

Every local kernel is split in two definitions: `…Step`, a pure function of explicit random
draws (a standard normal vector `ξ` and a uniform number `u`), and `…Kernel`, which obtains the draws
from keys exactly as the code does.
-/
namespace FlowMC

variable {F D : Type} {d : Nat}

/-- What a kernel returns: `position, log_prob, do_accept`. -/
structure StepOut (F : Type) (d : Nat) where
  pos : Pos F d
  logp : F
  acc : Bool

/-- `log_uniform < ratio` with `log_uniform = jnp.log(uniform)`; the acceptance test shared by all
kernels (Gaussian_random_walk.py:56-57, MALA.py:83-84, HMC.py:144-146, NF_proposal.py:103-104,
parallel_tempering.py:322-323). -/
def acceptTest [Transc F] [FCmp F] (u ratio : F) : Bool := FCmp.blt (Transc.log u) ratio

/-! ### GaussianRandomWalk -/

/-- Gaussian_random_walk.py:49-53: `proposal = position + normal * step_size`. -/
def grwProposal [Add F] [Mul F] (step : F) (x ξ : Pos F d) : Pos F d := fun i => x i + ξ i * step

/-- Gaussian_random_walk.py:48-61 with explicit draws. -/
def grwStep [Add F] [Mul F] [Sub F] [Transc F] [FCmp F] (step : F) (t : Target F D d) (data : Data D)
    (ξ : Pos F d) (u : F) (x : Pos F d) (lp : F) : StepOut F d :=
  let proposal := grwProposal step x ξ
  let plp := t.val proposal data
  let acc := acceptTest u (plp - lp)
  { pos := if acc then proposal else x
    logp := if acc then plp else lp
    acc := acc }

/-- Gaussian_random_walk.py:25-61. -/
def grwKernel [Add F] [Mul F] [Sub F] [Transc F] [FCmp F] (rng : Rng F) (step : F) (k : Key)
    (x : Pos F d) (lp : F) (t : Target F D d) (data : Data D) : StepOut F d :=
  let ks := split k
  grwStep step t data (rng.normal ks.1 d) (rng.uniform ks.2) x lp

/-! ### MALA -/

/-- The literal `2`. -/
def two [One F] [Add F] : F := 1 + 1

/-- `v / 2 * dt²` drift: `position + jnp.dot(dt2, grad) / 2` (MALA.py:60, 77, 80). -/
def malaMean [One F] [Add F] [Mul F] [Div F] (dt : F) (x g : Pos F d) : Pos F d :=
  fun i => x i + dt * dt * g i / two

/-- MALA.py:57-64, the proposal part of `body`. -/
def malaProposal [One F] [Add F] [Mul F] [Div F] (dt : F) (x g ξ : Pos F d) : Pos F d :=
  fun i => malaMean dt x g i + dt * ξ i

/-- `jax.scipy.stats.multivariate_normal.logpdf(x, mean, cov)` for a scalar covariance `c`:
`-1/2 * Σ (x-mean)² / c - d/2 * (log 2π + log c)` (jax's special case for scalar `cov`). -/
def isoNormLogpdf [Zero F] [One F] [Add F] [Mul F] [Div F] [Sub F] [Neg F] [NatCast F] [Transc F]
    (x mean : Pos F d) (c : F) : F :=
  -(1 / two) * sumFin (fun i => (x i - mean i) * (x i - mean i)) / c
    - (d : F) / two * (Transc.log (two * Transc.pi) + Transc.log c)

/-- MALA.py:75-81: log acceptance ratio for `x → y`. -/
def malaRatio [Zero F] [One F] [Add F] [Mul F] [Div F] [Sub F] [Neg F] [NatCast F] [Transc F]
    (dt : F) (x y gx gy : Pos F d) (lpx lpy : F) : F :=
  lpy - lpx - isoNormLogpdf y (malaMean dt x gx) (dt * dt)
    + isoNormLogpdf x (malaMean dt y gy) (dt * dt)

/-- MALA.py:49-89 with explicit draws.  The scan of `body` over `[key1, key1]` evaluates value and
gradient at `position` and at the proposal; the second proposal it computes is never used.  The
incoming `log_prob` is ignored: the current value is recomputed (`logprob[0]`). -/
def malaStep [Zero F] [One F] [Add F] [Mul F] [Div F] [Sub F] [Neg F] [NatCast F] [Transc F] [FCmp F]
    (dt : F) (t : Target F D d) (data : Data D) (ξ : Pos F d) (u : F) (x : Pos F d) (_lp : F) :
    StepOut F d :=
  let lp0 := t.val x data
  let g0 := t.grad x data
  let proposal := malaProposal dt x g0 ξ
  let lp1 := t.val proposal data
  let g1 := t.grad proposal data
  let acc := acceptTest u (malaRatio dt x proposal g0 g1 lp0 lp1)
  { pos := if acc then proposal else x
    logp := if acc then lp1 else lp0
    acc := acc }

/-- MALA.py:26-89. -/
def malaKernel [Zero F] [One F] [Add F] [Mul F] [Div F] [Sub F] [Neg F] [NatCast F] [Transc F] [FCmp F]
    (rng : Rng F) (dt : F) (k : Key)
    (x : Pos F d) (lp : F) (t : Target F D d) (data : Data D) : StepOut F d :=
  let ks := split k
  malaStep dt t data (rng.normal ks.1 d) (rng.uniform ks.2) x lp

/-! ### HMC -/

/-- A matrix such as `condition_matrix` (HMC.py:21). -/
abbrev Mat (F : Type) (d : Nat) := Fin d → Fin d → F

/-- HMC.py:47-50: row `i` of the coefficient table with `n_leapfrog + 2` rows:
`[0, .5]`, `[1, 1]`, …, `[1, 1]`, `[1, .5]`. -/
def leapfrogCoef [Zero F] [One F] [Add F] [Div F] (nLeap i : Nat) : F × F :=
  if i = nLeap + 1 then (1, 1 / two) else if i = 0 then (0, 1 / two) else (1, 1)

/-- HMC.py:118-121: `0.5 * (p**2 * metric).sum()`.  `p` has shape `(d,)` and `metric` `(d, d)`, so
broadcasting multiplies `p_j²` by `metric[i, j]` and sums over both indices. -/
def hmcKinetic [Zero F] [One F] [Add F] [Mul F] [Div F] (metric : Mat F d) (p : Pos F d) : F :=
  1 / two * sumFin (fun i => sumFin (fun j => p j * p j * metric i j))

/-- `jax.grad(kinetic)` of the function above: `p_j * Σ_i metric[i, j]`. -/
def hmcKineticGrad [Zero F] [Add F] [Mul F] (metric : Mat F d) (p : Pos F d) : Pos F d :=
  fun j => p j * sumFin (fun i => metric i j)

/-- HMC.py:71-80: one application of `leapfrog_kernel` at `index`; `gU` is the gradient of the
potential `-logpdf`. -/
def leapfrogBody [Zero F] [One F] [Add F] [Mul F] [Div F] [Sub F] (ε : F) (nLeap : Nat) (metric : Mat F d)
    (gU : Pos F d → Pos F d) (index : Nat) (xp : Pos F d × Pos F d) : Pos F d × Pos F d :=
  let c := leapfrogCoef (F := F) nLeap index
  let x' : Pos F d := fun i => xp.1 i + ε * c.1 * hmcKineticGrad metric xp.2 i
  let p' : Pos F d := fun i => xp.2 i - ε * c.2 * gU x' i
  (x', p')

/-- HMC.py:82-96: scan of the leapfrog body over `index = 0 … n_leapfrog + 1`. -/
def leapfrogStep [Zero F] [One F] [Add F] [Mul F] [Div F] [Sub F] (ε : F) (nLeap : Nat) (metric : Mat F d)
    (gU : Pos F d → Pos F d) (xp : Pos F d × Pos F d) : Pos F d × Pos F d :=
  (List.range (nLeap + 2)).foldl (fun s i => leapfrogBody ε nLeap metric gU i s) xp

/-- HMC.py:133-136: `jnp.dot(z, L.T)` with `L = cholesky(inv(condition_matrix))`, i.e. `L z`. -/
def hmcMomentum [Zero F] [Add F] [Mul F] (L : Mat F d) (z : Pos F d) : Pos F d :=
  fun i => sumFin (fun j => z j * L i j)

/-- HMC.py:115-151 with explicit draws (`z` normal, `u` uniform).  `L` stands for
`cholesky(inv(condition_matrix))`.  The first value of `momentum` (HMC.py:130-132) is dead code. -/
def hmcStep [Zero F] [One F] [Add F] [Mul F] [Div F] [Sub F] [Neg F] [Transc F] [FCmp F]
    (ε : F) (nLeap : Nat) (metric L : Mat F d) (t : Target F D d) (data : Data D)
    (z : Pos F d) (u : F) (x : Pos F d) (lp : F) : StepOut F d :=
  let p := hmcMomentum L z
  let H := -lp + hmcKinetic metric p
  let q := leapfrogStep ε nLeap metric (fun y => fun i => -(t.grad y data i)) (x, p)
  let pe := -(t.val q.1 data)
  let H' := pe + hmcKinetic metric q.2
  let acc := acceptTest u (H - H')
  { pos := if acc then q.1 else x
    logp := if acc then -pe else lp
    acc := acc }

/-- HMC.py:98-151. -/
def hmcKernel [Zero F] [One F] [Add F] [Mul F] [Div F] [Sub F] [Neg F] [Transc F] [FCmp F] (rng : Rng F)
    (ε : F) (nLeap : Nat) (metric L : Mat F d) (k : Key) (x : Pos F d) (lp : F)
    (t : Target F D d) (data : Data D) : StepOut F d :=
  let ks := split k
  hmcStep ε nLeap metric L t data (rng.normal ks.1 d) (rng.uniform ks.2) x lp

/-! ### NFProposal -/

/-- Operations of a normalizing-flow resource used by NFProposal and TrainModel:
`model.sample(key, n)`, `model.log_prob(x)`, one optimiser step `train_step(batch)` returning loss,
model and optimiser state, and the assignment of `data_mean`/`data_cov` (nf_model/base.py).  The two
concrete flows are modelled in `Model/RealNVP.lean` and `Model/RQSpline.lean`. -/
structure FlowOps (F : Type) (d : Nat) (M O : Type) where
  sample : M → Key → Nat → List (Pos F d)
  logProb : M → Pos F d → F
  trainStep : M → O → List (Pos F d) → F × M × O
  setStats : M → List (Pos F d) → M

/-- `model.sample(key, n)` returns `n` rows. -/
def FlowOps.Lawful {M O : Type} (ops : FlowOps F d M O) : Prop :=
  ∀ m k n, (ops.sample m k n).length = n

/-- NF_proposal.py:141-159: scan over `nBatch` batches; batch keys come from repeated splitting. -/
def flowBatches {M O : Type} (ops : FlowOps F d M O) (m : M) (nSample : Nat) :
    Nat → Key → List (List (Pos F d))
  | 0, _ => []
  | n + 1, k =>
    let ks := split k
    ops.sample m ks.2 nSample :: flowBatches ops m nSample n ks.1

/-- NF_proposal.py:130-172 `sample_flow`: proposals with their flow log-densities.  (The two
`reshape`s to `n_steps` rows raise if the model returns a different number of rows; with a lawful
model they do nothing.) -/
def sampleFlow {M O : Type} (ops : FlowOps F d M O) (m : M) (batch : Nat) (k : Key) (nSteps : Nat) :
    List (Pos F d × F) :=
  if batch < nSteps then
    let nBatch := ceilDiv' nSteps batch
    let nSample := ceilDiv' nSteps nBatch
    let props := (flowBatches ops m nSample nBatch k).map (fun b => b.map (fun x => (x, ops.logProb m x)))
    props.flatten.take nSteps
  else
    (ops.sample m k nSteps).map (fun x => (x, ops.logProb m x))

/-- Cut a list into `n` consecutive pieces of length `b` (`reshape(n, b, …)`). -/
def chunks {α : Type} (b : Nat) : Nat → List α → List (List α)
  | 0, _ => []
  | n + 1, xs => xs.take b :: chunks b n (xs.drop b)

/-- NF_proposal.py:50-89: target log-densities of all proposals, evaluated batch by batch: `n_batch-1`
full batches and one remainder (`dynamic_slice_in_dim`, whose window always fits here). -/
def proposedLogProbs (t : Target F D d) (data : Data D) (batch nSteps : Nat) (props : List (Pos F d)) :
    List F :=
  if batch < nSteps then
    let nBatch := ceilDiv' props.length batch
    let full := chunks batch (nBatch - 1) (props.take ((nBatch - 1) * batch))
    let lps := (full.map (fun b => b.map (fun x => t.val x data))).flatten
    let rest := (props.drop ((nBatch - 1) * batch)).take (nSteps - (nBatch - 1) * batch)
    lps ++ rest.map (fun x => t.val x data)
  else
    props.map (fun x => t.val x data)

/-- Carry of the accept/reject scan (NF_proposal.py:92-97). -/
structure NFCarry (F : Type) (d : Nat) where
  pos : Pos F d
  logp : F
  lognf : F

/-- NF_proposal.py:98-115 with an explicit uniform draw. -/
def nfBody [Sub F] [Transc F] [FCmp F] (u : F) (c : NFCarry F d) (prop : Pos F d × F × F) :
    NFCarry F d × StepOut F d :=
  let ratio := (prop.2.1 - c.logp) - (prop.2.2 - c.lognf)
  let acc := acceptTest u ratio
  let c' : NFCarry F d :=
    { pos := if acc then prop.1 else c.pos
      logp := if acc then prop.2.1 else c.logp
      lognf := if acc then prop.2.2 else c.lognf }
  (c', { pos := c'.pos, logp := c'.logp, acc := acc })

/-- NF_proposal.py:91-126: the scan, with the key split at every step. -/
def nfScan [Sub F] [Transc F] [FCmp F] (rng : Rng F) (k : Key) (c : NFCarry F d)
    (props : List (Pos F d × F × F)) : List (StepOut F d) :=
  (scan (fun (s : Key × NFCarry F d) (p : Pos F d × F × F) =>
      let ks := split s.1
      let r := nfBody (rng.uniform ks.2) s.2 p
      ((ks.1, r.1), r.2)) (k, c) props).2

/-- NF_proposal.py:27-128: the whole kernel; `data["n_steps"]` missing raises `KeyError`, a zero
batch size raises `ZeroDivisionError` when `n_steps > 0`. -/
def nfKernel {M O : Type} [Sub F] [Transc F] [FCmp F] (rng : Rng F) (ops : FlowOps F d M O) (m : M)
    (batch : Nat) (k : Key) (x : Pos F d) (lp : F) (t : Target F D d) (data : Data D) :
    Except Err (List (StepOut F d)) :=
  match data.nSteps with
  | none => .error .keyError
  | some nSteps =>
    if batch = 0 ∧ 0 < nSteps then .error .zeroDivision else
    let ks := split k
    let nfCurrent := ops.logProb m x
    let props := sampleFlow ops m batch ks.2 nSteps
    let lps := proposedLogProbs t data batch nSteps (props.map (·.1))
    let triples := (props.zip lps).map (fun pl => (pl.1.1, pl.2, pl.1.2))
    .ok (nfScan rng ks.1 ⟨x, lp, nfCurrent⟩ triples)

end FlowMC
