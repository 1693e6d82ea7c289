import Verif.Model.Train
import Verif.Model.Tempering
/-
Model of /repo/src/flowMC/strategy/{take_steps,train_model,update_state,lambda_function,
parallel_tempering,optimization}.py on a heap of named resources.
-/
namespace FlowMC

/-- The kernels that can be stored as resources (subclasses of `ProposalBase`). For HMC,
`chol` stands for `cholesky(inv(condition_matrix))`. -/
inductive KernelRes (F : Type) (d : Nat) (M : Type)
  | grw (stepSize : F)
  | mala (stepSize : F)
  | hmc (stepSize : F) (nLeap : Nat) (metric chol : Mat F d)
  | nf (model : M) (batchSize : Nat)

/-- Values of the `resources` dictionary. -/
inductive Resource (F D : Type) (d : Nat) (M O : Type)
  | buffer (b : Buffer F)
  | state (s : State)
  | logpdf (l : LogPDF F D d)
  | tempered (l : TemperedPDF F D d)
  | kernel (k : KernelRes F d M)
  | model (m : M)
  | optimizer (o : O)

/-- All mutable objects: the resource dictionary and the `current_position` attribute of every step
strategy (keyed by an object identifier).  Distinct names denote distinct objects. -/
structure Heap (F D : Type) (d : Nat) (M O : Type) where
  res : String → Option (Resource F D d M O)
  pos : String → Nat

/-- External operations the strategies depend on: the PRNG, the flow, and the literal `1e9`. -/
structure Env (F D : Type) (d : Nat) (M O : Type) where
  rng : Rng F
  ops : FlowOps F d M O
  big : F

section
variable {F D : Type} {d : Nat} {M O : Type}

/-- `resources[name] = r` (train_model.py:106-110; an in-place change of a resource object is modelled by the same assignment). -/
def Heap.setRes (h : Heap F D d M O) (name : String) (r : Resource F D d M O) : Heap F D d M O :=
  { h with res := dictSet h.res name r }

/-- `strategy.current_position = n`. -/
def Heap.setPos (h : Heap F D d M O) (id : String) (n : Nat) : Heap F D d M O :=
  { h with pos := fun i => if i = id then n else h.pos i }

/-- Result of a python call: a value or an exception, and the heap as it was left. -/
abbrev PyRes (F D : Type) (d : Nat) (M O : Type) (α : Type) := Except Err α × Heap F D d M O

/-! #### resource lookups (`resources[name]` followed by `assert isinstance`) -/

/-- `resources[name]` (take_steps.py:100-101, train_model.py:58-62): `KeyError` if there is none. -/
def Heap.get (h : Heap F D d M O) (name : String) : Except Err (Resource F D d M O) :=
  match h.res name with
  | some r => .ok r
  | none => .error .keyError

/-- take_steps.py:74-76, parallel_tempering.py:85, update_state.py:42-44: the lookup and the assertion that it is a `State`. -/
def Heap.getState (h : Heap F D d M O) (name : String) : Except Err State :=
  match h.get name with
  | .ok (.state s) => .ok s
  | .ok _ => .error .assertionError
  | .error e => .error e

/-- take_steps.py:90-98, train_model.py:60-61 and 100-103, parallel_tempering.py:78-84: the lookup and the assertion that it is a `Buffer`. -/
def Heap.getBuffer (h : Heap F D d M O) (name : String) : Except Err (Buffer F) :=
  match h.get name with
  | .ok (.buffer b) => .ok b
  | .ok _ => .error .assertionError
  | .error e => .error e

/-- Looks up `state.data[buffer_names[i]]` and asserts that it is a string
(take_steps.py:78-88). -/
def bufferTarget (s : State) (names : List String) (i : Nat) : Except Err String :=
  match names[i]? with
  | none => .error .indexError
  | some key =>
    match s.data key with
    | none => .error .keyError
    | some (.str n) => .ok n
    | some _ => .error .assertionError

/-- `buffer.update_buffer(upd, start)` on the buffer object stored under `name`, in place. -/
def Heap.updateBuffer (h : Heap F D d M O) (name : String) (upd : NDArr F) (start : Int) :
    PyRes F D d M O Unit :=
  match h.getBuffer name with
  | .error e => (.error e, h)
  | .ok b =>
    match b.updateBuffer upd start with
    | .error e => (.error e, h)
    | .ok b' => (.ok (), h.setRes name (.buffer b'))

end

section
variable {F D : Type} {d : Nat} {M O : Type}
  [Zero F] [One F] [Add F] [Mul F] [Div F] [Sub F] [Neg F] [NatCast F] [Transc F] [FCmp F]

/-- The `kernel` method of a local kernel; the flow kernel has a different result shape, which makes
`jax.lax.scan` raise (carry type mismatch). -/
def KernelRes.local? (rng : Rng F) : KernelRes F d M → Option (LocalKernel F D d)
  | .grw s => some (fun k x lp t data => grwKernel rng s k x lp t data)
  | .mala s => some (fun k x lp t data => malaKernel rng s k x lp t data)
  | .hmc s n metric L => some (fun k x lp t data => hmcKernel rng s n metric L k x lp t data)
  | .nf _ _ => none

/-- take_steps.py:164-180 `TakeSerialSteps.sample`. -/
def serialSample (K : LocalKernel F D d) (t : Target F D d) (data : Data D) (n : Nat) (k : Key)
    (x : Pos F d) : List (StepOut F d) :=
  (scanN (localBody K t data) n (k, x, t.val x data)).2

/-- take_steps.py:191-206 `TakeGroupSteps.sample`: one kernel call with `data ∪ {"n_steps": n}`; the
initial log-density is evaluated with the original `data`. -/
def groupSample (env : Env F D d M O) (m : M) (batch : Nat) (t : Target F D d) (data : Data D) (n : Nat)
    (k : Key) (x : Pos F d) : Except Err (List (StepOut F d)) :=
  nfKernel env.rng env.ops m batch k x (t.val x data) t { data with nSteps := some n }

/-- take_steps.py:147 and 183: the two subclasses `TakeSerialSteps` and `TakeGroupSteps`. -/
inductive StepKind | serial | group
  deriving DecidableEq, Repr

/-- take_steps.py:14-44 (the `verbose` flag is not modelled). `ident` identifies the object, for its mutable
`current_position`. -/
structure TakeSteps where
  kind : StepKind
  ident : String
  logpdfName : String
  kernelName : String
  stateName : String
  bufferNames : List String
  nSteps : Nat
  thinning : Nat := 1
  chainBatchSize : Nat := 0

/-- The callable target of a resource used as `logpdf` (a `LogPDF` or its subclass `TemperedPDF`,
whose `__call__` is the untempered likelihood). -/
def Resource.target? : Resource F D d M O → Option (Target F D d)
  | .logpdf l => some l.logPdf
  | .tempered l => some l.base.logPdf
  | _ => none

/-- The per-chain sampling function `Partial(self.sample, kernel)` (take_steps.py:116, 129).  A
`TakeSerialSteps` needs a local kernel and a `TakeGroupSteps` the flow kernel; with the other kind JAX
raises while tracing (scan carry mismatch, resp. too many indices in the thinning slice). -/
def TakeSteps.sampler (env : Env F D d M O) (s : TakeSteps) (kr lr : Resource F D d M O) (data : Data D) :
    Except Err (Key → Pos F d → Except Err (List (StepOut F d))) :=
  match kr, lr.target? with
  | .kernel kr, some t =>
    match s.kind, kr with
    | .group, .nf m batch => .ok (fun k x => groupSample env m batch t data s.nSteps k x)
    | .group, _ => .error .indexError
    | .serial, kr =>
      match kr.local? (D := D) env.rng with
      | some K => .ok (fun k x => .ok (serialSample K t data s.nSteps k x))
      | none => .error .typeError
  | _, _ => .error .typeError

/-- `[f(x) for x in xs]` where `f` may raise (stand-in for `vmap`). -/
def mapE {α β : Type} (f : α → Except Err β) : List α → Except Err (List β)
  | [] => .ok []
  | x :: xs =>
    match f x with
    | .error e => .error e
    | .ok y =>
      match mapE f xs with
      | .error e => .error e
      | .ok ys => .ok (y :: ys)

/-- `for i in range(0, n, b): … xs[i : min(i+b, n)] …; concatenate` (take_steps.py:110-125); `fuel`
bounds the number of batches by the number of chains. -/
def batchedMapE {α β : Type} (f : α → Except Err β) (b : Nat) : Nat → List α → Except Err (List β)
  | 0, _ => .ok []
  | fuel + 1, xs =>
    if xs.isEmpty then .ok [] else
    match mapE f (xs.take b) with
    | .error e => .error e
    | .ok ys =>
      match batchedMapE f b fuel (xs.drop b) with
      | .error e => .error e
      | .ok zs => .ok (ys ++ zs)

/-- take_steps.py:103-132: run all chains, possibly in batches of chains. -/
def runChains {β : Type} (f : Key → Pos F d → Except Err β) (batch : Nat) (keys : List Key)
    (xs : List (Pos F d)) : Except Err (List β) :=
  let args := keys.zip xs
  let g := fun (a : Key × Pos F d) => f a.1 a.2
  if 1 < batch ∧ batch < xs.length then batchedMapE g batch xs.length args else mapE g args

/-- Everything take_steps.py:71-138 computes before it touches a buffer. -/
structure StepPlan (F : Type) (d : Nat) where
  posName : String
  lpName : String
  accName : String
  outKey : Key
  rows : List (List (StepOut F d))

/-- take_steps.py:71-138: keys, lookups, sampling and thinning; changes nothing. -/
def TakeSteps.plan (env : Env F D d M O) (s : TakeSteps) (k : Key) (xs : List (Pos F d)) (data : Data D)
    (h : Heap F D d M O) : Except Err (StepPlan F d) := do
  let ks := split k
  let keys := splitN ks.2 xs.length
  let st ← h.getState s.stateName
  let posName ← bufferTarget st s.bufferNames 0
  let lpName ← bufferTarget st s.bufferNames 1
  let accName ← bufferTarget st s.bufferNames 2
  let _ ← h.getBuffer posName
  let _ ← h.getBuffer lpName
  let _ ← h.getBuffer accName
  let kr ← h.get s.kernelName
  let lr ← h.get s.logpdfName
  let f ← s.sampler env kr lr data
  let rows ← runChains f s.chainBatchSize keys xs
  if s.thinning = 0 then .error .valueError
  .ok { posName, lpName, accName, outKey := ks.1, rows := rows.map (everyNth s.thinning) }

variable [BufNum F]

/-- Number of recorded rows, `len(range(0, n, t))`. -/
def TakeSteps.nRows (s : TakeSteps) : Nat := ceilDiv' s.nSteps s.thinning

/-- `positions` after thinning, shape `(n_chains, rows, d)` (take_steps.py:134). -/
def posArr (n m : Nat) (rows : List (List (StepOut F d))) : NDArr F :=
  arr3 BufNum.negInf n m (rows.map (fun r => r.map (·.pos)))

/-- `log_probs` after thinning (take_steps.py:135). -/
def lpArr (n m : Nat) (rows : List (List (StepOut F d))) : NDArr F :=
  arr2 BufNum.negInf n m (rows.map (fun r => r.map (·.logp)))

/-- `do_accepts` after thinning, cast to the buffer's float type (take_steps.py:136-138). -/
def accArr (n m : Nat) (rows : List (List (StepOut F d))) : NDArr F :=
  arr2 BufNum.negInf n m (rows.map (fun r => r.map (fun o => BufNum.ofBool o.acc)))

/-- `positions[:, -1]` (take_steps.py:144); an empty axis raises. -/
def lastRows (rows : List (List (StepOut F d))) : Except Err (List (Pos F d)) :=
  mapE (fun r => match r.getLast? with
    | some o => Except.ok o.pos
    | none => Except.error Err.indexError) rows

/-- take_steps.py:140-144: the three buffer updates, the cursor, the result. -/
def TakeSteps.commit (s : TakeSteps) (nChains : Nat) (p : StepPlan F d) (h : Heap F D d M O) :
    PyRes F D d M O (Key × List (Pos F d)) :=
  let start : Int := (h.pos s.ident : Nat)
  match h.updateBuffer p.posName (posArr nChains s.nRows p.rows) start with
  | (.error e, h) => (.error e, h)
  | (.ok _, h) =>
    match h.updateBuffer p.lpName (lpArr nChains s.nRows p.rows) start with
    | (.error e, h) => (.error e, h)
    | (.ok _, h) =>
      match h.updateBuffer p.accName (accArr nChains s.nRows p.rows) start with
      | (.error e, h) => (.error e, h)
      | (.ok _, h) =>
        let h := h.setPos s.ident (h.pos s.ident + s.nSteps / s.thinning)
        match lastRows p.rows with
        | .error e => (.error e, h)
        | .ok xs => (.ok (p.outKey, xs), h)

/-- take_steps.py:60-144 `TakeSteps.__call__`. -/
def TakeSteps.run (env : Env F D d M O) (s : TakeSteps) (k : Key) (xs : List (Pos F d)) (data : Data D)
    (h : Heap F D d M O) : PyRes F D d M O (Key × List (Pos F d)) :=
  match s.plan env k xs data h with
  | .error e => (.error e, h)
  | .ok p => s.commit xs.length p h

/-! #### TrainModel (strategy/train_model.py) -/

/-- train_model.py:24-45. -/
structure TrainModel where
  modelName : String
  dataName : String
  optimizerName : String
  lossBufferName : String := ""
  nEpochs : Nat := 100
  batchSize : Nat := 64
  nMaxExamples : Nat := 10000
  historyWindow : Nat := 100

/-- Row `(i, j)` of a rank-3 array, as a vector. -/
def row3 (a : NDArr F) (i j : Nat) : Pos F d := fun k => a.get [i, j, k]

/-- train_model.py:68-70: the boolean mask `isfinite(data).all(axis=-1)` selects rows in row-major
order (chain after chain, step after step). -/
def finiteRows (a : NDArr F) (nChains nSteps : Nat) : List (Pos F d) :=
  (List.range nChains).flatMap (fun i =>
    ((List.range nSteps).map (fun j => (row3 a i j : Pos F d))).filter
      (fun v => (List.finRange d).all (fun k => BufNum.isFinite (v k))))

/-- train_model.py:68-71: `.reshape(n_chains, -1, n_dims)[:, -history_window:].reshape(-1, n_dims)`. The
reshape raises if the number of selected rows is not a multiple of the number of chains. -/
def trainingRows (a : NDArr F) (nChains nSteps window : Nat) : Except Err (List (Pos F d)) :=
  let rows : List (Pos F d) := finiteRows a nChains nSteps
  if nChains = 0 then .error .zeroDivision
  else if rows.length % nChains = 0 then
    .ok ((chunks (rows.length / nChains) nChains rows).flatMap (takeLast window))
  else .error .typeError

/-- train_model.py:58-59: the lookup and the assertion that it is an `NFModel`. -/
def Heap.getModel (h : Heap F D d M O) (name : String) : Except Err M :=
  match h.get name with
  | .ok (.model m) => .ok m
  | .ok _ => .error .assertionError
  | .error e => .error e

/-- train_model.py:62-65: the lookup and the assertion that it is an `Optimizer`. -/
def Heap.getOptimizer (h : Heap F D d M O) (name : String) : Except Err O :=
  match h.get name with
  | .ok (.optimizer o) => .ok o
  | .ok _ => .error .assertionError
  | .error e => .error e

/-- What train_model.py:58-97 computes before changing any resource. The data buffer is modelled for
rank 3 (`n_chains, n_steps, n_dims`), the shape of every position buffer. -/
def TrainModel.plan (env : Env F D d M O) (s : TrainModel) (k : Key) (h : Heap F D d M O) :
    Except Err (TrainResult F M O) := do
  let m ← h.getModel s.modelName
  let b ← h.getBuffer s.dataName
  let o ← h.getOptimizer s.optimizerName
  match b.data.shape with
  | [nChains, nSteps, dd] =>
    if dd = d then
      let rows ← trainingRows (d := d) b.data nChains nSteps s.historyWindow
      let ks := split k
      if rows.length = 0 then .error .valueError
      else
        let chosen := (env.rng.choice ks.2 rows.length s.nMaxExamples).filterMap (rows[·]?)
        let ks' := split ks.1
        train env.rng env.ops env.big ks'.2 m o chosen s.nEpochs s.batchSize
    else .error .typeError
  | _ => .error .typeError

/-- train_model.py:99-106: write the losses at the loss buffer's cursor and advance it. -/
def recordLosses (name : String) (losses : List F) (h : Heap F D d M O) : PyRes F D d M O Unit :=
  if name = "" then (.ok (), h) else
  match h.getBuffer name with
  | .error e => (.error e, h)
  | .ok b =>
    match b.updateBuffer (arr1 BufNum.negInf losses) (b.cursor : Nat) with
    | .error e => (.error e, h)
    | .ok b' => (.ok (), h.setRes name (.buffer { b' with cursor := b'.cursor + losses.length }))

/-- train_model.py:47-112 `TrainModel.__call__`. The returned key is the one `train` returns. -/
def TrainModel.run (env : Env F D d M O) (s : TrainModel) (k : Key) (xs : List (Pos F d))
    (h : Heap F D d M O) : PyRes F D d M O (Key × List (Pos F d)) :=
  match s.plan env k h with
  | .error e => (.error e, h)
  | .ok r =>
    match recordLosses s.lossBufferName r.losses h with
    | (.error e, h) => (.error e, h)
    | (.ok _, h) =>
      let h := h.setRes s.modelName (.model r.model)
      let h := h.setRes s.optimizerName (.optimizer r.state)
      (.ok (r.rng, xs), h)

/-! #### UpdateState (strategy/update_state.py) -/

/-- update_state.py:16-28: the constructor arguments. -/
structure UpdateState where
  stateName : String
  keys : List String
  values : List SVal

/-- update_state.py:30-47. -/
def UpdateState.run (s : UpdateState) (k : Key) (xs : List (Pos F d)) (h : Heap F D d M O) :
    PyRes F D d M O (Key × List (Pos F d)) :=
  match h.getState s.stateName with
  | .error e => (.error e, h)
  | .ok st => (.ok (k, xs), h.setRes s.stateName (.state (st.update s.keys s.values)))

/-! #### Lambda (strategy/lambda_function.py) -/

/-- A python callable given to `Lambda`: may change the heap and may raise; its value is discarded. -/
abbrev LambdaFn (F D : Type) (d : Nat) (M O : Type) :=
  Key → List (Pos F d) → Data D → Heap F D d M O → PyRes F D d M O Unit

/-- lambda_function.py:25-37. -/
def runLambda (f : LambdaFn F D d M O) (k : Key) (xs : List (Pos F d)) (data : Data D)
    (h : Heap F D d M O) : PyRes F D d M O (Key × List (Pos F d)) :=
  match f k xs data h with
  | (.error e, h) => (.error e, h)
  | (.ok _, h) => (.ok (k, xs), h)

/-! #### ParallelTempering (strategy/parallel_tempering.py) -/

/-- parallel_tempering.py:25-45. -/
structure ParallelTempering where
  nSteps : Nat
  temperedLogpdfName : String
  kernelName : String
  bufferNames : List String
  stateName : String

/-- parallel_tempering.py:74: the lookup and the assertion that it is a `ProposalBase`. -/
def Heap.getKernel (h : Heap F D d M O) (name : String) : Except Err (KernelRes F d M) :=
  match h.get name with
  | .ok (.kernel k) => .ok k
  | .ok _ => .error .assertionError
  | .error e => .error e

/-- parallel_tempering.py:75-77: the lookup and the assertion that it is a `TemperedPDF`. -/
def Heap.getTempered (h : Heap F D d M O) (name : String) : Except Err (TemperedPDF F D d) :=
  match h.get name with
  | .ok (.tempered l) => .ok l
  | .ok _ => .error .assertionError
  | .error e => .error e

/-- Look up the `i`-th configured buffer name. -/
def nthName (names : List String) (i : Nat) : Except Err String :=
  match names[i]? with
  | some n => .ok n
  | none => .error .indexError

/-- parallel_tempering.py:70-123: result of the computation of a tempering call before any resource changes. -/
structure PTPlan (F : Type) (d : Nat) where
  posName : String
  tempName : String
  outKey : Key
  positions : List (List (Pos F d))
  newTemps : List F
  training : Bool

/-- python truth value of a state entry. -/
def SVal.truthy : SVal → Bool
  | .int i => i ≠ 0
  | .bool b => b
  | .str s => s ≠ ""

/-- parallel_tempering.py:87-90: `concatenate([initial_position[:, None, :], tempered], axis=1)`. -/
def withReplicas (xs : List (Pos F d)) (a : NDArr F) (nRep : Nat) : List (List (Pos F d)) :=
  xs.zipIdx.map (fun xi => xi.1 :: (List.range nRep).map (fun j => (row3 a xi.2 j : Pos F d)))

/-- parallel_tempering.py:73-128 up to the first buffer update. A kernel that is not local
(the flow kernel) makes the scan raise; shape mismatches raise in `concatenate`/`vmap`.
`state.data["training"]` is read at the end (a missing key raises `KeyError`). -/
def ParallelTempering.plan (env : Env F D d M O) (s : ParallelTempering) (k : Key) (xs : List (Pos F d))
    (data : Data D) (h : Heap F D d M O) : Except Err (PTPlan F d) := do
  let k1 := (split k).1
  let kr ← h.getKernel s.kernelName
  let l ← h.getTempered s.temperedLogpdfName
  let posName ← nthName s.bufferNames 0
  let pb ← h.getBuffer posName
  let tempName ← nthName s.bufferNames 1
  let tb ← h.getBuffer tempName
  let st ← h.getState s.stateName
  match kr.local? (D := D) env.rng, pb.data.shape, tb.data.shape with
  | some K, [nChains, nRep, dd], [nTemps] =>
    if nChains = xs.length ∧ dd = d ∧ nTemps = nRep + 1 then
      let Ts := (List.range nTemps).map (fun i => tb.data.get [i])
      let reps := withReplicas xs pb.data nRep
      let ks := split k1
      let moved := ((splitN ks.2 xs.length).zip reps).map
        (fun a => ensembleStep K l data s.nSteps a.1 a.2 Ts)
      let ks' := split ks.1
      let exch := ((splitN ks'.2 xs.length).zip moved).map (fun a => exchange env.rng l data Ts a.1 a.2)
      match st.data "training" with
      | none => .error .keyError
      | some v =>
        .ok { posName, tempName, outKey := ks'.1
              positions := exch.map (fun e => e.1.positions)
              newTemps := adaptTemperature Ts (exch.map (·.2))
              training := v.truthy }
    else .error .typeError
  | _, _, _ => .error .typeError

/-- `positions[:, 0]` (parallel_tempering.py:133). -/
def coldRow (ps : List (List (Pos F d))) : List (Pos F d) := ps.filterMap (·.head?)

/-- parallel_tempering.py:47-133 `ParallelTempering.__call__`. -/
def ParallelTempering.run (env : Env F D d M O) (s : ParallelTempering) (k : Key) (xs : List (Pos F d))
    (data : Data D) (h : Heap F D d M O) : PyRes F D d M O (Key × List (Pos F d)) :=
  match s.plan env k xs data h with
  | .error e => (.error e, h)
  | .ok p =>
    if p.training then
      match h.updateBuffer p.posName
          (arr3 BufNum.negInf xs.length (p.newTemps.length - 1) (p.positions.map (·.tail))) 0 with
      | (.error e, h) => (.error e, h)
      | (.ok _, h) =>
        match h.updateBuffer p.tempName (arr1 BufNum.negInf p.newTemps) 0 with
        | (.error e, h) => (.error e, h)
        | (.ok _, h) => (.ok (p.outKey, coldRow p.positions), h)
    else (.ok (p.outKey, coldRow p.positions), h)

/-! #### AdamOptimization (strategy/optimization.py) -/

/-- An optax solver on a position: state, `init`, `update(grad, state, params) = (updates, state)`. -/
structure Solver (F : Type) (d : Nat) where
  S : Type
  init : Pos F d → S
  update : Pos F d → S → Pos F d → Pos F d × S

/-- optimization.py:39-63: the attributes; `bounds` is the `(k, 2)` array as a list of pairs. -/
structure AdamOptimization (F D : Type) (d : Nat) where
  logpdf : Target F D d
  nSteps : Nat
  noiseLevel : F
  bounds : List (F × F)
  solver : Solver F d

/-- optimization.py:53-57: the constructor rejects bounds that are not of shape `(k, 2)`. -/
def AdamOptimization.new (logpdf : Target F D d) (nSteps : Nat) (noiseLevel : F) (bounds : NDArr F)
    (solver : Solver F d) : Except Err (AdamOptimization F D d) :=
  match bounds.shape with
  | [k, 2] =>
    .ok { logpdf, nSteps, noiseLevel, solver
          bounds := (List.range k).map (fun i => (bounds.get [i, 0], bounds.get [i, 1])) }
  | _ => .error .valueError

/-- `jnp.maximum(x, lo)` for a bound `lo` that is not NaN (NaN in `x` propagates). -/
def fmaxB (x lo : F) : F := if FCmp.blt x lo then lo else x
/-- `jnp.minimum(x, hi)` for a bound `hi` that is not NaN. -/
def fminB (x hi : F) : F := if FCmp.blt hi x then hi else x

/-- `optax.projections.projection_box`: `clip(x, lo, hi)`, bounds of one row are broadcast. -/
def projectionBox (bounds : List (F × F)) (x : Pos F d) : Pos F d := fun i =>
  match (if bounds.length = 1 then bounds[0]? else bounds[i.val]?) with
  | some b => fminB (fmaxB (x i) b.1) b.2
  | none => x i

/-- optimization.py:122-134 `_kernel`; the gradient of the loss `-logpdf`, multiplied by
`1 + normal * noise`; `jax.random.normal(subkey)` is a scalar draw. -/
def AdamOptimization.kernel (rng : Rng F) (a : AdamOptimization F D d) (data : Data D)
    (c : Key × Pos F d × a.solver.S) : Key × Pos F d × a.solver.S :=
  let ks := split c.1
  let z := rng.normal ks.2 1 0
  let grad : Pos F d := fun i => -(a.logpdf.grad c.2.1 data i) * (1 + z * a.noiseLevel)
  let us := a.solver.update grad c.2.2 c.2.1
  let params : Pos F d := fun i => c.2.1 i + us.1 i
  (ks.1, projectionBox a.bounds params, us.2)

/-- optimization.py:136-148 `_single_optimize`. -/
def AdamOptimization.single (rng : Rng F) (a : AdamOptimization F D d) (data : Data D) (k : Key)
    (x : Pos F d) : Pos F d :=
  (Nat.repeat (a.kernel rng data) a.nSteps (k, x, a.solver.init x)).2.1

/-- optimization.py:85-164 `optimize`; the warning about non-finite values only prints. -/
def AdamOptimization.optimize (rng : Rng F) (a : AdamOptimization F D d) (data : Data D) (k : Key)
    (xs : List (Pos F d)) : Except Err (Key × List (Pos F d) × List F) :=
  if a.bounds.length = 1 ∨ a.bounds.length = d then
    let ks := split k
    let out := ((splitN ks.2 xs.length).zip xs).map (fun p => a.single rng data p.1 p.2)
    .ok (ks.1, out, out.map (fun x => a.logpdf.val x data))
  else .error .valueError

/-- optimization.py:65-83 `__call__`. -/
def AdamOptimization.run (rng : Rng F) (a : AdamOptimization F D d) (k : Key) (xs : List (Pos F d))
    (data : Data D) (h : Heap F D d M O) : PyRes F D d M O (Key × List (Pos F d)) :=
  match a.optimize rng data k xs with
  | .error e => (.error e, h)
  | .ok r => (.ok (r.1, r.2.1), h)

/-! #### All strategies -/

/-- A value of the `strategies` dictionary.  `custom` is any user-defined strategy. -/
inductive Strategy (F D : Type) (d : Nat) (M O : Type)
  | takeSteps (s : TakeSteps)
  | trainModel (s : TrainModel)
  | updateState (s : UpdateState)
  | lambda (f : LambdaFn F D d M O)
  | parallelTempering (s : ParallelTempering)
  | custom (f : Key → List (Pos F d) → Data D → Heap F D d M O → PyRes F D d M O (Key × List (Pos F d)))

/-- `strategy(rng_key, resources, initial_position, data)`. (`AdamOptimization`, whose solver state lives in
another universe, is used through `custom`.) -/
def Strategy.run (env : Env F D d M O) : Strategy F D d M O → Key → List (Pos F d) → Data D →
    Heap F D d M O → PyRes F D d M O (Key × List (Pos F d))
  | .takeSteps s, k, xs, data, h => s.run env k xs data h
  | .trainModel s, k, xs, _, h => s.run env k xs h
  | .updateState s, k, xs, _, h => s.run k xs h
  | .lambda f, k, xs, data, h => runLambda f k xs data h
  | .parallelTempering s, k, xs, data, h => s.run env k xs data h
  | .custom f, k, xs, data, h => f k xs data h

end
end FlowMC
