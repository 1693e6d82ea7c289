import Verif.Model.Sampler
/-
Model of /repo/src/flowMC/resource_strategy_bundle/{RQSpline_MALA,RQSpline_MALA_PT}.py
-/
namespace FlowMC

variable {F D : Type} {d : Nat} {M O : Type}

/-- Constructor arguments of the bundles (RQSpline_MALA.py:33-56, RQSpline_MALA_PT.py:39-67).  The flow
built by `MaskedCouplingRQSpline(..., subkey)` and the optimiser state built by `Optimizer(model)` are
given by `mkModel`/`mkOptim`.  `historyWindow` is only configurable in the tempering bundle; the plain
one leaves `TrainModel`'s default (100). -/
structure BundleCfg (F D : Type) (d : Nat) (M O : Type) where
  key : Key
  nChains : Nat
  logpdf : Target F D d
  nLocal : Nat
  nGlobal : Nat
  nTrainLoops : Nat
  nProdLoops : Nat
  nEpochs : Nat
  stepSize : F
  chainBatch : Nat := 0
  batchSize : Nat := 10000
  nMaxExamples : Nat := 10000
  localThin : Nat := 1
  globalThin : Nat := 1
  nfBatch : Nat := 10000
  mkModel : Key → M
  mkOptim : M → O

/-- RQSpline_MALA.py:57-60. -/
def BundleCfg.nTrainSteps (c : BundleCfg F D d M O) : Nat :=
  c.nLocal / c.localThin * c.nTrainLoops + c.nGlobal / c.globalThin * c.nTrainLoops

/-- RQSpline_MALA.py:61-64. -/
def BundleCfg.nProdSteps (c : BundleCfg F D d M O) : Nat :=
  c.nLocal / c.localThin * c.nProdLoops + c.nGlobal / c.globalThin * c.nProdLoops

/-- RQSpline_MALA.py:95. -/
def BundleCfg.flow (c : BundleCfg F D d M O) : M := c.mkModel (split c.key).2

/-- RQSpline_MALA.py:103-112. -/
def initialState : State :=
  State.new (fun k => match k with
    | "target_positions" => some (.str "positions_training")
    | "target_log_prob" => some (.str "log_prob_training")
    | "target_local_accs" => some (.str "local_accs_training")
    | "target_global_accs" => some (.str "global_accs_training")
    | "training" => some (.bool true)
    | _ => none) "sampler_state"

/-- RQSpline_MALA.py:67-130: the resource dictionary. -/
def bundleResources [BufNum F] (c : BundleCfg F D d M O) : String → Option (Resource F D d M O)
  | "logpdf" => some (.logpdf ⟨c.logpdf, (List.range d).map (fun i => ⟨"x_" ++ toString i, true⟩)⟩)
  | "positions_training" => some (.buffer (Buffer.new "positions_training" [c.nChains, c.nTrainSteps, d] 1))
  | "log_prob_training" => some (.buffer (Buffer.new "log_prob_training" [c.nChains, c.nTrainSteps] 1))
  | "local_accs_training" => some (.buffer (Buffer.new "local_accs_training" [c.nChains, c.nTrainSteps] 1))
  | "global_accs_training" => some (.buffer (Buffer.new "global_accs_training" [c.nChains, c.nTrainSteps] 1))
  | "loss_buffer" => some (.buffer (Buffer.new "loss_buffer" [c.nTrainLoops * c.nEpochs] 0))
  | "positions_production" => some (.buffer (Buffer.new "positions_production" [c.nChains, c.nProdSteps, d] 1))
  | "log_prob_production" => some (.buffer (Buffer.new "log_prob_production" [c.nChains, c.nProdSteps] 1))
  | "local_accs_production" => some (.buffer (Buffer.new "local_accs_production" [c.nChains, c.nProdSteps] 1))
  | "global_accs_production" => some (.buffer (Buffer.new "global_accs_production" [c.nChains, c.nProdSteps] 1))
  | "local_sampler" => some (.kernel (.mala c.stepSize))
  | "global_sampler" => some (.kernel (.nf c.flow c.nfBatch))
  | "model" => some (.model c.flow)
  | "optimizer" => some (.optimizer (c.mkOptim c.flow))
  | "sampler_state" => some (.state initialState)
  | _ => none

/-- RQSpline_MALA.py:132-141. -/
def localStepper (c : BundleCfg F D d M O) : TakeSteps where
  kind := .serial
  ident := "local_stepper"
  logpdfName := "logpdf"
  kernelName := "local_sampler"
  stateName := "sampler_state"
  bufferNames := ["target_positions", "target_log_prob", "target_local_accs"]
  nSteps := c.nLocal
  thinning := c.localThin
  chainBatchSize := c.chainBatch

/-- RQSpline_MALA.py:143-152. -/
def globalStepper (c : BundleCfg F D d M O) : TakeSteps where
  kind := .group
  ident := "global_stepper"
  logpdfName := "logpdf"
  kernelName := "global_sampler"
  stateName := "sampler_state"
  bufferNames := ["target_positions", "target_log_prob", "target_global_accs"]
  nSteps := c.nGlobal
  thinning := c.globalThin
  chainBatchSize := c.chainBatch

/-- RQSpline_MALA.py:154-163 (`history_window` default of train_model.py:33). -/
def modelTrainer (c : BundleCfg F D d M O) (window : Nat := 100) : TrainModel where
  modelName := "model"
  dataName := "positions_training"
  optimizerName := "optimizer"
  lossBufferName := "loss_buffer"
  nEpochs := c.nEpochs
  batchSize := c.batchSize
  nMaxExamples := c.nMaxExamples
  historyWindow := window

/-- RQSpline_MALA.py:165-181. -/
def updateStateStrat : UpdateState where
  stateName := "sampler_state"
  keys := ["target_positions", "target_log_prob", "target_local_accs", "target_global_accs", "training"]
  values := [.str "positions_production", .str "log_prob_production", .str "local_accs_production",
    .str "global_accs_production", .bool false]

/-- RQSpline_MALA.py:183-202. -/
def resetSteppers : LambdaFn F D d M O := fun _ _ _ h =>
  (.ok (), (h.setPos "local_stepper" 0).setPos "global_stepper" 0)

/-- RQSpline_MALA.py:204-208. -/
def updateGlobalStep : LambdaFn F D d M O := fun _ _ _ h =>
  (.ok (), h.setPos "global_stepper" (h.pos "local_stepper"))

/-- RQSpline_MALA.py:209-213. -/
def updateLocalStep : LambdaFn F D d M O := fun _ _ _ h =>
  (.ok (), h.setPos "local_stepper" (h.pos "global_stepper"))

/-- RQSpline_MALA.py:215-238: put the current `model` resource into the flow kernel.  `eqx.tree_at` on an
object without a `model` field raises. -/
def updateModel : LambdaFn F D d M O := fun _ _ _ h =>
  match h.res "model", h.res "global_sampler" with
  | none, _ => (.error .keyError, h)
  | _, none => (.error .keyError, h)
  | some (.model m), some (.kernel (.nf _ b)) => (.ok (), h.setRes "global_sampler" (.kernel (.nf m b)))
  | _, _ => (.error .typeError, h)

/-- RQSpline_MALA.py:240-249. -/
def bundleStrategies (c : BundleCfg F D d M O) : StratDict F D d M O where
  lookup := fun n => match n with
    | "local_stepper" => some (.takeSteps (localStepper c))
    | "global_stepper" => some (.takeSteps (globalStepper c))
    | "model_trainer" => some (.trainModel (modelTrainer c))
    | "update_state" => some (.updateState updateStateStrat)
    | "update_global_step" => some (.lambda updateGlobalStep)
    | "update_local_step" => some (.lambda updateLocalStep)
    | "reset_steppers" => some (.lambda resetSteppers)
    | "update_model" => some (.lambda updateModel)
    | _ => none

/-- RQSpline_MALA.py:251-258. -/
def trainingPhase : List String :=
  ["local_stepper", "update_global_step", "model_trainer", "update_model", "global_stepper",
   "update_local_step"]

/-- RQSpline_MALA.py:259-264. -/
def productionPhase : List String :=
  ["local_stepper", "update_global_step", "global_stepper", "update_local_step"]

/-- `for _ in range(n): order.extend(phase)`. -/
def repeatPhase (n : Nat) (phase : List String) : List String := (List.replicate n phase).flatten

/-- RQSpline_MALA.py:265-274. -/
def bundleOrder (c : BundleCfg F D d M O) : List String :=
  repeatPhase c.nTrainLoops trainingPhase ++ ["reset_steppers", "update_state"]
    ++ repeatPhase c.nProdLoops productionPhase

/-- RQSpline_MALA.py:33-274: the bundle. -/
def malaBundle [BufNum F] (c : BundleCfg F D d M O) : Bundle F D d M O where
  resources := bundleResources c
  strategies := bundleStrategies c
  strategyOrder := bundleOrder c

/-! ### RQSpline_MALA_PT -/

/-- Extra arguments of RQSpline_MALA_PT.py:61-65.  `nTempered` is an integer; non-positive means "use
`n_local_steps`". -/
structure PTCfg (F D : Type) (d : Nat) where
  historyWindow : Nat := 100
  nTemps : Nat
  maxTemp : F
  nTempered : Int := -1
  logprior : Target F D d

/-- `jax.numpy.linspace(1.0, max, n)[i]`: `1 + i/(n-1) * (max - 1)` (exact arithmetic form; `n = 1`
gives `[1.0]`). -/
def linspace1 [One F] [Add F] [Sub F] [Mul F] [Div F] [NatCast F] (maxT : F) (n i : Nat) : F :=
  if i = 0 then 1 else if i + 1 = n then maxT else 1 + (i : F) / ((n - 1 : Nat) : F) * (maxT - 1)

/-- RQSpline_MALA_PT.py:271-273. -/
def temperedSteps (c : BundleCfg F D d M O) (p : PTCfg F D d) : Nat :=
  if p.nTempered ≤ 0 then c.nLocal else p.nTempered.toNat

/-- RQSpline_MALA_PT.py:114-160. The temperature buffer's own name is "temperature", its key is
"temperatures". -/
def ptResources [One F] [Add F] [Sub F] [Mul F] [Div F] [NatCast F] [BufNum F]
    (c : BundleCfg F D d M O) (p : PTCfg F D d) : String → Option (Resource F D d M O)
  | "tempered_logpdf" =>
    some (.tempered ⟨⟨c.logpdf, (List.range d).map (fun i => ⟨"x_" ++ toString i, true⟩)⟩, p.logprior⟩)
  | "tempered_positions" => some (.buffer (Buffer.new "tempered_positions" [c.nChains, p.nTemps - 1, d] 2))
  | "temperatures" =>
    some (.buffer { (Buffer.new "temperature" [p.nTemps] 0 : Buffer F) with
      data := arr1 BufNum.negInf ((List.range p.nTemps).map (linspace1 p.maxTemp p.nTemps)) })
  | n => bundleResources c n

/-- RQSpline_MALA_PT.py:275-282. -/
def ptStrat (c : BundleCfg F D d M O) (p : PTCfg F D d) : ParallelTempering where
  nSteps := temperedSteps c p
  temperedLogpdfName := "tempered_logpdf"
  kernelName := "local_sampler"
  bufferNames := ["tempered_positions", "temperatures"]
  stateName := "sampler_state"

/-- RQSpline_MALA_PT.py:284-305: copy every chain's initial position to all replicas. -/
def initTempered [BufNum F] (p : PTCfg F D d) : LambdaFn F D d M O := fun _ xs _ h =>
  h.updateBuffer "tempered_positions"
    (arr3 BufNum.negInf xs.length (p.nTemps - 1) (xs.map (fun x => List.replicate (p.nTemps - 1) x))) 0

/-- RQSpline_MALA_PT.py:307-317. -/
def ptStrategies [BufNum F] (c : BundleCfg F D d M O) (p : PTCfg F D d) : StratDict F D d M O where
  lookup := fun n => match n with
    | "parallel_tempering" => some (.parallelTempering (ptStrat c p))
    | "initialize_tempered_positions" => some (.lambda (initTempered p))
    | "model_trainer" => some (.trainModel (modelTrainer c p.historyWindow))
    | n => (bundleStrategies c).lookup n

/-- RQSpline_MALA_PT.py:319-344. -/
def ptOrder (c : BundleCfg F D d M O) : List String :=
  "initialize_tempered_positions" ::
    (repeatPhase c.nTrainLoops ("parallel_tempering" :: trainingPhase) ++ ["reset_steppers", "update_state"]
      ++ repeatPhase c.nProdLoops ("parallel_tempering" :: productionPhase))

/-- RQSpline_MALA_PT.py:39-344. -/
def ptBundle [One F] [Add F] [Sub F] [Mul F] [Div F] [NatCast F] [BufNum F]
    (c : BundleCfg F D d M O) (p : PTCfg F D d) : Bundle F D d M O where
  resources := ptResources c p
  strategies := ptStrategies c p
  strategyOrder := ptOrder c

end FlowMC
