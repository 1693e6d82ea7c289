import Verif.Model.Train
/-
Model of the training loop of flow matching, /repo/src/flowMC/resource/model/flowmatching/base.py:198-310.  Number type, network and optimiser are arbitrary.
-/
namespace FlowMC

variable {F : Type} {d : Nat} {M O : Type} [Add F] [Sub F] [Mul F] [Div F]

/-- What the training loop needs from a `FlowMatchingModel`: `data_mean` and `sqrt(diag(data_cov))` (base.py:144-150, 234), the assignment of `_data_mean`/`_data_cov`
from the rows of `data[1]` (base.py:290-291), the path's scheduler (base.py:119-123), and one optimiser step on rows `(x_t, t, dx_t)` (base.py:211-224). -/
structure FMOps (F : Type) (d : Nat) (M O : Type) where
  mean : M → Pos F d
  std : M → Pos F d
  setStats : M → List (Pos F d) → M
  sched : F → F × F × F × F
  trainStep : M → O → List (Pos F d × F × Pos F d) → F × M × O

/-- A row `(x0, x1, t)` of the training data (base.py:231-235). -/
structure FMRow (F : Type) (d : Nat) where
  x0 : Pos F d
  x1 : Pos F d
  t : F

/-- base.py:125-130 `Path.sample` with scheduler values `(alpha_t, d_alpha_t, sigma_t, d_sigma_t)`. -/
def fmPath (s : F × F × F × F) (x0 x1 : Pos F d) : Pos F d × Pos F d :=
  (fun i => s.2.2.1 * x0 i + s.1 * x1 i, fun i => s.2.2.2 * x0 i + s.2.1 * x1 i)

/-- base.py:255-256 and 261-262: what the optimiser step receives for one row; `self` is the model at the start of the epoch. -/
def fmInput (ops : FMOps F d M O) (self : M) (r : FMRow F d) : Pos F d × F × Pos F d :=
  let x1 : Pos F d := fun i => (r.x1 i - ops.mean self i) / ops.std self i
  let p := fmPath (ops.sched r.t) r.x0 x1
  (p.1, r.t, p.2)

/-- base.py:249-259: the loop over the batches of one epoch; `model` advances, `self` does not. -/
def fmTrainBatches (ops : FMOps F d M O) (self : M) (data : List (FMRow F d)) : List (List Nat) → F × M × O → F × M × O
  | [], s => s
  | b :: bs, s => fmTrainBatches ops self data bs (ops.trainStep s.2.1 s.2.2 ((b.filterMap (data[·]?)).map (fmInput ops self)))

/-- base.py:226-264 `train_epoch`; `init` is the literal `1e9`.  The three arrays have equally many rows. -/
def fmTrainEpoch (rng : Rng F) (ops : FMOps F d M O) (init : F) (k : Key) (self : M) (o : O) (data : List (FMRow F d)) (batch : Nat) : F × M × O :=
  if 0 < data.length / batch then
    fmTrainBatches ops self data (epochBatches rng k data.length batch) (init, self, o)
  else
    ops.trainStep self o (data.map (fmInput ops self))

/-- base.py:292-303: one iteration of the epoch loop. -/
def fmTrainLoopBody [FCmp F] (rng : Rng F) (ops : FMOps F d M O) (init : F) (data : List (FMRow F d)) (batch : Nat) (s : TrainState F M O) : TrainState F M O :=
  let ks := split s.rng
  let r := fmTrainEpoch rng ops init ks.2 s.model s.state data batch
  let better := FCmp.blt r.1 s.bestLoss
  { rng := ks.1
    model := r.2.1
    state := r.2.2
    bestModel := if better then r.2.1 else s.bestModel
    bestState := if better then r.2.2 else s.bestState
    bestLoss := if better then r.1 else s.bestLoss
    losses := s.losses ++ [r.1] }

/-- base.py:287-291: state before the loop; the statistics come from `data[1]`; `best_model` is the model before they are set. -/
def fmTrainInit (ops : FMOps F d M O) (init : F) (k : Key) (m : M) (o : O) (data : List (FMRow F d)) : TrainState F M O :=
  { rng := k, model := ops.setStats m (data.map (·.x1)), state := o, bestModel := m, bestState := o, bestLoss := init, losses := [] }

/-- base.py:292: the loop over epochs. -/
def fmTrainLoop [FCmp F] (rng : Rng F) (ops : FMOps F d M O) (init : F) (data : List (FMRow F d)) (batch : Nat) : Nat → TrainState F M O → TrainState F M O
  | 0, s => s
  | n + 1, s => fmTrainLoop rng ops init data batch n (fmTrainLoopBody rng ops init data batch s)

/-- base.py:266-313 `train`. -/
def fmTrain [FCmp F] (rng : Rng F) (ops : FMOps F d M O) (init : F) (k : Key) (m : M) (o : O) (data : List (FMRow F d)) (epochs batch : Nat) :
    Except Err (TrainResult F M O) :=
  if batch = 0 ∧ 0 < epochs then .error .zeroDivision else
  let s := fmTrainLoop rng ops init data batch epochs (fmTrainInit ops init k m o data)
  .ok { rng := s.rng, model := s.bestModel, state := s.bestState, losses := s.losses }

end FlowMC
