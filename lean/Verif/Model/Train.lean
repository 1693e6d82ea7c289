import Verif.Model.Kernels
/-
Model of the training loop /repo/src/flowMC/resource/model/nf_model/base.py:98-210.
-/
namespace FlowMC

variable {F : Type} {d : Nat} {M O : Type}

/-- base.py:145-147: `for perm in perms: value, model, state = model.train_step(data[perm], …)`. -/
def trainBatches (ops : FlowOps F d M O) (data : List (Pos F d)) :
    List (List Nat) → F × M × O → F × M × O
  | [], s => s
  | b :: bs, s => trainBatches ops data bs (ops.trainStep s.2.1 s.2.2 (b.filterMap (data[·]?)))

/-- base.py:141-144: the batches of one epoch: a permutation, truncated to a multiple of the batch
size and reshaped. -/
def epochBatches (rng : Rng F) (k : Key) (n batch : Nat) : List (List Nat) :=
  chunks batch (n / batch) ((rng.permutation k n).take (n / batch * batch))

/-- base.py:127-151 `train_epoch`; `init` is the literal `1e9`.  (`batch_size = 0` raises
`ZeroDivisionError`; see `trainEpochs`.) -/
def trainEpoch (rng : Rng F) (ops : FlowOps F d M O) (init : F) (k : Key) (m : M) (o : O)
    (data : List (Pos F d)) (batch : Nat) : F × M × O :=
  if 0 < data.length / batch then
    trainBatches ops data (epochBatches rng k data.length batch) (init, m, o)
  else
    ops.trainStep m o data

/-- Loop variables of base.py:189-208. -/
structure TrainState (F M O : Type) where
  rng : Key
  model : M
  state : O
  bestModel : M
  bestState : O
  bestLoss : F
  losses : List F

/-- base.py:189-200: one iteration of the epoch loop. -/
def trainLoopBody [FCmp F] (rng : Rng F) (ops : FlowOps F d M O) (init : F)
    (data : List (Pos F d)) (batch : Nat) (s : TrainState F M O) : TrainState F M O :=
  let ks := split s.rng
  let r := trainEpoch rng ops init ks.2 s.model s.state data batch
  let better := FCmp.blt r.1 s.bestLoss
  { rng := ks.1
    model := r.2.1
    state := r.2.2
    bestModel := if better then r.2.1 else s.bestModel
    bestState := if better then r.2.2 else s.bestState
    bestLoss := if better then r.1 else s.bestLoss
    losses := s.losses ++ [r.1] }

/-- base.py:184-188: state before the loop.  Note that `best_model` is the model *before* the data
mean and covariance are set.  `init` is `1e9`. -/
def trainInit (ops : FlowOps F d M O) (init : F) (k : Key) (m : M) (o : O) (data : List (Pos F d)) :
    TrainState F M O :=
  { rng := k, model := ops.setStats m data, state := o
    bestModel := m, bestState := o, bestLoss := init, losses := [] }

/-- base.py:189: the loop over epochs. -/
def trainLoop [FCmp F] (rng : Rng F) (ops : FlowOps F d M O) (init : F)
    (data : List (Pos F d)) (batch : Nat) : Nat → TrainState F M O → TrainState F M O
  | 0, s => s
  | n + 1, s => trainLoop rng ops init data batch n (trainLoopBody rng ops init data batch s)

/-- Return value of base.py:210. -/
structure TrainResult (F M O : Type) where
  rng : Key
  model : M
  state : O
  losses : List F

/-- base.py:153-210 `train`. -/
def train [FCmp F] (rng : Rng F) (ops : FlowOps F d M O) (init : F) (k : Key) (m : M) (o : O)
    (data : List (Pos F d)) (epochs batch : Nat) : Except Err (TrainResult F M O) :=
  if batch = 0 ∧ 0 < epochs then .error .zeroDivision else
  let s := trainLoop rng ops init data batch epochs (trainInit ops init k m o data)
  .ok { rng := s.rng, model := s.bestModel, state := s.bestState, losses := s.losses }

end FlowMC
