import Verif.Model.Strategies
import Verif.Model.Stats
/-
The flows of nf_model/realNVP.py and nf_model/rqSpline.py and their training step (nf_model/base.py), over any number type, so that they can be run on
numbers with infinities and NaN (`XR`).  Over the real numbers they are the models of `Model/RealNVP.lean`, `Model/RQSpline.lean`, `Model/Stats.lean`,
`Model/Loss.lean` and `Model/Optimizer.lean`; this is proved in `Props/Collapse.lean`.
-/
namespace FlowMC.Gen

variable {F : Type} {d : Nat}

/-- common.py:127-148 `MaskedCouplingLayer`: the inner bijector is any pair of functions of the vector and the condition (an `MLPAffine` in RealNVP, a `ScalarAffine`
or an `RQSpline` in the spline flow). -/
structure Layer (F : Type) (d : Nat) where
  fwd : Pos F d → Pos F d → Pos F d × Pos F d
  inv : Pos F d → Pos F d → Pos F d × Pos F d
  mask : Pos F d

section
variable [Zero F] [One F] [Add F] [Mul F] [Sub F]

/-- common.py:150-158 `MaskedCouplingLayer.forward`. -/
def Layer.forward (l : Layer F d) (x : Pos F d) : Pos F d × F :=
  let r := l.fwd x (fun i => x i * l.mask i)
  (fun i => (1 - l.mask i) * r.1 i + l.mask i * x i, sumFin (fun i => (1 - l.mask i) * r.2 i))

/-- common.py:160-168 `MaskedCouplingLayer.inverse`. -/
def Layer.inverse (l : Layer F d) (x : Pos F d) : Pos F d × F :=
  let r := l.inv x (fun i => x i * l.mask i)
  (fun i => (1 - l.mask i) * r.1 i + l.mask i * x i, sumFin (fun i => (1 - l.mask i) * r.2 i))
end

/-- realNVP.py:118-122, rqSpline.py:381-382: masked coupling layers in the order in which `forward` applies them and in the order in which `inverse` applies them,
the log-density and the draws of the base distribution that `log_prob` and `sample` use, and the statistics of the data (`data_cov` through its diagonal). -/
structure Flow (F : Type) (d : Nat) where
  layers : List (Layer F d)
  invLayers : List (Layer F d)
  baseLogProb : Pos F d → F
  baseSample : Key → Nat → List (Pos F d)
  dataMean : Pos F d
  dataVar : Pos F d

/-- realNVP.py:174-190 and rqSpline.py:450-468 `forward`: the layers in order, adding up the log-determinants. -/
def Flow.forward [Zero F] [One F] [Add F] [Mul F] [Sub F] (m : Flow F d) (x : Pos F d) : Pos F d × F :=
  (scan (fun (s : Pos F d × F) (l : Layer F d) => let r := l.forward s.1; ((r.1, s.2 + r.2), ())) (x, 0) m.layers).1

/-- realNVP.py:192-208 and rqSpline.py:470-488 `inverse`. -/
def Flow.inverse [Zero F] [One F] [Add F] [Mul F] [Sub F] (m : Flow F d) (x : Pos F d) : Pos F d × F :=
  (scan (fun (s : Pos F d × F) (l : Layer F d) => let r := l.inverse s.1; ((r.1, s.2 + r.2), ())) (x, 0) m.invLayers).1

/-- realNVP.py:218 and rqSpline.py:501: `(x - data_mean) / sqrt(diag(data_cov))`. -/
def whiten [Sub F] [Div F] [Transc F] (mean var : Pos F d) (x : Pos F d) : Pos F d := fun i => (x i - mean i) / Transc.sqrt (var i)

/-- realNVP.py:213 and rqSpline.py:495: `samples * sqrt(diag(data_cov)) + data_mean`. -/
def unwhiten [Add F] [Mul F] [Transc F] (mean var : Pos F d) (z : Pos F d) : Pos F d := fun i => z i * Transc.sqrt (var i) + mean i

/-- realNVP.py:216-223 and rqSpline.py:498-504 `log_prob`. -/
def Flow.logProb [Zero F] [One F] [Add F] [Mul F] [Sub F] [Div F] [Transc F] (m : Flow F d) (x : Pos F d) : F :=
  let r := m.forward (whiten m.dataMean m.dataVar x)
  r.2 + m.baseLogProb r.1

/-- realNVP.py:210-214 and rqSpline.py:490-496 `sample`. -/
def Flow.sample [Zero F] [One F] [Add F] [Mul F] [Sub F] [Transc F] (m : Flow F d) (k : Key) (n : Nat) : List (Pos F d) :=
  (m.baseSample k n).map (fun z => unwhiten m.dataMean m.dataVar (m.inverse z).1)

/-- nf_model/base.py:94-96 `loss_fn` (its value). -/
def nfLoss [Zero F] [Add F] [Div F] [Neg F] [NatCast F] (logProb : Pos F d → F) (batch : List (Pos F d)) : F :=
  -((batch.map logProb).sum / (batch.length : F))

/-- nf_model/base.py:187 `jnp.mean(data, axis=0)`. -/
def rowMean [Zero F] [Add F] [Div F] [NatCast F] (data : List (Pos F d)) : Pos F d := fun i => (data.map (· i)).sum / (data.length : F)

/-- nf_model/base.py:188: the diagonal of `jnp.cov(data.T)` (`ddof = 1`). -/
def rowVar [Zero F] [One F] [Add F] [Mul F] [Sub F] [Div F] [NatCast F] (data : List (Pos F d)) : Pos F d := fun i =>
  (data.map (fun r => (r i - rowMean data i) * (r i - rowMean data i))).sum / ((data.length : F) - 1)

/-! ### The optimizer -/

/-- `b ** t`. -/
def powN [One F] [Mul F] (b : F) : Nat → F
  | 0 => 1
  | t + 1 => powN b t * b

variable {ι : Type}

/-- State of `optax.adamw`: first moment, second moment, step count. -/
structure AdamState (F : Type) (ι : Type) where
  mu : ι → F
  nu : ι → F
  count : Nat

/-- optimizer.py:25 `optim.init`. -/
def AdamState.init [Zero F] : AdamState F ι := ⟨fun _ => 0, fun _ => 0, 0⟩

/-- optimizer.py:22 `optax.clip_by_global_norm(1.0)`; `idx` lists the entries of all arrays. -/
def clipByGlobalNorm [Zero F] [One F] [Add F] [Mul F] [Div F] [Transc F] [FCmp F] (idx : List ι) (g : ι → F) : ι → F :=
  let norm := Transc.sqrt ((idx.map (fun i => g i * g i)).sum)
  fun i => if FCmp.blt norm 1 then g i else g i / norm * 1

/-- optimizer.py:23 `optax.adamw(lr, b1)` and `eqx.apply_updates`; `b2`, `eps` and `wd` are the literals `0.999`, `1e-8` and `1e-4`. -/
def adamwStep [Zero F] [One F] [Add F] [Mul F] [Sub F] [Neg F] [Div F] [Transc F] [FCmp F] (idx : List ι) (lr b1 b2 eps wd : F) (g : ι → F)
    (sp : AdamState F ι × (ι → F)) : AdamState F ι × (ι → F) :=
  let g' := clipByGlobalNorm idx g
  let mu : ι → F := fun i => b1 * sp.1.mu i + (1 - b1) * g' i
  let nu : ι → F := fun i => b2 * sp.1.nu i + (1 - b2) * (g' i * g' i)
  let t := sp.1.count + 1
  let dir : ι → F := fun i => (mu i / (1 - powN b1 t)) / (Transc.sqrt (nu i / (1 - powN b2 t)) + eps)
  (⟨mu, nu, t⟩, fun i => sp.2 i + -lr * (dir i + wd * sp.2 i))

/-! ### Training -/

/-- Positions of the parameters of a flow: the entries of `data_mean` and of the diagonal of `data_cov`, and all other array entries (weights, masks, base distribution).
The off-diagonal entries of `data_cov` are never read and not represented. -/
abbrev Params (d : Nat) (κ : Type) := Fin d ⊕ Fin d ⊕ κ

variable {κ : Type}

/-- The flow with the given array entries; `arch` makes the layers and the base distribution from the entries that are not statistics. -/
def flowOf (arch : (κ → F) → Flow F d) (p : Params d κ → F) : Flow F d :=
  { arch (fun j => p (.inr (.inr j))) with dataMean := fun i => p (.inl i), dataVar := fun i => p (.inr (.inl i)) }

/-- The operations of a flow with trainable array entries `p`: nf_model/base.py:98-125 `train_step` with the optimizer of optimizer.py, nf_model/base.py:187-188 for the
statistics.  `grad` is the gradient of the loss, any function of the entries and the batch. -/
def flowOps [Zero F] [One F] [Add F] [Mul F] [Sub F] [Neg F] [Div F] [NatCast F] [Transc F] [FCmp F] (arch : (κ → F) → Flow F d)
    (grad : (Params d κ → F) → List (Pos F d) → Params d κ → F) (idx : List (Params d κ)) (lr b1 b2 eps wd : F) :
    FlowOps F d (Params d κ → F) (AdamState F (Params d κ)) where
  sample p k n := (flowOf arch p).sample k n
  logProb p x := (flowOf arch p).logProb x
  trainStep p o x :=
    let r := adamwStep idx lr b1 b2 eps wd (grad p x) (o, p)
    (nfLoss (flowOf arch p).logProb x, r.2, r.1)
  setStats p data := Sum.elim (rowMean data) (Sum.elim (rowVar data) (fun j => p (.inr (.inr j))))

end FlowMC.Gen
