import Verif.Model.Coupling
/-
Model of /repo/src/flowMC/resource/model/nf_model/realNVP.py.
-/
namespace FlowMC
noncomputable section

/-! ### AffineCoupling (realNVP.py:18-99): a stand-alone layer, mask 1 = transformed -/

/-- realNVP.py:31-50. -/
structure AffineCoupling (d : Nat) where
  mask : Pos ℝ d
  scaleNet : Pos ℝ d → Pos ℝ d
  translateNet : Pos ℝ d → Pos ℝ d
  dt : ℝ

/-- realNVP.py:73-74 and 94-95: `tanh(mask * scale_MLP(x * (1 - mask))) * dt`. -/
def AffineCoupling.s {d : Nat} (l : AffineCoupling d) (x : Pos ℝ d) : Pos ℝ d :=
  fun i => Real.tanh (l.mask i * l.scaleNet (fun j => x j * (1 - l.mask j)) i) * l.dt

/-- realNVP.py:75 and 96. -/
def AffineCoupling.t {d : Nat} (l : AffineCoupling d) (x : Pos ℝ d) : Pos ℝ d :=
  fun i => l.mask i * l.translateNet (fun j => x j * (1 - l.mask j)) i * l.dt

/-- realNVP.py:63-82. -/
def AffineCoupling.forward {d : Nat} (l : AffineCoupling d) (x : Pos ℝ d) : Pos ℝ d × ℝ :=
  (fun i => (x i + l.t x i) * Real.exp (l.s x i), sumFin (l.s x))

/-- realNVP.py:84-99. -/
def AffineCoupling.inverse {d : Nat} (l : AffineCoupling d) (x : Pos ℝ d) : Pos ℝ d × ℝ :=
  (fun i => x i * Real.exp (-l.s x i) - l.t x i, -sumFin (l.s x))

/-! ### RealNVP -/

/-- The learnable part of one layer: its mask and its two `relu` networks (realNVP.py:167-169). -/
structure NVPLayer (d : Nat) where
  mask : Pos ℝ d
  nHidden : Nat
  scaleMLP : MLP d d
  shiftMLP : MLP d d

/-- realNVP.py:118-122; `data_cov` is kept through its diagonal, the only part that is read. -/
structure RealNVP (d : Nat) where
  base : BaseDist d
  layers : List (NVPLayer d)
  dataMean : Pos ℝ d
  dataVar : Pos ℝ d

/-- realNVP.py:164-166: ones with the first `int(n/2)` entries 0, complemented for even layers. -/
def nvpMask (d i : Nat) : Pos ℝ d :=
  fun j => let m : ℝ := if j.1 < d / 2 then 0 else 1
           if i % 2 = 0 then 1 - m else m

/-- realNVP.py:162-169 `make_layer`. -/
def nvpMakeLayer (dr : MLPDraws) (d nHidden i : Nat) (k : Key) : NVPLayer d :=
  { mask := nvpMask d i
    nHidden := nHidden
    scaleMLP := MLP.init dr (1 / 10000) d [nHidden] d (.child k 1)
    shiftMLP := MLP.init dr (1 / 10000) d [nHidden] d (.child k 2) }

/-- realNVP.py:136-172 `RealNVP.__init__`; absent keyword arguments are `none`. -/
def RealNVP.init (dr : MLPDraws) (d nLayers nHidden : Nat) (k : Key) (base : Option (BaseDist d)) (mean var : Option (Pos ℝ d)) : RealNVP d :=
  { base := base.getD (stdGaussian d)
    layers := (List.range nLayers).map (fun i => nvpMakeLayer dr d nHidden i (.child k i))
    dataMean := mean.getD (fun _ => 0)
    dataVar := var.getD (fun _ => 1) }

/-- The layer as a coupling layer: `MaskedCouplingLayer(MLPAffine(scale_MLP, shift_MLP), mask)` with `dt = 1` and the default
activation `relu` (realNVP.py:167-169, common.py:89, 176). -/
def NVPLayer.coupling {d : Nat} (l : NVPLayer d) : CouplingLayer d :=
  { bij := mlpAffine (l.scaleMLP.call relu) (l.shiftMLP.call relu) 1, mask := l.mask }

/-- realNVP.py:174-190 `forward`: a scan over the layers adding up the log-determinants. -/
def RealNVP.forward {d : Nat} (m : RealNVP d) (x : Pos ℝ d) : Pos ℝ d × ℝ :=
  (scan (fun (s : Pos ℝ d × ℝ) (l : NVPLayer d) => let r := l.coupling.forward s.1; ((r.1, s.2 + r.2), ())) (x, 0) m.layers).1

/-- realNVP.py:192-208 `inverse`: the scan with `reverse=True`. -/
def RealNVP.inverse {d : Nat} (m : RealNVP d) (x : Pos ℝ d) : Pos ℝ d × ℝ :=
  (scan (fun (s : Pos ℝ d × ℝ) (l : NVPLayer d) => let r := l.coupling.inverse s.1; ((r.1, s.2 + r.2), ())) (x, 0) m.layers.reverse).1

/-- realNVP.py:213 and rqSpline.py:495: `samples * sqrt(diag(data_cov)) + data_mean`. -/
def unwhiten {d : Nat} (mean var : Pos ℝ d) (z : Pos ℝ d) : Pos ℝ d := fun i => z i * Real.sqrt (var i) + mean i

/-- realNVP.py:218 and rqSpline.py:501: `(x - data_mean) / sqrt(diag(data_cov))`. -/
def whiten {d : Nat} (mean var : Pos ℝ d) (x : Pos ℝ d) : Pos ℝ d := fun i => (x i - mean i) / Real.sqrt (var i)

/-- realNVP.py:210-214 `sample`. -/
def RealNVP.sample {d : Nat} (m : RealNVP d) (rng : Rng ℝ) (k : Key) (n : Nat) : List (Pos ℝ d) :=
  (m.base.sample rng k n).map (fun z => unwhiten m.dataMean m.dataVar (m.inverse z).1)

/-- realNVP.py:216-223 `log_prob`: always the standard normal density, whatever `base_dist` is, and no whitening Jacobian. -/
def RealNVP.logProb {d : Nat} (m : RealNVP d) (x : Pos ℝ d) : ℝ :=
  let r := m.forward (whiten m.dataMean m.dataVar x)
  r.2 + isoNormLogpdf r.1 (fun _ => 0) 1

end
end FlowMC
