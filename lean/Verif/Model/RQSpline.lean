import Verif.Model.RealNVP
import Mathlib.Algebra.BigOperators.Fin
/-
Model of /repo/src/flowMC/resource/model/nf_model/rqSpline.py.  Exact real arithmetic; the constant `jnp.finfo(dtype).tiny` is a parameter `tiny`.
The functions with `@partial(jax.vmap, …)` are modelled for one feature; `RQSpline` applies them to every feature.
-/
open scoped BigOperators
namespace FlowMC
noncomputable section
open Classical

/-- `jax.nn.softmax`. -/
def softmax {K : Nat} (u : Fin K → ℝ) : Fin K → ℝ := fun i => Real.exp (u i) / ∑ j, Real.exp (u j)

/-- `jax.nn.softplus`: `log(1 + exp x)`. -/
def softplus (x : ℝ) : ℝ := Real.log (1 + Real.exp x)

/-- rqSpline.py:20-27 `_normalize_bin_sizes`. -/
def normalizeBinSizes {K : Nat} (u : Fin K → ℝ) (total minSize : ℝ) : Fin K → ℝ :=
  fun i => softmax u i * (total - K * minSize) + minSize

/-- rqSpline.py:30-39 `_normalize_knot_slopes`. -/
def normalizeKnotSlopes {K : Nat} (u : Fin K → ℝ) (minSlope : ℝ) : Fin K → ℝ :=
  let offset := Real.log (Real.exp (1 - minSlope) - 1)
  fun i => softplus (u i + offset) + minSlope

/-- `jnp.clip(x, lo, hi)`. -/
def clip (x lo hi : ℝ) : ℝ := min (max x lo) hi

/-- rqSpline.py:65-72 and 181-188: which bin the argument is in; the first bin if it is in none. -/
def correctBin {K : Nat} (x : ℝ) (pos : Fin (K + 1) → ℝ) (i : Fin K) : Prop :=
  if ∃ j : Fin K, pos j.castSucc ≤ x ∧ x < pos j.succ then pos i.castSucc ≤ x ∧ x < pos i.succ else i.1 = 0

/-- rqSpline.py:75-76: dot product of the bin indicator with one column of parameters. -/
def binDot {K : Nat} (b : Fin K → Prop) (v : Fin K → ℝ) : ℝ := ∑ i, (if b i then 1 else 0) * v i

/-- The parameters of the selected bin (rqSpline.py:74-84, 190-201). -/
structure BinParams where
  x0 : ℝ
  x1 : ℝ
  y0 : ℝ
  y1 : ℝ
  d0 : ℝ
  d1 : ℝ

/-- `bin_width` -/
def BinParams.width (p : BinParams) : ℝ := p.x1 - p.x0
/-- `bin_height` -/
def BinParams.height (p : BinParams) : ℝ := p.y1 - p.y0
/-- `bin_slope` -/
def BinParams.slope (p : BinParams) : ℝ := p.height / p.width
/-- `slopes_term` -/
def BinParams.slopesTerm (p : BinParams) : ℝ := p.d1 + p.d0 - 2 * p.slope

/-- rqSpline.py:74-80 and 190-197. -/
def binParams {K : Nat} (b : Fin K → Prop) (xPos yPos slopes : Fin (K + 1) → ℝ) : BinParams where
  x0 := binDot b (fun i => xPos i.castSucc)
  x1 := binDot b (fun i => xPos i.succ)
  y0 := binDot b (fun i => yPos i.castSucc)
  y1 := binDot b (fun i => yPos i.succ)
  d0 := binDot b (fun i => slopes i.castSucc)
  d1 := binDot b (fun i => slopes i.succ)

/-- rqSpline.py:42-128 `_rational_quadratic_spline_fwd`. -/
def splineFwd {K : Nat} (x : ℝ) (xPos yPos slopes : Fin (K + 1) → ℝ) : ℝ × ℝ :=
  let p := binParams (correctBin x xPos) xPos yPos slopes
  let z := clip ((x - p.x0) / p.width) 0 1
  let sqZ := z * z
  let z1mz := z - sqZ
  let sq1mz := (1 - z) ^ 2
  let numerator := p.height * (p.slope * sqZ + p.d0 * z1mz)
  let denominator := p.slope + p.slopesTerm * z1mz
  let y := p.y0 + numerator / denominator
  let logdet := 2 * Real.log p.slope + Real.log (p.d1 * sqZ + 2 * p.slope * z1mz + p.d0 * sq1mz) - 2 * Real.log denominator
  let y := if x ≤ xPos 0 then (x - xPos 0) * slopes 0 + yPos 0 else y
  let y := if xPos (Fin.last K) ≤ x then (x - xPos (Fin.last K)) * slopes (Fin.last K) + yPos (Fin.last K) else y
  let logdet := if x ≤ xPos 0 then Real.log (slopes 0) else logdet
  let logdet := if xPos (Fin.last K) ≤ x then Real.log (slopes (Fin.last K)) else logdet
  (y, logdet)

/-- rqSpline.py:131-155 `_safe_quadratic_root`. -/
def safeQuadraticRoot (tiny a b c : ℝ) : ℝ :=
  let sqrtDiff := b ^ 2 - 4 * a * c
  let safeSqrt := Real.sqrt (max sqrtDiff tiny)
  let safeSqrt := if 0 < sqrtDiff then safeSqrt else 0
  let numerator := if 0 ≤ b then 2 * c else -b + safeSqrt
  let denominator := if 0 ≤ b then -b - safeSqrt else 2 * a
  numerator / denominator

/-- rqSpline.py:158-239 `_rational_quadratic_spline_inv`. -/
def splineInv {K : Nat} (tiny : ℝ) (y : ℝ) (xPos yPos slopes : Fin (K + 1) → ℝ) : ℝ × ℝ :=
  let p := binParams (correctBin y yPos) xPos yPos slopes
  let w := clip ((y - p.y0) / p.height) 0 1
  let c := -p.slope * w
  let b := p.d0 - p.slopesTerm * w
  let a := p.slope - b
  let z := clip (safeQuadraticRoot tiny a b c) 0 1
  let x := p.width * z + p.x0
  let sqZ := z * z
  let z1mz := z - sqZ
  let sq1mz := (1 - z) ^ 2
  let denominator := p.slope + p.slopesTerm * z1mz
  let logdet := -2 * Real.log p.slope - Real.log (p.d1 * sqZ + 2 * p.slope * z1mz + p.d0 * sq1mz) + 2 * Real.log denominator
  let x := if y ≤ yPos 0 then (y - yPos 0) / slopes 0 + xPos 0 else x
  let x := if yPos (Fin.last K) ≤ y then (y - yPos (Fin.last K)) / slopes (Fin.last K) + xPos (Fin.last K) else x
  let logdet := if y ≤ yPos 0 then -Real.log (slopes 0) else logdet
  let logdet := if yPos (Fin.last K) ≤ y then -Real.log (slopes (Fin.last K)) else logdet
  (x, logdet)

/-- rqSpline.py:306: `int(n_output / n_input - 1) // 3`; the float division is exact for the sizes that occur (`n_input` divides `n_output`), so it is
modelled by natural-number division. -/
def numBins (nInput nOutput : Nat) : Nat := (nOutput / nInput - 1) / 3

/-- rqSpline.py:243-247: the constants of an `RQSpline`. -/
structure SplineCfg where
  rangeMin : ℝ
  rangeMax : ℝ
  minBinSize : ℝ
  minKnotSlope : ℝ

/-- rqSpline.py:327-333: `concatenate([range_min], range_min + cumsum(sizes[:-1]), [range_max])`. -/
def knotPositions {K : Nat} (c : SplineCfg) (sizes : Fin K → ℝ) : Fin (K + 1) → ℝ :=
  fun j => if j.1 = 0 then c.rangeMin else if j.1 = K then c.rangeMax
    else c.rangeMin + ∑ i : Fin K, if i.1 < j.1 then sizes i else 0

/-- rqSpline.py:327-338: the knots of one feature: positions on both axes and slopes. -/
structure Knots (K : Nat) where
  xPos : Fin (K + 1) → ℝ
  yPos : Fin (K + 1) → ℝ
  slopes : Fin (K + 1) → ℝ

/-- rqSpline.py:316-338: knots of one feature from its row of `3 K + 1` raw parameters. -/
def rowKnots {K : Nat} (c : SplineCfg) (row : Fin (K * 3 + 1) → ℝ) : Knots K where
  xPos := knotPositions c (normalizeBinSizes (fun i : Fin K => row ⟨i.1, by omega⟩) (c.rangeMax - c.rangeMin) c.minBinSize)
  yPos := knotPositions c (normalizeBinSizes (fun i : Fin K => row ⟨K + i.1, by omega⟩) (c.rangeMax - c.rangeMin) c.minBinSize)
  slopes := normalizeKnotSlopes (fun i : Fin (K + 1) => row ⟨2 * K + i.1, by omega⟩) c.minKnotSlope

/-- rqSpline.py:315: `params.reshape(-1, 3 K + 1)`, row `f`. -/
def paramRow {d K : Nat} (params : Fin (d * (K * 3 + 1)) → ℝ) (f : Fin d) : Fin (K * 3 + 1) → ℝ :=
  fun j => params ⟨f.1 * (K * 3 + 1) + j.1, by
    have hf := f.2; have hj := j.2
    calc f.1 * (K * 3 + 1) + j.1 < f.1 * (K * 3 + 1) + (K * 3 + 1) := by omega
      _ = (f.1 + 1) * (K * 3 + 1) := by rw [Nat.add_mul, Nat.one_mul]
      _ ≤ d * (K * 3 + 1) := Nat.mul_le_mul_right _ hf⟩

/-- rqSpline.py:310-361 `RQSpline` with a conditioner `net` (a function of the condition): `get_params`, `forward`, `inverse`. -/
def rqSpline {d K : Nat} (tiny : ℝ) (c : SplineCfg) (net : Pos ℝ d → Fin (d * (K * 3 + 1)) → ℝ) : Bij d where
  fwd x cond :=
    let r := fun f : Fin d => let k := rowKnots c (paramRow (net cond) f); splineFwd (x f) k.xPos k.yPos k.slopes
    (fun f => (r f).1, fun f => (r f).2)
  inv x cond :=
    let r := fun f : Fin d => let k := rowKnots c (paramRow (net cond) f); splineInv tiny (x f) k.xPos k.yPos k.slopes
    (fun f => (r f).1, fun f => (r f).2)

/-- One entry of `MaskedCouplingRQSpline.layers` (rqSpline.py:427-440): the trainable parameters `scale`, `shift` of the `ScalarAffine`, the mask of the spline
layer and the `tanh` conditioner network. -/
structure SplineLayer (d K : Nat) where
  scale : ℝ
  shift : ℝ
  mask : Pos ℝ d
  mlp : MLP d (d * (K * 3 + 1))

/-- rqSpline.py:381-382 with the constants of the spline; `data_cov` is kept through its diagonal. -/
structure SplineFlow (d K : Nat) where
  base : BaseDist d
  cfg : SplineCfg
  layers : List (SplineLayer d K)
  dataMean : Pos ℝ d
  dataVar : Pos ℝ d

/-- rqSpline.py:434: `(arange(n) + i) % 2`. -/
def splineMask (d i : Nat) : Pos ℝ d := fun j => ((j.1 + i) % 2 : ℕ)

/-- rqSpline.py:427-440 `make_layer`. -/
def splineMakeLayer (dr : MLPDraws) (d K : Nat) (hidden : List Nat) (i : Nat) (k : Key) : SplineLayer d K :=
  { scale := 0, shift := 0, mask := splineMask d i, mlp := MLP.init dr (1 / 100) d hidden (d * (K * 3 + 1)) k }

/-- rqSpline.py:392-443 `MaskedCouplingRQSpline.__init__`; `spline_range` is given, `min_bin_size` and `min_knot_slope` have their defaults `1e-4`. -/
def SplineFlow.init (dr : MLPDraws) (d K nLayers : Nat) (hidden : List Nat) (k : Key) (lo hi : ℝ) (base : Option (BaseDist d))
    (mean var : Option (Pos ℝ d)) : SplineFlow d K :=
  { base := base.getD (stdGaussian d)
    cfg := { rangeMin := lo, rangeMax := hi, minBinSize := 1 / 10000, minKnotSlope := 1 / 10000 }
    layers := (List.range nLayers).map (fun i => splineMakeLayer dr d K hidden i (.child k i))
    dataMean := mean.getD (fun _ => 0)
    dataVar := var.getD (fun _ => 1) }

/-- `layers[0]`: `MaskedCouplingLayer(ScalarAffine(scale, shift), zeros)` (rqSpline.py:435-436). -/
def SplineLayer.affine {d K : Nat} (l : SplineLayer d K) : CouplingLayer d := { bij := scalarAffine l.scale l.shift, mask := fun _ => 0 }

/-- `layers[1]`: `MaskedCouplingLayer(RQSpline(mlp, lo, hi), mask)` (rqSpline.py:437-439). -/
def SplineLayer.spline {d K : Nat} (tiny : ℝ) (c : SplineCfg) (l : SplineLayer d K) : CouplingLayer d :=
  { bij := rqSpline tiny c (l.mlp.call Real.tanh), mask := l.mask }

/-- rqSpline.py:450-468 `forward`: for every layer first `layers[0]`, then `layers[1]`. -/
def SplineFlow.forward {d K : Nat} (tiny : ℝ) (m : SplineFlow d K) (x : Pos ℝ d) : Pos ℝ d × ℝ :=
  (scan (fun (s : Pos ℝ d × ℝ) (l : SplineLayer d K) =>
    let a := l.affine.forward s.1
    let b := (l.spline tiny m.cfg).forward a.1
    ((b.1, s.2 + a.2 + b.2), ())) (x, 0) m.layers).1

/-- rqSpline.py:470-488 `inverse`: the layers in reverse order, but inside a layer again `layers[0].inverse` first and `layers[1].inverse` second. -/
def SplineFlow.inverse {d K : Nat} (tiny : ℝ) (m : SplineFlow d K) (x : Pos ℝ d) : Pos ℝ d × ℝ :=
  (scan (fun (s : Pos ℝ d × ℝ) (l : SplineLayer d K) =>
    let a := l.affine.inverse s.1
    let b := (l.spline tiny m.cfg).inverse a.1
    ((b.1, s.2 + a.2 + b.2), ())) (x, 0) m.layers.reverse).1

/-- rqSpline.py:490-496 `sample`. -/
def SplineFlow.sample {d K : Nat} (tiny : ℝ) (m : SplineFlow d K) (rng : Rng ℝ) (k : Key) (n : Nat) : List (Pos ℝ d) :=
  (m.base.sample rng k n).map (fun z => unwhiten m.dataMean m.dataVar (m.inverse tiny z).1)

/-- rqSpline.py:498-504 `log_prob`. -/
def SplineFlow.logProb {d K : Nat} (tiny : ℝ) (m : SplineFlow d K) (x : Pos ℝ d) : ℝ :=
  let r := m.forward tiny (whiten m.dataMean m.dataVar x)
  r.2 + m.base.logProb r.1

end
end FlowMC
