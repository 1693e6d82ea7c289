import Verif.Model.Kernels
import Verif.Jax.Ieee
import Mathlib.LinearAlgebra.Matrix.NonsingularInverse
/-
Model of /repo/src/flowMC/resource/model/common.py: MLP, MaskedCouplingLayer, MLPAffine, ScalarAffine, Gaussian.
Exact real arithmetic; `jax.lax.stop_gradient` is the identity on values.
-/
namespace FlowMC
noncomputable section

/-- A multilayer perceptron from `n` inputs to `m` outputs, with its weights and biases (common.py:68-82).  `hidden W b rest` is
`[Linear(n, k), activation] ++ rest`; `last W b` is the final `Linear(n, m)`.  All uses in the library keep `use_bias = True`. -/
inductive MLP : Nat → Nat → Type
  | last {n m : Nat} (W : Fin m → Fin n → ℝ) (b : Fin m → ℝ) : MLP n m
  | hidden {n k m : Nat} (W : Fin k → Fin n → ℝ) (b : Fin k → ℝ) (rest : MLP k m) : MLP n m

/-- `eqx.nn.Linear.__call__`: `weight @ x + bias`. -/
def linear {n m : Nat} (W : Fin m → Fin n → ℝ) (b : Fin m → ℝ) (x : Fin n → ℝ) : Fin m → ℝ :=
  fun i => sumFin (fun j => W i j * x j) + b i

/-- common.py:109-112 `MLP.__call__`; `act` is the activation, applied to every coordinate. -/
def MLP.call (act : ℝ → ℝ) : {n m : Nat} → MLP n m → (Fin n → ℝ) → (Fin m → ℝ)
  | _, _, .last W b, x => linear W b x
  | _, _, .hidden W b rest, x => rest.call act (fun i => act (linear W b x i))

/-- common.py:114-116 `n_input`. -/
def MLP.nInput {n m : Nat} (_ : MLP n m) : Nat := n

/-- common.py:118-120 `n_output`. -/
def MLP.nOutput {n m : Nat} (_ : MLP n m) : Nat := m

/-- Initial draws of common.py:93-107: `lin k n m` is the weight matrix and bias of `eqx.nn.Linear(n, m, key=k)`; `mat k m n` is
`jax.random.normal(k, (m, n))`. -/
structure MLPDraws where
  lin : Key → (n m : Nat) → (Fin m → Fin n → ℝ) × (Fin m → ℝ)
  mat : Key → (m n : Nat) → Fin m → Fin n → ℝ

/-- common.py:84-107 `MLP.__init__` for the shape `[n] ++ hid ++ [m]`: hidden layers keep the bias of `eqx.nn.Linear` and replace
its weights by `normal * sqrt(scale / shape[i])`; the last layer keeps the defaults of `eqx.nn.Linear`. -/
def MLP.init (dr : MLPDraws) (scale : ℝ) : (n : Nat) → (hid : List Nat) → (m : Nat) → Key → MLP n m
  | n, [], m, k => let l := dr.lin (.child k 1) n m; .last l.1 l.2
  | n, h :: hid, m, k =>
    .hidden (fun i j => dr.mat (.child k 2) h n i j * Real.sqrt (scale / n)) (dr.lin (.child k 1) n h).2
      (MLP.init dr scale h hid m (.child k 0))

/-- `jax.nn.relu`. -/
def relu (x : ℝ) : ℝ := max x 0

/-- A `Bijection` used inside a coupling layer (common.py:10-41): `forward(x, condition)` and `inverse(x, condition)` return the
transformed vector and one log-determinant per coordinate (a scalar log-determinant is broadcast). -/
structure Bij (d : Nat) where
  fwd : Pos ℝ d → Pos ℝ d → Pos ℝ d × Pos ℝ d
  inv : Pos ℝ d → Pos ℝ d → Pos ℝ d × Pos ℝ d

/-- common.py:171-208 `MLPAffine`; the two networks are given as functions, `relu` networks in RealNVP. -/
def mlpAffine {d : Nat} (scaleNet shiftNet : Pos ℝ d → Pos ℝ d) (dt : ℝ) : Bij d where
  fwd x c :=
    let scale : Pos ℝ d := fun i => Real.tanh (scaleNet c i) * dt
    let shift : Pos ℝ d := fun i => shiftNet c i * dt
    (fun i => (x i + shift i) * Real.exp (scale i), scale)
  inv x c :=
    let scale : Pos ℝ d := fun i => Real.tanh (scaleNet c i) * dt
    let shift : Pos ℝ d := fun i => shiftNet c i * dt
    (fun i => x i * Real.exp (-scale i) - shift i, fun i => -scale i)

/-- common.py:211-240 `ScalarAffine`. -/
def scalarAffine {d : Nat} (scale shift : ℝ) : Bij d where
  fwd x _ := (fun i => (x i + shift) * Real.exp scale, fun _ => scale)
  inv x _ := (fun i => x i * Real.exp (-scale) - shift, fun _ => -scale)

/-- common.py:127-148 `MaskedCouplingLayer`: an inner bijector and a mask of numbers (1: the coordinate is passed through). -/
structure CouplingLayer (d : Nat) where
  bij : Bij d
  mask : Pos ℝ d

/-- common.py:150-158 `MaskedCouplingLayer.forward`. -/
def CouplingLayer.forward {d : Nat} (l : CouplingLayer d) (x : Pos ℝ d) : Pos ℝ d × ℝ :=
  let r := l.bij.fwd x (fun i => x i * l.mask i)
  (fun i => (1 - l.mask i) * r.1 i + l.mask i * x i, sumFin (fun i => (1 - l.mask i) * r.2 i))

/-- common.py:160-168 `MaskedCouplingLayer.inverse`. -/
def CouplingLayer.inverse {d : Nat} (l : CouplingLayer d) (x : Pos ℝ d) : Pos ℝ d × ℝ :=
  let r := l.bij.inv x (fun i => x i * l.mask i)
  (fun i => (1 - l.mask i) * r.1 i + l.mask i * x i, sumFin (fun i => (1 - l.mask i) * r.2 i))

/-- A `Distribution` (common.py:44-65): `log_prob(x)` and `sample(key, n)` (a list of `n` rows). -/
structure BaseDist (d : Nat) where
  logProb : Pos ℝ d → ℝ
  sample : Rng ℝ → Key → Nat → List (Pos ℝ d)

/-- Row `i` of `jax.random.normal(key, (n, d))`: one draw of `n * d` numbers, filled row by row. -/
def normalRow (rng : Rng ℝ) (k : Key) (n d : Nat) (i : Fin n) : Pos ℝ d := fun j => rng.normal k (n * d) ⟨i.1 * d + j.1, by
    have hi := i.2; have hj := j.2
    calc i.1 * d + j.1 < i.1 * d + d := by omega
      _ = (i.1 + 1) * d := by rw [Nat.add_mul, Nat.one_mul]
      _ ≤ n * d := Nat.mul_le_mul_right _ hi⟩

/-- common.py:243-293 `Gaussian(mean, cov)`, given by the Cholesky factor `L` of `cov` (`cov = L Lᵀ`), which is all that the two jax functions use:
`multivariate_normal.logpdf(x, mean, cov)` solves `L y = x - mean` and returns `-1/2 y·y - d/2 log(2π) - Σ log L_ii`;
`jax.random.multivariate_normal(key, mean, cov, (n,))` returns the rows `mean + L z` for the rows `z` of `normal(key, (n, d))`. -/
def gaussian {d : Nat} (mean : Pos ℝ d) (L : Matrix (Fin d) (Fin d) ℝ) : BaseDist d where
  logProb x :=
    let y := L⁻¹.mulVec (fun i => x i - mean i);
    -(1 / 2) * sumFin (fun i => y i * y i) - d / 2 * Real.log (2 * Real.pi) - sumFin (fun i => Real.log (L i i))
  sample rng k n := (List.finRange n).map (fun i => fun a => mean a + L.mulVec (normalRow rng k n d i) a)

/-- common.py:285-293 for the default base distribution `Gaussian(zeros, eye)` (realNVP.py:150-152, rqSpline.py:411-413), simplified with `L = I`: the
density is `isoNormLogpdf x 0 1`, the rows are those of `normal(key, (n, d))`.  `C46_stdGaussian_eq` proves that it equals `gaussian 0 1`. -/
def stdGaussian (d : Nat) : BaseDist d where
  logProb x := isoNormLogpdf x (fun _ => 0) 1
  sample rng k n := (List.finRange n).map (normalRow rng k n d)

end
end FlowMC
