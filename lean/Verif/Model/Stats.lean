import Verif.Model.RQSpline
import Verif.Model.FlowMatching
/-
Model of the data statistics set at the start of training: nf_model/base.py:187-188 and flowmatching/base.py:290-291.  Exact arithmetic.
-/
namespace FlowMC
noncomputable section

variable {d : Nat}

/-- `jnp.mean(data, axis=0)`. -/
def rowMean (data : List (Pos ℝ d)) : Pos ℝ d := fun i => (data.map (· i)).sum / data.length

/-- `jnp.cov(data.T)`: the unbiased sample covariance (`ddof = 1`); for one feature JAX returns a scalar, which `data_cov` turns into a 1×1 matrix.  (With a single row
JAX divides by zero and returns NaN; here the value is 0.) -/
def rowCov (data : List (Pos ℝ d)) (i j : Fin d) : ℝ :=
  (data.map (fun r => (r i - rowMean data i) * (r j - rowMean data j))).sum / (data.length - 1)

/-- nf_model/base.py:187-188 on a RealNVP; only the diagonal of the covariance is ever used (realNVP.py:199-203, 213, 218). -/
def RealNVP.setStats (m : RealNVP d) (data : List (Pos ℝ d)) : RealNVP d :=
  { m with dataMean := rowMean data, dataVar := fun i => rowCov data i i }

/-- nf_model/base.py:187-188 on a spline flow. -/
def SplineFlow.setStats {K : Nat} (m : SplineFlow d K) (data : List (Pos ℝ d)) : SplineFlow d K :=
  { m with dataMean := rowMean data, dataVar := fun i => rowCov data i i }

/-- flowmatching/base.py:290-291. -/
def FlowMatching.setStats (m : FlowMatching d) (data : List (Pos ℝ d)) : FlowMatching d :=
  { m with dataMean := rowMean data, dataVar := fun i => rowCov data i i }

end
end FlowMC
