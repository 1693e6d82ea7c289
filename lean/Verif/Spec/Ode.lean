import Verif.Model.FlowMatching
import Mathlib.Analysis.Calculus.Deriv.Basic
import Mathlib.Analysis.Calculus.FDeriv.Basic
import Mathlib.LinearAlgebra.Matrix.ToLin
import Mathlib.LinearAlgebra.Matrix.Trace
import Mathlib.Topology.Algebra.Module.FiniteDimension
import Mathlib.MeasureTheory.Integral.IntervalIntegral.Basic
/-
What it means that an ODE solver is exact for a velocity field.  Nothing in this file models code of /repo.
-/
namespace FlowMC.Spec

/-- `φ x t` is the solution curve of `y' = v(y, t)` with `y(0) = x`, for `0 ≤ t ≤ 1`; it depends differentiably on `x` with Jacobian `J x t`, which solves the
variational equation `J' = Dv · J`, `J(0) = I`; `Dv y t` is the Jacobian matrix of the field in its position. -/
structure SmoothFlow {d : ℕ} (v : Pos ℝ d → ℝ → Pos ℝ d) (Dv : Pos ℝ d → ℝ → Matrix (Fin d) (Fin d) ℝ) (φ : Pos ℝ d → ℝ → Pos ℝ d)
    (J : Pos ℝ d → ℝ → Matrix (Fin d) (Fin d) ℝ) : Prop where
  jac : ∀ y t i j, HasDerivAt (fun u => v (Function.update y j u) t i) (Dv y t i j) (y j)
  start : ∀ x, φ x 0 = x
  ode : ∀ x, ∀ t ∈ Set.Icc (0 : ℝ) 1, ∀ i, HasDerivWithinAt (fun t => φ x t i) (v (φ x t) t i) (Set.Icc 0 1) t
  jacStart : ∀ x, J x 0 = 1
  variational : ∀ x, ∀ t ∈ Set.Icc (0 : ℝ) 1, ∀ i j, HasDerivWithinAt (fun t => J x t i j) ((Dv (φ x t) t * J x t) i j) (Set.Icc 0 1) t
  deriv : ∀ x, HasFDerivAt (fun x => φ x 1) (LinearMap.toContinuousLinearMap (Matrix.toLin' (J x 1))) x
  divergence : ∀ x, ContinuousOn (fun t => (Dv (φ x t) t).trace) (Set.Icc 0 1)
  bijective : Function.Bijective (fun x => φ x 1)

/-- The solver returns the end points of the solution curves, and the integral of the divergence along them, backward in time. -/
structure ExactSolver {d : ℕ} (s : OdeSolver d) (Dv : Pos ℝ d → ℝ → Matrix (Fin d) (Fin d) ℝ) (φ : Pos ℝ d → ℝ → Pos ℝ d) : Prop where
  forward : ∀ x, s.forward x = φ x 1
  backward_pos : ∀ x, (s.backward (φ x 1)).1 = x
  backward_div : ∀ x, (s.backward (φ x 1)).2 = ∫ t in (1 : ℝ)..0, (Dv (φ x t) t).trace

end FlowMC.Spec
