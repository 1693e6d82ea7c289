import Verif.Spec.Markov
import Mathlib.LinearAlgebra.Matrix.Notation
import Mathlib.Algebra.BigOperators.Fin
import Mathlib.Algebra.BigOperators.Pi
import Mathlib.Topology.MetricSpace.Lipschitz
/-
Textbook notions for Hamiltonian Monte Carlo: the velocity Verlet step, the momentum flip, and the Cholesky factor of an inverse matrix.
Nothing in this file models code of /repo.
-/
open MeasureTheory
namespace FlowMC.Spec

variable {d : ℕ}

/-- One velocity Verlet (leapfrog) step with step size `ε`: half a kick, a drift with the velocity `v p`, half a kick. -/
noncomputable def verlet (ε : ℝ) (v gradU : (Fin d → ℝ) → (Fin d → ℝ)) (z : (Fin d → ℝ) × (Fin d → ℝ)) : (Fin d → ℝ) × (Fin d → ℝ) :=
  let p₁ : Fin d → ℝ := fun i => z.2 i - ε / 2 * gradU z.1 i
  let x' : Fin d → ℝ := fun i => z.1 i + ε * v p₁ i
  (x', fun i => p₁ i - ε / 2 * gradU x' i)

/-- Momentum flip. -/
def momentumFlip (z : (Fin d → ℝ) × (Fin d → ℝ)) : (Fin d → ℝ) × (Fin d → ℝ) := (z.1, fun i => -z.2 i)

/-- `L` is `cholesky (inv M)`: lower triangular with positive diagonal and `L Lᵀ = M⁻¹`, i.e. `M (L Lᵀ) = 1`. -/
structure IsCholeskyInv (M L : Fin d → Fin d → ℝ) : Prop where
  lower : ∀ i j, i < j → L i j = 0
  diag : ∀ i, 0 < L i i
  inv : ∀ i j, ∑ k, M i k * ∑ l, L k l * L j l = if i = j then 1 else 0

/-- A diagonal matrix with positive entries. -/
structure IsPosDiag (M : Fin d → Fin d → ℝ) : Prop where
  off : ∀ i j, i ≠ j → M i j = 0
  pos : ∀ i, 0 < M i i

/-- Trajectories that are short compared with the curvature of the log-density: with `n + 1` leapfrog steps of size `ε` and (diagonal) inverse masses `M i i`, the gradient `g` of the log-density is Lipschitz
(in the maximum norm) with a constant `K` such that `K * M i i * ε² * n * (n + 2) < 3`.  With a single leapfrog step (`n = 0`) nothing is required of `g`. -/
def ShortTrajectory (ε : ℝ) (n : ℕ) (M : Fin d → Fin d → ℝ) (g : (Fin d → ℝ) → (Fin d → ℝ)) : Prop :=
  ε ≠ 0 ∧ (n = 0 ∨ ∃ K : NNReal, LipschitzWith K g ∧ ∀ i, K * M i i * ε ^ 2 * (n * (n + 2)) < 3)

end FlowMC.Spec
