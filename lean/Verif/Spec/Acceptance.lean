import Verif.Spec.Markov
import Verif.Props.HMC
import Verif.Props.Metropolis
/-
Acceptance rates: what the acceptance buffers estimate.
-/
open MeasureTheory
namespace FlowMC
variable {D M : Type} {d : ℕ}

/-- Metropolis acceptance probability of one step of a local kernel from `x` when its normal draws are `ξ`: the random walk proposes `x + s ξ`; MALA proposes `y = x + dt²/2 ∇ + dt ξ` and corrects for its drift; HMC starts with
the momentum made of `ξ` and compares total energies at the two ends of the trajectory. -/
noncomputable def Spec.acceptAt (kr : KernelRes ℝ d M) (t : Target ℝ D d) (data : Data D) (ξ x : Pos ℝ d) : ℝ :=
  match kr with
  | .grw s => min 1 (Real.exp (t.val (fun i => x i + ξ i * s) data) / Real.exp (t.val x data))
  | .mala dt =>
    let y : Pos ℝ d := fun i => x i + dt ^ 2 / 2 * t.grad x data i + dt * ξ i
    min 1 (Real.exp (t.val y data) * normalDensity x (fun i => y i + dt ^ 2 / 2 * t.grad y data i) (dt ^ 2) /
      (Real.exp (t.val x data) * normalDensity y (fun i => x i + dt ^ 2 / 2 * t.grad x data i) (dt ^ 2)))
  | .hmc ε n m L => min 1 (Real.exp (hmcEnergy m t data (x, hmcMomentum L ξ) - hmcEnergy m t data (leapfrogStep ε n m (hmcForce t data) (x, hmcMomentum L ξ))))
  | .nf _ _ => 0

/-- Acceptance probability of a flow proposal `y` from `x` when the flow's log-density is `lnf`. -/
noncomputable def Spec.flowAcceptAt (t : Target ℝ D d) (data : Data D) (lnf : Pos ℝ d → ℝ) (y x : Pos ℝ d) : ℝ :=
  min 1 (Real.exp (t.val y data) * Real.exp (lnf x) / (Real.exp (t.val x data) * Real.exp (lnf y)))

/-- The stationary acceptance rate of a local kernel: the mean acceptance probability of a step from a point with distribution `μ`. -/
noncomputable def Spec.localRate (kr : KernelRes ℝ d M) (t : Target ℝ D d) (data : Data D) (μ : Measure (Pos ℝ d)) : ℝ := ∫ x, ∫ ξ, acceptAt kr t data ξ x ∂(stdNormal d) ∂μ

/-- The stationary acceptance rate of flow proposals with distribution `q`. -/
noncomputable def Spec.flowRate (t : Target ℝ D d) (data : Data D) (lnf : Pos ℝ d → ℝ) (q μ : Measure (Pos ℝ d)) : ℝ := ∫ x, ∫ y, flowAcceptAt t data lnf y x ∂q ∂μ

end FlowMC
