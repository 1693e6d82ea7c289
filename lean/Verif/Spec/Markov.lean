import Verif.Model.Kernels
import Verif.Jax.Ieee
import Mathlib.MeasureTheory.Measure.Prod
import Mathlib.MeasureTheory.Measure.WithDensity
import Mathlib.Probability.Distributions.Gaussian.Real
import Mathlib.MeasureTheory.Constructions.Pi
/-
Vocabulary for statements about distributions.  Nothing in this file models code of /repo: it says what "the target distribution", "reversible" and
"invariant" mean for a random step, and what the draws of an ideal generator are distributed like.
-/
open MeasureTheory ProbabilityTheory
namespace FlowMC.Spec

variable {X Ω : Type} [MeasurableSpace X] [MeasurableSpace Ω]

/-- The (unnormalised) distribution with log-density `logp`: `exp (logp x) dx`. -/
noncomputable def targetMeasure {Y : Type} [MeasureSpace Y] (logp : Y → ℝ) : Measure Y := volume.withDensity (fun x => ENNReal.ofReal (Real.exp (logp x)))

/-- `n` independent standard normal numbers. -/
noncomputable def stdNormal (n : ℕ) : Measure (Fin n → ℝ) := Measure.pi (fun _ => gaussianReal 0 1)

/-- The uniform distribution on `[0, 1)`. -/
noncomputable def unif : Measure ℝ := volume.restrict (Set.Ico 0 1)

/-- Joint distribution of the normal vector and the uniform number one step of a local kernel consumes. -/
noncomputable def noise (n : ℕ) : Measure ((Fin n → ℝ) × ℝ) := (stdNormal n).prod unif

/-- If `x` has distribution `π` and the draws `ω` have distribution `ν` independently, then `step ω x` has distribution `π`. -/
def Invariant (π : Measure X) (ν : Measure Ω) (step : Ω → X → X) : Prop := (π.prod ν).map (fun p => step p.2 p.1) = π

/-- Detailed balance: if `x` has distribution `π`, the pair (old position, new position) is distributed like the pair (new position, old position). -/
def Reversible (π : Measure X) (ν : Measure Ω) (step : Ω → X → X) : Prop :=
  (π.prod ν).map (fun p => (p.1, step p.2 p.1)) = (π.prod ν).map (fun p => (step p.2 p.1, p.1))

/-- The flow from `A` to `B` equals the flow from `B` to `A`; the usual way to write detailed balance. -/
def DetailedBalance (π : Measure X) (ν : Measure Ω) (step : Ω → X → X) : Prop :=
  ∀ A B, MeasurableSet A → MeasurableSet B → ∫⁻ x in A, ν {ω | step ω x ∈ B} ∂π = ∫⁻ x in B, ν {ω | step ω x ∈ A} ∂π

end FlowMC.Spec
