import Verif.Spec.Markov
import Verif.Model.Resource
/-
Vocabulary for statements about convergence of chains.  Nothing in this file models code of /repo.
-/
open MeasureTheory
namespace FlowMC.Spec

variable {X Ω : Type} [MeasurableSpace X] [MeasurableSpace Ω]

/-- Distribution of the position after one random step, when the position before has distribution `μ` and the draws have distribution `ν` independently of it. -/
noncomputable def stepLaw (ν : Measure Ω) (step : Ω → X → X) (μ : Measure X) : Measure X := (μ.prod ν).map (fun p => step p.2 p.1)

/-- Convergence in total variation: the probabilities of all events converge, uniformly over the events. -/
def TVConverges (law : ℕ → Measure X) (π : Measure X) : Prop :=
  ∀ ε : ℝ, 0 < ε → ∃ N, ∀ n, N ≤ n → ∀ A, MeasurableSet A → |(law n).real A - π.real A| ≤ ε

/-- The random point `Y` has the distribution `π` up to `ε`: every event has probability within `ε` of its probability under `π`. -/
def CloseInLaw (P : Measure Ω) (Y : Ω → X) (π : Measure X) (ε : ℝ) : Prop :=
  ∀ A, MeasurableSet A → |P.real {ω | Y ω ∈ A} - π.real A| ≤ ε

/-- The probability distribution proportional to `m`. -/
noncomputable def normalised (m : Measure X) : Measure X := (m Set.univ)⁻¹ • m

/-- The probability density at `x` of the distribution proportional to `exp lp`. -/
noncomputable def density {d : ℕ} (lp : (Fin d → ℝ) → ℝ) (x : Fin d → ℝ) : ℝ := Real.exp (lp x) / (targetMeasure lp).real Set.univ

/-- The average of `f` over the first `n` rows of chain `i` in a position buffer. -/
noncomputable def chainMean {d : ℕ} (f : (Fin d → ℝ) → ℝ) (b : Buffer ℝ) (i n : ℕ) : ℝ := (∑ j ∈ Finset.range n, f fun a => b.data.get [i, j, a]) / n

end FlowMC.Spec
