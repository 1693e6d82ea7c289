import Verif.Spec.WallAverages
import Verif.Spec.ErrorBars
/-
Vocabulary for statements about the error of averages over production rows on a target with hard boundaries.  Nothing here models code of /repo.
-/
open MeasureTheory
namespace FlowMC.Spec

variable {Ω : Type} {d : ℕ}

/-- The probability density at a point `x` of `S` of the distribution on `S` proportional to `exp lp`. -/
noncomputable def wallDensity (S : Set (Fin d → ℝ)) (lp : (Fin d → ℝ) → ℝ) (x : Fin d → ℝ) : ℝ := Real.exp (lp x) / (wallMeasure S lp).real Set.univ

/-- The average of `f` over the first `n` rows of all of the first `nC` chains in a position buffer. -/
noncomputable def wallPooledMean (f : (Fin d → ℝ) → ℝ) (b : Buffer XR) (nC n : ℕ) : ℝ := (∑ i ∈ Finset.range nC, wallMean f b i n) / nC

/-- Error bars for the averages of `f` over a (random) position buffer with `nC` chains of `n` rows, as estimates of `a`: in each chain the bias is at most `bias` and the mean square error at most `v`; the mean square
error of the average over all chains is at most `v / nC + bias²`. -/
structure WallErrorBars [MeasurableSpace Ω] (P : Measure Ω) (f : (Fin d → ℝ) → ℝ) (a : ℝ) (b : Ω → Buffer XR) (nC n : ℕ) (bias v : ℝ) : Prop where
  meas : ∀ i < nC, Measurable fun ω => wallMean f (b ω) i n
  chain_bias : ∀ i < nC, |∫ ω, wallMean f (b ω) i n ∂P - a| ≤ bias
  chain_error : ∀ i < nC, ∫ ω, (wallMean f (b ω) i n - a) ^ 2 ∂P ≤ v
  pooled_error : ∫ ω, (wallPooledMean f (b ω) nC n - a) ^ 2 ∂P ≤ v / nC + bias ^ 2

end FlowMC.Spec
