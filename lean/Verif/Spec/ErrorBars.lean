import Verif.Spec.Converge
import Verif.Model.Bundle
/-
Vocabulary for statements about the error of averages over production rows.  Nothing here models code of /repo.
-/
open MeasureTheory
namespace FlowMC.Spec

variable {Ω D M O : Type} {d : ℕ}

/-- The average of `f` over the first `n` rows of all of the first `nC` chains in a position buffer. -/
noncomputable def pooledMean (f : (Fin d → ℝ) → ℝ) (b : Buffer ℝ) (nC n : ℕ) : ℝ := (∑ i ∈ Finset.range nC, chainMean f b i n) / nC

/-- What one production loop of a bundle leaves of the distance to the target, when the density of the flow is everywhere at least `1/C` times the density of the target: the factor `1 - 1/C` for every flow proposal
up to the last recorded one. -/
noncomputable def loopFactor {R : Type} (c : BundleCfg R D d M O) (C : ℝ) : ℝ := (1 - 1 / C) ^ ((c.nGlobal / c.globalThin - 1) * c.globalThin + 1)

/-- Error bars for the averages of `f` over a (random) position buffer with `nC` chains of `n` rows, as estimates of `a`: in each chain the bias is at most `bias` and the mean square error at most `v`; the mean square
error of the average over all chains is at most `v / nC + bias²`. -/
structure ErrorBars [MeasurableSpace Ω] (P : Measure Ω) (f : (Fin d → ℝ) → ℝ) (a : ℝ) (b : Ω → Buffer ℝ) (nC n : ℕ) (bias v : ℝ) : Prop where
  meas : ∀ i < nC, Measurable fun ω => chainMean f (b ω) i n
  chain_bias : ∀ i < nC, |∫ ω, chainMean f (b ω) i n ∂P - a| ≤ bias
  chain_error : ∀ i < nC, ∫ ω, (chainMean f (b ω) i n - a) ^ 2 ∂P ≤ v
  pooled_error : ∫ ω, (pooledMean f (b ω) nC n - a) ^ 2 ∂P ≤ v / nC + bias ^ 2

end FlowMC.Spec
