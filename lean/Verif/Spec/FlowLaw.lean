import Verif.Spec.Ideal
import Verif.Spec.Flow
/-
Vocabulary for the distribution of flow samples.  Nothing in this file models code of /repo.
-/
open MeasureTheory ProbabilityTheory
open scoped ENNReal
namespace FlowMC.Spec

variable {Ω D M O : Type} {d : ℕ}

/-- In an ideal random world the lists `rows k n ω` consist of `n` independent points with distribution `q`, made from the draws with key `k` only. -/
structure IidRows [MeasurableSpace Ω] (P : Measure Ω) (sig : Key → MeasurableSpace Ω) (rows : Key → ℕ → Ω → List (Fin d → ℝ)) (q : Measure (Fin d → ℝ)) : Prop where
  length : ∀ k n ω, (rows k n ω).length = n
  meas : ∀ k n, Measurable[sig k] (fun ω (i : Fin n) => (rows k n ω).getD i 0)
  law : ∀ k n, P.map (fun ω (i : Fin n) => (rows k n ω).getD i 0) = Measure.pi (fun _ => q)

/-- The lists `rows k n ω` consist of `n` independent points with distribution `q`. -/
structure IidLaw [MeasurableSpace Ω] (P : Measure Ω) (rows : Key → ℕ → Ω → List (Fin d → ℝ)) (q : Measure (Fin d → ℝ)) : Prop where
  length : ∀ k n ω, (rows k n ω).length = n
  law : ∀ k n, P.map (fun ω (i : Fin n) => (rows k n ω).getD i 0) = Measure.pi (fun _ => q)

/-- A base distribution that keeps its promise: `exp (log_prob)` is a probability density and `sample(key, n)` returns `n` independent points with that density. -/
structure ConsistentBase [MeasurableSpace Ω] (P : Measure Ω) (sig : Key → MeasurableSpace Ω) (env : Ω → Env ℝ D d M O) (base : BaseDist d) : Prop where
  logProb_meas : Measurable base.logProb
  normalised : IsProbabilityMeasure (targetMeasure base.logProb)
  rows : IidRows P sig (fun k n ω => base.sample (env ω).rng k n) (targetMeasure base.logProb)

end FlowMC.Spec
