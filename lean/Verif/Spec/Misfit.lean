import Verif.Spec.Ideal
/-
Vocabulary for statements about a flow whose `log_prob` and samples disagree.  Nothing in this file models code of /repo.
-/
open MeasureTheory
namespace FlowMC.Spec

variable {Ω D M O : Type} {d : ℕ}

/-- Log-density (up to a constant) of what is sampled for the target `lp` by a flow that reports `lnf` and whose samples have log-density `lq`. -/
def misfit (lp lnf lq : (Fin d → ℝ) → ℝ) (x : Fin d → ℝ) : ℝ := lp x - lnf x + lq x

/-- The flow `m` in a world that is ideal for the keys in `T`: `model.sample(key, n)` returns `n` independent points with distribution `q`, drawn with that key, and `model.log_prob` is
the function `lnf`.  Nothing is assumed about how `lnf` and `q` are related. -/
structure FlowSamplesOn (T : Key → Prop) [MeasurableSpace Ω] (P : Measure Ω) (sig : Key → MeasurableSpace Ω) (env : Ω → Env ℝ D d M O) (m : M) (q : Measure (Fin d → ℝ))
    (lnf : (Fin d → ℝ) → ℝ) : Prop where
  lawful : ∀ ω, (env ω).ops.Lawful
  rows_meas : ∀ k, T k → ∀ n, Measurable[sig k] (fun ω (i : Fin n) => ((env ω).ops.sample m k n).getD i 0)
  rows_law : ∀ k, T k → ∀ n, P.map (fun ω (i : Fin n) => ((env ω).ops.sample m k n).getD i 0) = Measure.pi (fun _ => q)
  logProb : ∀ ω, (env ω).ops.logProb m = lnf

/-- For all keys. -/
abbrev FlowSamples [MeasurableSpace Ω] (P : Measure Ω) (sig : Key → MeasurableSpace Ω) (env : Ω → Env ℝ D d M O) (m : M) (q : Measure (Fin d → ℝ)) (lnf : (Fin d → ℝ) → ℝ) : Prop :=
  FlowSamplesOn (fun _ => True) P sig env m q lnf

end FlowMC.Spec
