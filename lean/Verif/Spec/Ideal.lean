import Verif.Model.Strategies
import Verif.Spec.Markov
import Mathlib.Probability.Independence.Basic
/-
Vocabulary for statements about whole chains: an ideal generator.  Nothing here models code of /repo; it replaces `jax.random` (a deterministic hash) by what
its documentation promises about it: draws made with different keys are independent, and have the advertised distribution.
-/
open MeasureTheory ProbabilityTheory
open scoped ENNReal
namespace FlowMC.Spec

variable {Ω D M O : Type} {d : ℕ}

/-- `q` is the distribution with log-density `lnf`, up to an additive constant in `lnf`: `q(dx) = Z · exp (lnf x) dx`. -/
def SamplesFrom (q : Measure (Fin d → ℝ)) (lnf : (Fin d → ℝ) → ℝ) : Prop := ∃ Z : ℝ≥0∞, q = Z • targetMeasure lnf

/-- An ideal random world for the keys in `T`.  `env ω` is the environment (generator and flow) the sampler sees in outcome `ω`.  `sig k` is the information
contained in the draws made with key `k`, `past` the information fixed before the call (for instance the starting positions, or everything drawn with keys
outside `T`).  All keys and the past are jointly independent (for keys outside `T`, `sig` may be trivial);
`normal` and `uniform` have their advertised distributions.  No relation is assumed between different draws made with the same key. -/
structure IdealOn (T : Key → Prop) (past : MeasurableSpace Ω) (sig : Key → MeasurableSpace Ω) [mΩ : MeasurableSpace Ω] (P : Measure Ω) (env : Ω → Env ℝ D d M O) : Prop where
  past_le : past ≤ mΩ
  sig_le : ∀ k, sig k ≤ mΩ
  indep : iIndep (fun o : Option Key => o.elim past sig) P
  normal_meas : ∀ k, T k → ∀ n, Measurable[sig k] (fun ω => (env ω).rng.normal k n)
  normal_law : ∀ k, T k → ∀ n, P.map (fun ω => (env ω).rng.normal k n) = stdNormal n
  uniform_meas : ∀ k, T k → Measurable[sig k] (fun ω => (env ω).rng.uniform k)
  uniform_law : ∀ k, T k → P.map (fun ω => (env ω).rng.uniform k) = unif

/-- An ideal random world: for all keys. -/
abbrev IdealDraws (past : MeasurableSpace Ω) (sig : Key → MeasurableSpace Ω) [MeasurableSpace Ω] (P : Measure Ω) (env : Ω → Env ℝ D d M O) : Prop :=
  IdealOn (fun _ => True) past sig P env

/-- The flow `m` in an ideal random world (for keys in `T`): `model.sample(key, n)` returns `n` independent points with distribution `q`, drawn with that key, and
`model.log_prob` is a fixed function `lnf` which is the log-density of `q` up to a constant. -/
structure IdealFlowOn (T : Key → Prop) [MeasurableSpace Ω] (P : Measure Ω) (sig : Key → MeasurableSpace Ω) (env : Ω → Env ℝ D d M O) (m : M) (q : Measure (Fin d → ℝ))
    (lnf : (Fin d → ℝ) → ℝ) : Prop where
  lawful : ∀ ω, (env ω).ops.Lawful
  rows_meas : ∀ k, T k → ∀ n, Measurable[sig k] (fun ω (i : Fin n) => ((env ω).ops.sample m k n).getD i 0)
  rows_law : ∀ k, T k → ∀ n, P.map (fun ω (i : Fin n) => ((env ω).ops.sample m k n).getD i 0) = Measure.pi (fun _ => q)
  logProb : ∀ ω, (env ω).ops.logProb m = lnf
  density : SamplesFrom q lnf

/-- For all keys. -/
abbrev IdealFlow [MeasurableSpace Ω] (P : Measure Ω) (sig : Key → MeasurableSpace Ω) (env : Ω → Env ℝ D d M O) (m : M) (q : Measure (Fin d → ℝ))
    (lnf : (Fin d → ℝ) → ℝ) : Prop := IdealFlowOn (fun _ => True) P sig env m q lnf

end FlowMC.Spec
