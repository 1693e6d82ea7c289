import Verif.Spec.Ideal
/-
Vocabulary for statements about runs whose flow is the (random) outcome of training.  Nothing here models code of /repo.
-/
open MeasureTheory ProbabilityTheory
open scoped ENNReal
namespace FlowMC.Spec

variable {Ω D M O Z : Type} {d : ℕ}

/-- A family of flows in an ideal random world (for keys in `T`).  The flows in `G` are obtained from one source of randomness: `model.sample(key, n)` draws `n` independent points with
distribution `ν` (the base distribution), with that key and without looking at the flow, and pushes them through the flow; `model.log_prob` is `lnf model`, which is, for each flow in `G`,
the log-density of its samples up to a constant.  Both depend measurably on the flow and the point.  The flows may be arbitrarily far from the target, and from each other. -/
structure FlowFamily (T : Key → Prop) [MeasurableSpace Ω] (P : Measure Ω) (sig : Key → MeasurableSpace Ω) (env : Ω → Env ℝ D d M O) [MeasurableSpace M] [MeasurableSpace Z] (ν : Measure Z)
    (push : M → Z → Fin d → ℝ) (lnf : M → (Fin d → ℝ) → ℝ) (G : Set M) : Prop where
  lawful : ∀ ω, (env ω).ops.Lawful
  prob : IsProbabilityMeasure ν
  pushMeas : Measurable fun p : M × Z => push p.1 p.2
  lnfMeas : Measurable fun p : M × (Fin d → ℝ) => lnf p.1 p.2
  rows : ∀ k, T k → ∀ n, ∃ z : Ω → Fin n → Z, Measurable[sig k] z ∧ P.map z = Measure.pi (fun _ => ν) ∧
    ∀ ω, ∀ m ∈ G, ∀ i : Fin n, ((env ω).ops.sample m k n).getD i 0 = push m (z ω i)
  logProb : ∀ ω, ∀ m ∈ G, (env ω).ops.logProb m = lnf m
  density : ∀ m ∈ G, SamplesFrom (ν.map (push m)) (lnf m)

/-- The random point `Y` has the distribution `π` up to `ε`, and up to `ε` it is independent of everything in `past`: the joint distribution of `Y` and the past is, in total variation,
within `ε` of what it would be if `Y` were drawn from `π` independently of the past. -/
def FreshInLaw {X : Type} [mX : MeasurableSpace X] (past : MeasurableSpace Ω) [MeasurableSpace Ω] (P : Measure Ω) (Y : Ω → X) (π : Measure X) (ε : ℝ) : Prop :=
  ∀ E : Set (Ω × X), MeasurableSet[past.prod mX] E → |P.real {ω | (ω, Y ω) ∈ E} - ∫ ω, π.real {y | (ω, y) ∈ E} ∂P| ≤ ε

end FlowMC.Spec
