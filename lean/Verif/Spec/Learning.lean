import Verif.Model.Strategies
import Verif.Jax.Ieee
import Verif.Lemmas.ListMeas
/-
Vocabulary for statements about training in a random world.  Nothing here models code of /repo.
-/
open MeasureTheory
namespace FlowMC.Spec

variable {Ω F D M O : Type} {d : ℕ}

/-- Training is an ordinary (measurable) procedure: the shuffling of the examples and the choice of the examples are drawn with their keys (`sig k` is the information in the draws of key `k`); the
optimisation step and the standardisation are deterministic measurable functions of the flow, the optimiser state and the batch, and do not leave the class `G` of flows; the number standing for
`1e9` is fixed.  (A set of lists is measurable if for every length the vectors it contains form a measurable set.) -/
structure OrdinaryTraining (sig : Key → MeasurableSpace Ω) (env : Ω → Env F D d M O) (G : Set M) [MeasurableSpace F] [MeasurableSpace M] [MeasurableSpace O] : Prop where
  shuffle : ∀ k n, Measurable[sig k] fun ω => (env ω).rng.permutation k n
  choose : ∀ k n m, Measurable[sig k] fun ω => (env ω).rng.choice k n m
  step : ∃ f : M → O → List (Pos F d) → F × M × O, (Measurable fun p : M × O × List (Pos F d) => f p.1 p.2.1 p.2.2) ∧ (∀ ω, (env ω).ops.trainStep = f) ∧ ∀ m ∈ G, ∀ o b, (f m o b).2.1 ∈ G
  stats : ∃ f : M → List (Pos F d) → M, (Measurable fun p : M × List (Pos F d) => f p.1 p.2) ∧ (∀ ω, (env ω).ops.setStats = f) ∧ ∀ m ∈ G, ∀ b, f m b ∈ G
  big : ∃ b, ∀ ω, (env ω).big = b

end FlowMC.Spec
