import Verif.Model.Sampler
/-
Specification vocabulary for randomness: which keys descend from which, and when two PRNG worlds agree on a set of keys.
-/
namespace FlowMC.Spec

variable {F D : Type} {d : Nat} {M O : Type}

/-- `Desc k a`: `a` is `k` itself or obtained from `k` by splitting. -/
inductive Desc (k : Key) : Key → Prop
  | refl : Desc k k
  | child {a : Key} (i : Nat) : Desc k a → Desc k (.child a i)

/-- The keys available to a strategy that receives `k` and returns `k'`: those derived from `k` but not from `k'`. -/
def Between (k k' a : Key) : Prop := Desc k a ∧ ¬ Desc k' a

/-- Two worlds that draw the same random numbers at all keys of the set `S` (and have the same deterministic parts). A flow sample drawn with
a key counts as a draw at that key. Outside `S` the draws may be completely different. -/
structure AgreeOn (S : Key → Prop) (e e' : Env F D d M O) : Prop where
  normal : ∀ k, S k → ∀ n, e.rng.normal k n = e'.rng.normal k n
  uniform : ∀ k, S k → e.rng.uniform k = e'.rng.uniform k
  permutation : ∀ k, S k → ∀ n, e.rng.permutation k n = e'.rng.permutation k n
  choice : ∀ k, S k → ∀ n m, e.rng.choice k n m = e'.rng.choice k n m
  sample : ∀ k, S k → ∀ m n, e.ops.sample m k n = e'.ops.sample m k n
  logProb : e.ops.logProb = e'.ops.logProb
  trainStep : e.ops.trainStep = e'.ops.trainStep
  setStats : e.ops.setStats = e'.ops.setStats
  big : e.big = e'.big

end FlowMC.Spec
