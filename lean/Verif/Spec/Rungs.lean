import Verif.Spec.Agree
/-
Vocabulary for C117: what of the replicas and of the temperatures a tempering call can see.
-/
namespace FlowMC.Spec

variable {α F D M O : Type} {d : ℕ}

/-- Two lists have the same entries at the indices `0, …, r` (and end at the same place if they end before). -/
def SameUpTo (r : ℕ) (xs ys : List α) : Prop := ∀ j ≤ r, xs[j]? = ys[j]?

/-- Two replica buffers of the same shape that hold the same replica of every chain at the first temperature above the chain's own, whatever they hold at the hotter ones. -/
def SameNearestReplica (b b' : Buffer F) : Prop := b.data.shape = b'.data.shape ∧ ∀ chain c, b.data.get [chain, 0, c] = b'.data.get [chain, 0, c]

/-- Two temperature buffers of the same shape with the same two lowest temperatures, whatever the higher ones are. -/
def SameLowest (b b' : Buffer F) : Prop := b.data.shape = b'.data.shape ∧ b.data.get [0] = b'.data.get [0] ∧ b.data.get [1] = b'.data.get [1]

/-- Two sets of resources that differ at most in the replicas at the third temperature and above and in the temperatures from the third on.  `P` and `T` are the names of the replica and of the temperature
buffer. -/
structure SameNearCold (P T : String) (h h' : Heap F D d M O) : Prop where
  rest : ResAgree {n | n ≠ P ∧ n ≠ T} h h'
  replicas : ∃ b b', h.res P = some (.buffer b) ∧ h'.res P = some (.buffer b') ∧ SameNearestReplica b b'
  temperatures : ∃ b b', h.res T = some (.buffer b) ∧ h'.res T = some (.buffer b') ∧ SameLowest b b'

end FlowMC.Spec
