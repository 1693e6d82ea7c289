import Mathlib.Data.Set.Basic
import Verif.Model.Sampler
/-
Vocabulary for C84: two sets of resources that agree on some names, and runs that cannot tell them apart.
-/
namespace FlowMC.Spec

variable {F D M O : Type} {d : ℕ}

/-- The two resource dictionaries have the same resources under the names in `S`, and all cursors are the same. -/
def ResAgree (S : Set String) (h h' : Heap F D d M O) : Prop := (∀ n ∈ S, h.res n = h'.res n) ∧ ∀ i, h.pos i = h'.pos i

/-- Two outcomes of a call are the same as far as the names in `S` are concerned: the same result or exception, and resources that agree on `S`. -/
def SameOutcome {α : Type} (S : Set String) (r r' : PyRes F D d M O α) : Prop := r.1 = r'.1 ∧ ResAgree S r.2 r'.2

end FlowMC.Spec
