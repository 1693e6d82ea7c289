import Verif.Jax.NDArr
import Verif.Jax.Ieee
/-
Vocabulary for histograms.  Nothing in this file models code of /repo.
-/
namespace FlowMC.Spec

/-- `v` lies in bin `j` of the bins with the given edges: the left edge belongs to the bin; the right edge belongs to it only for the last bin. -/
def InBin (edges : List ℝ) (j : ℕ) (v : ℝ) : Prop :=
  ∃ h : j + 1 < edges.length, edges[j] ≤ v ∧ (v < edges[j + 1] ∨ (j + 2 = edges.length ∧ v = edges[j + 1]))

/-- The cells of an array whose value is a real number in bin `j`. -/
def cellsInBin (a : NDArr XR) (edges : List ℝ) (j : ℕ) : Set (List ℕ) := {idx | InBounds idx a.shape ∧ ∃ v, a.get idx = .fin v ∧ InBin edges j v}

/-- Every cell of an array holds a real number. -/
def AllFinite (a : NDArr XR) : Prop := ∀ idx, InBounds idx a.shape → ∃ v, a.get idx = .fin v

end FlowMC.Spec
