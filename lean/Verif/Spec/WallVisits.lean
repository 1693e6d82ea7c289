import Verif.Spec.WallErrorBars
/-
Vocabulary for statements about which regions the rows of a buffer of floats visit.  Nothing here models code of /repo.
-/
open MeasureTheory
namespace FlowMC.Spec

variable {d : ℕ}

/-- None of the first `n` rows of chain `i` of a position buffer is a finite point of the region `A`. -/
def WallMisses (A : Set (Fin d → ℝ)) (b : Buffer XR) (i n : ℕ) : Prop := ∀ j < n, ¬ ∃ y ∈ A, ∀ a : Fin d, b.data.get [i, j, a] = XR.fin (y a)

end FlowMC.Spec
