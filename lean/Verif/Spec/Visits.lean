import Verif.Spec.ErrorBars
/-
Vocabulary for statements about which regions the rows of a buffer visit.  Nothing here models code of /repo.
-/
open MeasureTheory
namespace FlowMC.Spec

variable {d : ℕ}

/-- None of the first `n` rows of chain `i` of a position buffer lies in the region `A`. -/
def Misses (A : Set (Fin d → ℝ)) (b : Buffer ℝ) (i n : ℕ) : Prop := ∀ j < n, (fun a : Fin d => b.data.get [i, j, a]) ∉ A

end FlowMC.Spec
