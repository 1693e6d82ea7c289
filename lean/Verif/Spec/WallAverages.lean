import Verif.Spec.Walls
/-
Averages over the rows of a chain, when buffers hold floating-point numbers with infinities and NaN.
-/
namespace FlowMC.Spec

/-- The real number in a cell (`0` if it is infinite or NaN). -/
noncomputable def cellReal : XR → ℝ
  | .fin x => x
  | _ => 0

/-- The average of `f` over the first `n` rows of chain `i` in a position buffer. -/
noncomputable def wallMean {d : ℕ} (f : (Fin d → ℝ) → ℝ) (b : Buffer XR) (i n : ℕ) : ℝ := (∑ j ∈ Finset.range n, f fun a => cellReal (b.data.get [i, j, a])) / n

/-- The first `n` rows of the first `nC` chains in a position buffer are finite points of `S`. -/
def RowsInside {d : ℕ} (S : Set (Fin d → ℝ)) (b : Buffer XR) (nC n : ℕ) : Prop := ∀ i < nC, ∀ j < n, ∃ y ∈ S, ∀ a : Fin d, b.data.get [i, j, a] = XR.fin (y a)

end FlowMC.Spec
