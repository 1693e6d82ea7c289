import Verif.Spec.WallAverages
import Verif.Spec.Converge
import Mathlib.Data.EReal.Basic
/-
Vocabulary for statements about intervals and quantiles read off the rows of a chain.  Nothing here models code of /repo.
-/
open MeasureTheory
open Classical in
/-- Fraction of the first `n` rows whose value of `g` lies between `a` and `b` (the end points, which may be infinite, included). -/
noncomputable def FlowMC.Spec.fractionIn {d : ℕ} (g : (Fin d → ℝ) → ℝ) (rows : ℕ → Fin d → ℝ) (n : ℕ) (a b : EReal) : ℝ :=
  (((Finset.range n).filter fun j => a ≤ (g (rows j) : EReal) ∧ (g (rows j) : EReal) ≤ b).card : ℝ) / n

namespace FlowMC.Spec
variable {d : ℕ}

/-- All intervals contain the right fraction of the first `n` rows: up to `δ`, their probability under `π`. -/
def IntervalsCorrect (π : Measure (Fin d → ℝ)) (g : (Fin d → ℝ) → ℝ) (rows : ℕ → Fin d → ℝ) (n : ℕ) (δ : ℝ) : Prop :=
  ∀ a b : EReal, |fractionIn g rows n a b - π.real {x | a ≤ (g x : EReal) ∧ (g x : EReal) ≤ b}| ≤ δ

/-- The rows of chain `i` in a position buffer. -/
def chainRows (b : Buffer ℝ) (i : ℕ) : ℕ → Fin d → ℝ := fun j a => b.data.get [i, j, a]

/-- The rows of chain `i` in a position buffer, when numbers may be infinite or NaN. -/
noncomputable def wallRows (b : Buffer XR) (i : ℕ) : ℕ → Fin d → ℝ := fun j a => cellReal (b.data.get [i, j, a])

end FlowMC.Spec
