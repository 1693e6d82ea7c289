import Verif.Model.TrainStep
import Mathlib.Analysis.Calculus.FDeriv.Basic
/-
Vocabulary for what training does when the learning rate is small.  Nothing here models code of /repo.
-/
open scoped Topology
namespace FlowMC.Spec
noncomputable section

variable {ι : Type} [Fintype ι] {d : ℕ} {M : Type}

/-- The flow `ops`, trained by the library's optimizer with learning rate `lr` and momentum `b1` on the given loss and its gradient. -/
def trainedBy (ops : FlowOps ℝ d M (AdamState ι)) (get : M → ι → ℝ) (set : M → (ι → ℝ) → M) (loss : M → List (Pos ℝ d) → ℝ) (grad : M → List (Pos ℝ d) → ι → ℝ) (lr b1 : ℝ) :
    FlowOps ℝ d M (AdamState ι) := { ops with trainStep := gradStep get set loss grad lr b1 }

/-- `get` reads the parameters of a model and `set` replaces them. -/
structure Parameters (get : M → ι → ℝ) (set : M → (ι → ℝ) → M) : Prop where
  get_set : ∀ m p, get (set m p) = p
  set_get : ∀ m, set m (get m) = m
  set_set : ∀ m p q, set (set m p) q = set m q

/-- `grad` is the gradient of `loss` with respect to the parameters at the model `m`, and is continuous there. -/
structure SmoothLoss (get : M → ι → ℝ) (set : M → (ι → ℝ) → M) (loss : M → List (Pos ℝ d) → ℝ) (grad : M → List (Pos ℝ d) → ι → ℝ) (m : M) (data : List (Pos ℝ d)) : Prop where
  deriv : HasFDerivAt (fun p => loss (set m p) data) (∑ i, grad m data i • (ContinuousLinearMap.proj i : (ι → ℝ) →L[ℝ] ℝ)) (get m)
  cont : ContinuousAt (fun p => grad (set m p) data) (get m)

/-- Loss and gradient do not depend on the order of the examples. -/
def OrderFree (loss : M → List (Pos ℝ d) → ℝ) (grad : M → List (Pos ℝ d) → ι → ℝ) : Prop := ∀ m x y, x.Perm y → loss m x = loss m y ∧ grad m x = grad m y

/-- The gradient, shortened to length one if it is longer. -/
def shortened (g : ι → ℝ) (i : ι) : ℝ := g i / max 1 (Real.sqrt (∑ j, g j ^ 2))

/-- How fast, in units of the learning rate, the parameter `i` with value `p i` moves down (against its gradient, and by weight decay) in one step. -/
def downward (g p : ι → ℝ) (i : ι) : ℝ := shortened g i / (|shortened g i| + 1 / 10 ^ 8) + 1 / 10000 * p i

/-- How fast the loss falls, in units of the learning rate, per step. -/
def descentRate (g p : ι → ℝ) : ℝ := ∑ i, g i * downward g p i

end
end FlowMC.Spec
