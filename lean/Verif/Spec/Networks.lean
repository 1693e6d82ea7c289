import Mathlib.Analysis.SpecialFunctions.Trigonometric.DerivHyp
import Mathlib.Algebra.BigOperators.Group.Finset.Basic
/-
The textbook formulas of a network with one hidden layer of rectified units and of an affine coupling layer, written without any helper of the model.
-/
namespace FlowMC.Spec
noncomputable section

/-- `W₂ max(0, W₁ x + b₁) + b₂`. -/
def rectifiedNet {n h m : ℕ} (W₁ : Fin h → Fin n → ℝ) (b₁ : Fin h → ℝ) (W₂ : Fin m → Fin h → ℝ) (b₂ : Fin m → ℝ) (x : Fin n → ℝ) (i : Fin m) : ℝ :=
  (∑ j, W₂ i j * (if 0 ≤ (∑ k, W₁ j k * x k) + b₁ j then (∑ k, W₁ j k * x k) + b₁ j else 0)) + b₂ i

/-- The coordinates in `keep` are passed through; the others are shifted by `shift` and then scaled by the exponential of `tanh` of `scale`, both computed from the kept coordinates (the
others replaced by 0). -/
def affineCoupled {d : ℕ} (keep : Fin d → Prop) [DecidablePred keep] (scale shift : (Fin d → ℝ) → Fin d → ℝ) (x : Fin d → ℝ) (i : Fin d) : ℝ :=
  if keep i then x i else (x i + shift (fun j => if keep j then x j else 0) i) * Real.exp (Real.tanh (scale (fun j => if keep j then x j else 0) i))

/-- The log-determinant of that map: the sum of the log-scales of the coordinates that are not kept. -/
def affineCoupledLogDet {d : ℕ} (keep : Fin d → Prop) [DecidablePred keep] (scale : (Fin d → ℝ) → Fin d → ℝ) (x : Fin d → ℝ) : ℝ :=
  ∑ i, if keep i then 0 else Real.tanh (scale (fun j => if keep j then x j else 0) i)

end
end FlowMC.Spec
