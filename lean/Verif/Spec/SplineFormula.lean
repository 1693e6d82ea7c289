import Verif.Model.Coupling
import Mathlib.Analysis.SpecialFunctions.Log.Basic
/-
The textbook formulas of a neural network of any depth and of the rational-quadratic spline (Durkan et al., "Neural Spline Flows", 2019), written without any function of the model.
-/
open scoped BigOperators
namespace FlowMC.Spec
noncomputable section

/-- The hyperbolic tangent. -/
def tanhE (x : ℝ) : ℝ := (Real.exp x - Real.exp (-x)) / (Real.exp x + Real.exp (-x))

/-- `net` computes `g` when its activation is `act`: the layers one after the other, `act` after every layer but the last. -/
inductive Computes (act : ℝ → ℝ) : {n m : ℕ} → MLP n m → ((Fin n → ℝ) → Fin m → ℝ) → Prop
  | last {n m : ℕ} (W : Fin m → Fin n → ℝ) (b : Fin m → ℝ) : Computes act (.last W b) fun x i => (∑ j, W i j * x j) + b i
  | hidden {n k m : ℕ} (W : Fin k → Fin n → ℝ) (b : Fin k → ℝ) (rest : MLP k m) (g : (Fin k → ℝ) → Fin m → ℝ) (h : Computes act rest g) :
      Computes act (.hidden W b rest) fun x => g fun j => act ((∑ i, W j i * x i) + b j)

/-- The `j`-th knot: bin sizes proportional to `exp (u i)` above a minimum `m`, filling `[lo, hi]`. -/
def knot {K : ℕ} (u : Fin K → ℝ) (lo hi m : ℝ) (j : ℕ) : ℝ :=
  lo + ∑ i : Fin K, if i.1 < j then m + (hi - lo - K * m) * (Real.exp (u i) / ∑ i', Real.exp (u i')) else 0

/-- The slope at a knot: at least `m`, and 1 when the raw parameter is 0. -/
def knotSlope (u m : ℝ) : ℝ := m + Real.log (1 + (Real.exp (1 - m) - 1) * Real.exp u)

/-- The rational quadratic through `(x₀, y₀)` and `(x₁, y₁)` with slopes `d₀` and `d₁` there, at the relative position `ξ`. -/
def rationalQuadratic (x₀ x₁ y₀ y₁ d₀ d₁ ξ : ℝ) : ℝ :=
  y₀ + (y₁ - y₀) * ((y₁ - y₀) / (x₁ - x₀) * ξ ^ 2 + d₀ * (ξ * (1 - ξ))) /
    ((y₁ - y₀) / (x₁ - x₀) + (d₁ + d₀ - 2 * ((y₁ - y₀) / (x₁ - x₀))) * (ξ * (1 - ξ)))

/-- `y` is the value at `x` of the spline with raw parameters `u` (widths), `v` (heights) and `w` (slopes) on `[lo, hi]`, linear outside. -/
structure SplineValue {K : ℕ} (u v : Fin K → ℝ) (w : ℕ → ℝ) (lo hi minSize minSlope x y : ℝ) : Prop where
  below : x ≤ lo → y = lo + knotSlope (w 0) minSlope * (x - lo)
  above : hi ≤ x → y = hi + knotSlope (w K) minSlope * (x - hi)
  inside : ∀ j < K, knot u lo hi minSize j ≤ x → x ≤ knot u lo hi minSize (j + 1) →
    y = rationalQuadratic (knot u lo hi minSize j) (knot u lo hi minSize (j + 1)) (knot v lo hi minSize j) (knot v lo hi minSize (j + 1))
      (knotSlope (w j) minSlope) (knotSlope (w (j + 1)) minSlope)
      ((x - knot u lo hi minSize j) / (knot u lo hi minSize (j + 1) - knot u lo hi minSize j))
  covers : lo < x → x < hi → ∃ j < K, knot u lo hi minSize j ≤ x ∧ x ≤ knot u lo hi minSize (j + 1)

end
end FlowMC.Spec
