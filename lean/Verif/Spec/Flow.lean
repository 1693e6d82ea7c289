import Verif.Model.RQSpline
import Mathlib.Order.Monotone.Basic
import Mathlib.Analysis.Calculus.Deriv.Basic
/-
Vocabulary for statements about bijections and splines.  Nothing in this file models code of /repo.
-/
namespace FlowMC.Spec

/-- A pair of maps with scalar log-determinants that invert each other in both orders, with opposite log-determinants. -/
structure InversePair {X : Type} (f g : X → X × ℝ) : Prop where
  left : ∀ x, (g (f x).1).1 = x
  right : ∀ y, (f (g y).1).1 = y
  logdet_left : ∀ x, (g (f x).1).2 = -(f x).2
  logdet_right : ∀ y, (f (g y).1).2 = -(g y).2

/-- Coordinate `i` is passed through (`1`) or transformed (`0`). -/
def ZeroOne {d : ℕ} (mask : Fin d → ℝ) : Prop := ∀ i, mask i = 0 ∨ mask i = 1

/-- An inner bijector whose coordinate `i` of the output depends on coordinate `i` of the input and on the condition only, and is inverted by `inv` for
every fixed condition. -/
structure Elementwise {d : ℕ} (b : Bij d) : Prop where
  fwd_local : ∀ x x' c i, x i = x' i → (b.fwd x c).1 i = (b.fwd x' c).1 i ∧ (b.fwd x c).2 i = (b.fwd x' c).2 i
  inv_local : ∀ x x' c i, x i = x' i → (b.inv x c).1 i = (b.inv x' c).1 i ∧ (b.inv x c).2 i = (b.inv x' c).2 i
  left : ∀ x c, (b.inv (b.fwd x c).1 c).1 = x
  right : ∀ y c, (b.fwd (b.inv y c).1 c).1 = y
  logdet_left : ∀ x c i, (b.inv (b.fwd x c).1 c).2 i = -(b.fwd x c).2 i
  logdet_right : ∀ y c i, (b.fwd (b.inv y c).1 c).2 i = -(b.inv y c).2 i

/-- The log-determinants of an elementwise bijector are the logarithms of its coordinates' derivatives. -/
def LogDerivative {d : ℕ} (b : Bij d) : Prop :=
  ∀ c i t, HasDerivAt (fun t : ℝ => (b.fwd (fun _ => t) c).1 i) (Real.exp ((b.fwd (fun _ => t) c).2 i)) t

/-- Knots of a monotone spline with at least one bin: increasing positions on both axes and positive slopes. -/
structure ValidKnots {K : ℕ} (xPos yPos slopes : Fin (K + 1) → ℝ) : Prop where
  bins : 0 < K
  x : StrictMono xPos
  y : StrictMono yPos
  slope : ∀ i, 0 < slopes i

/-- The floating-point guard `clip(b² - 4ac, tiny)` of the quadratic formula never takes effect: in every bin, with mean slope `s` and end slopes `d₀`, `d₁`,
the discriminant is bounded below by `(s · min d₀ d₁ / 2 / (s + (d₀ + d₁)/4))²`, and this bound is at least `tiny`. -/
def ClipInactive {K : ℕ} (tiny : ℝ) (xPos yPos slopes : Fin (K + 1) → ℝ) : Prop :=
  ∀ i : Fin K, let s := (yPos i.succ - yPos i.castSucc) / (xPos i.succ - xPos i.castSucc)
    tiny ≤ (s * min (slopes i.castSucc) (slopes i.succ) / 2 / (s + (slopes i.castSucc + slopes i.succ) / 4)) ^ 2

/-- The parts of a feature's parameter row: one width and one height per bin, one slope per knot. -/
abbrev RowPart (K : ℕ) := Fin K ⊕ Fin K ⊕ Fin (K + 1)

/-- Where a part of feature `f`'s row sits in the network output: rows of length `3 K + 1` one after the other, each row widths, then heights, then slopes. -/
def partIndex {d K : ℕ} (f : Fin d) : RowPart K → ℕ
  | .inl i => f.1 * (K * 3 + 1) + i.1
  | .inr (.inl i) => f.1 * (K * 3 + 1) + (K + i.1)
  | .inr (.inr i) => f.1 * (K * 3 + 1) + (2 * K + i.1)

end FlowMC.Spec
