import Verif.Spec.Ideal
/-
Vocabulary for targets with hard boundaries: a log-density that is `-inf` (or NaN) outside a region, in arithmetic with infinities and NaN (`XR`).
Nothing here models code of /repo.
-/
open MeasureTheory ProbabilityTheory
open scoped ENNReal
namespace FlowMC.Spec

variable {D : Type} {d : ℕ}

/-- A real vector as a vector of floating-point numbers. -/
def emb (x : Fin d → ℝ) : Pos XR d := fun i => .fin (x i)

/-- The value of a floating-point number (0 for the special values). -/
def _root_.FlowMC.XR.toReal : XR → ℝ
  | .fin x => x
  | _ => 0

/-- A set of floating-point numbers is measurable if the real numbers in it form a measurable set. -/
instance _root_.FlowMC.XR.instMeasurableSpace : MeasurableSpace XR := (inferInstance : MeasurableSpace ℝ).map XR.fin

/-- The real vector a vector of floating-point numbers stands for. -/
def unemb (x : Pos XR d) : Fin d → ℝ := fun i => (x i).toReal

/-- The target is `exp (lp x)` inside the region `S`, and its logarithm evaluates to `-inf` or NaN outside.  Inside, the gradient is the finite vector `g x`; outside
it may be anything, including NaN. -/
structure Walled (S : Set (Fin d → ℝ)) (lp : (Fin d → ℝ) → ℝ) (g : (Fin d → ℝ) → Fin d → ℝ) (t : Target XR D d) (data : Data D) : Prop where
  inside : ∀ x ∈ S, t.val (emb x) data = .fin (lp x)
  grad : ∀ x ∈ S, t.grad (emb x) data = emb (g x)
  outside : ∀ x ∉ S, Ieee.Bad (t.val (emb x) data)
  meas : MeasurableSet S
  meas_lp : Measurable lp
  meas_grad : Measurable g

/-- The (unnormalised) distribution `exp (lp x) dx` restricted to `S`. -/
noncomputable def wallMeasure (S : Set (Fin d → ℝ)) (lp : (Fin d → ℝ) → ℝ) : Measure (Fin d → ℝ) :=
  (volume.restrict S).withDensity (fun x => ENNReal.ofReal (Real.exp (lp x)))

/-- The same generator, its numbers read as floating-point numbers. -/
def liftRng (r : Rng ℝ) : Rng XR where
  normal k n i := .fin (r.normal k n i)
  uniform k := .fin (r.uniform k)
  permutation := r.permutation
  choice := r.choice

/-- The environment `E` in arithmetic with infinities and NaN, whose draws and flow give the real numbers of `e`. -/
structure Lifts {M O : Type} (e : Env ℝ D d M O) (E : Env XR D d M O) : Prop where
  rng : E.rng = liftRng e.rng
  sample : ∀ m k n, E.ops.sample m k n = (e.ops.sample m k n).map emb
  logProb : ∀ m x, E.ops.logProb m (emb x) = .fin (e.ops.logProb m x)

end FlowMC.Spec
