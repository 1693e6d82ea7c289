import Verif.Lemmas.FlowDensity
import Verif.Lemmas.SplineMeas
import Verif.Lemmas.Ideal
import Mathlib.MeasureTheory.Constructions.Pi
import Mathlib.Logic.Equiv.Fin.Basic
import Mathlib.Probability.ProductMeasure
/-
Rows of a reshaped normal vector; rows pushed through a map; the inner bijectors' derivatives and measurability.
-/
set_option linter.unusedSectionVars false
open MeasureTheory ProbabilityTheory
open scoped ENNReal
namespace FlowMC
open Spec
noncomputable section
open Classical

variable {d : ℕ}

theorem mlpAffine_logDerivative (sc sh : Pos ℝ d → Pos ℝ d) (dt : ℝ) : LogDerivative (mlpAffine sc sh dt) := by
  intro c i t
  simp only [mlpAffine]
  exact (((hasDerivAt_id t).add_const (sh c i * dt)).mul_const (Real.exp (Real.tanh (sc c i) * dt))).congr_deriv (by simp)

theorem mlpAffine_measurable {sc sh : Pos ℝ d → Pos ℝ d} (h1 : Measurable sc) (h2 : Measurable sh) (dt : ℝ) :
    Measurable (fun p : Pos ℝ d × Pos ℝ d => ((mlpAffine sc sh dt).fwd p.1 p.2).1) ∧ Measurable (fun p : Pos ℝ d × Pos ℝ d => ((mlpAffine sc sh dt).fwd p.1 p.2).2) := by
  have s : ∀ i, Measurable (fun p : Pos ℝ d × Pos ℝ d => Real.tanh (sc p.2 i) * dt) := fun i =>
    (measurable_tanh.comp ((measurable_pi_apply i).comp (h1.comp measurable_snd))).mul_const dt
  have h : ∀ i, Measurable (fun p : Pos ℝ d × Pos ℝ d => sh p.2 i * dt) := fun i =>
    ((measurable_pi_apply i).comp (h2.comp measurable_snd)).mul_const dt
  constructor
  · refine measurable_pi_lambda _ fun i => ?_
    simp only [mlpAffine]
    exact (((measurable_pi_apply i).comp measurable_fst).add (h i)).mul (s i).exp
  · exact measurable_pi_lambda _ fun i => s i

theorem rqSpline_logDerivative {K : ℕ} (tiny : ℝ) (c : SplineCfg) (net : Pos ℝ d → Fin (d * (K * 3 + 1)) → ℝ)
    (hv : ∀ cond f, ValidKnots (condKnots c net cond f).xPos (condKnots c net cond f).yPos (condKnots c net cond f).slopes) : LogDerivative (rqSpline tiny c net) :=
  fun cond f t => C42_logdet_is_log_derivative (hv cond f) t

theorem rqSpline_measurable {K : ℕ} (tiny : ℝ) (c : SplineCfg) {net : Pos ℝ d → Fin (d * (K * 3 + 1)) → ℝ} (hn : Measurable net) :
    Measurable (fun p : Pos ℝ d × Pos ℝ d => ((rqSpline tiny c net).fwd p.1 p.2).1) ∧ Measurable (fun p : Pos ℝ d × Pos ℝ d => ((rqSpline tiny c net).fwd p.1 p.2).2) := by
  have hk : ∀ (f : Fin d) (j : Fin (K * 3 + 1)), Measurable (fun p : Pos ℝ d × Pos ℝ d => paramRow (net p.2) f j) := fun f j =>
    (measurable_pi_apply _).comp (hn.comp measurable_snd)
  have key := fun f : Fin d => measurable_splineFwd (Ω := Pos ℝ d × Pos ℝ d) (K := K) (X := fun p => p.1 f)
    (xp := fun p => (rowKnots c (paramRow (net p.2) f)).xPos) (yp := fun p => (rowKnots c (paramRow (net p.2) f)).yPos) (sl := fun p => (rowKnots c (paramRow (net p.2) f)).slopes)
    ((measurable_pi_apply f).comp measurable_fst) (fun i => (measurable_rowKnots (hk f) c i).1) (fun i => (measurable_rowKnots (hk f) c i).2.1)
    (fun i => (measurable_rowKnots (hk f) c i).2.2)
  exact ⟨measurable_pi_lambda _ fun f => (key f).1, measurable_pi_lambda _ fun f => (key f).2⟩

theorem nvp_transports (m : RealNVP d) (hm : ∀ l ∈ m.layers, ZeroOne l.mask) : Transports (fun x => (m.forward x).1) (fun x => (m.forward x).2) := by
  rw [show m.forward = _ from funext m.forward_eq]
  refine seqMaps_transports _ _ fun l hl => ?_
  obtain ⟨h1, h2⟩ := mlpAffine_measurable (measurable_mlp relu measurable_relu l.scaleMLP) (measurable_mlp relu measurable_relu l.shiftMLP) 1
  exact coupling_transports l.coupling (hm l hl) (C37_mlpAffine _ _ _) (mlpAffine_logDerivative _ _ _) h1 h2

theorem spline_transports {K : ℕ} (tiny : ℝ) (m : SplineFlow d K) (hw : m.Wellformed) (hg : m.GuardOff tiny) (ha : m.AffineTrivial) :
    Transports (fun x => (m.forward tiny x).1) (fun x => (m.forward tiny x).2) := by
  rw [show m.forward tiny = _ from funext (m.forward_eq tiny)]
  refine seqMaps_transports _ _ fun l hl => ?_
  have e1 : l.fwd tiny m.cfg = (l.spline tiny m.cfg).forward := by
    funext x; simp [SplineLayer.fwd, (affine_trivial (ha l hl) x).1]
  rw [e1]
  obtain ⟨h1, h2⟩ := rqSpline_measurable tiny m.cfg (measurable_mlp Real.tanh measurable_tanh l.mlp)
  exact coupling_transports (l.spline tiny m.cfg) (hw.masks l hl) (C37_rqSpline tiny m.cfg (l.mlp.call Real.tanh) (fun _ _ => hw.valid _) (hg l hl))
    (rqSpline_logDerivative _ _ _ fun _ _ => hw.valid _) h1 h2

theorem stdNormal_density (d : ℕ) : stdNormal d = targetMeasure (fun x : Fin d → ℝ => isoNormLogpdf x (fun _ => 0) 1) := by
  have := stdNormal_affine (d := d) (fun _ => 0) 1 one_ne_zero
  simp only [zero_add, one_mul, mul_one] at this
  rw [show (fun (ξ : Fin d → ℝ) i => ξ i) = id from rfl, Measure.map_id] at this
  exact this

instance (n : ℕ) : IsProbabilityMeasure (stdNormal n) := by unfold stdNormal; infer_instance

/-- The rows of `n * d` independent normal numbers, filled row by row, are `n` independent normal vectors. -/
theorem stdNormal_rows (n d : ℕ) : (stdNormal (n * d)).map (fun (v : Fin (n * d) → ℝ) (i : Fin n) (j : Fin d) => v (finProdFinEquiv (i, j))) = Measure.pi (fun _ => stdNormal d) := by
  have hm : Measurable (fun (v : Fin (n * d) → ℝ) (i : Fin n) (j : Fin d) => v (finProdFinEquiv (i, j))) :=
    measurable_pi_lambda _ fun i => measurable_pi_lambda _ fun j => measurable_pi_apply _
  have hmp := (measurePreserving_piCongrLeft (fun _ : Fin (n * d) => gaussianReal 0 1) (finProdFinEquiv (m := n) (n := d))).symm
  have hc := Measure.infinitePi_map_curry (ι := Fin n) (κ := Fin d) (X := ℝ) (fun _ _ => gaussianReal 0 1)
  simp only [Measure.infinitePi_eq_pi] at hc
  have e : (fun (v : Fin (n * d) → ℝ) (i : Fin n) (j : Fin d) => v (finProdFinEquiv (i, j))) =
      (MeasurableEquiv.curry (Fin n) (Fin d) ℝ) ∘ (MeasurableEquiv.piCongrLeft (fun _ : Fin (n * d) => ℝ) (finProdFinEquiv (m := n) (n := d))).symm := by
    funext v i j
    rfl
  rw [e, ← Measure.map_map (MeasurableEquiv.measurable _) (MeasurableEquiv.measurable _), stdNormal, hmp.map_eq]
  exact hc

/-- Independent rows pushed through a map are independent rows of the pushed law. -/
theorem pi_rows_map (n : ℕ) (q : Measure (Fin d → ℝ)) [IsProbabilityMeasure q] {S : Pos ℝ d → Pos ℝ d} (hS : Measurable S) :
    (Measure.pi (fun _ : Fin n => q)).map (fun v i => S (v i)) = Measure.pi (fun _ => q.map S) := by
  have : IsProbabilityMeasure (q.map S) := Measure.isProbabilityMeasure_map hS.aemeasurable
  exact (measurePreserving_pi (fun _ : Fin n => q) (fun _ => q.map S) fun _ => ⟨hS, rfl⟩).map_eq

end
end FlowMC
