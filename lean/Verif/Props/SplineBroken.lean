import Verif.Props.Coupling
/-
C43 fails for trained parameters: a witness.
-/
set_option linter.unusedSectionVars false
namespace FlowMC
open Spec
noncomputable section
open Classical

/-- Raw network output of the witness: first knot slope 1, everything else 0. -/
def badRow : Fin (1 * 3 + 1) → ℝ := fun j => if j.1 = 2 then 1 else 0

/-- Witness for C43 and C44: one feature, one bin, one layer, default settings; `shift = 1` and the last bias of the network are trained away from their initial
values. -/
def badSpline : SplineFlow 1 1 :=
  { base := stdGaussian 1
    cfg := ⟨-10, 10, 1 / 10000, 1 / 10000⟩
    layers := [{ scale := 0, shift := 1, mask := splineMask 1 0, mlp := .last (fun _ _ => 0) (fun j => if j.1 = 2 then 1 else 0) }]
    dataMean := fun _ => 0
    dataVar := fun _ => 1 }

/-- The knots of the witness. -/
def badKnots : Knots 1 := rowKnots badSpline.cfg badRow

theorem badSpline_wellformed : badSpline.Wellformed :=
  ⟨by norm_num, by norm_num [badSpline], by norm_num [badSpline], by norm_num [badSpline], by norm_num [badSpline], fun l hl => by
    simp only [badSpline, List.mem_singleton] at hl
    rw [hl]; exact splineMask_zeroOne 0⟩

theorem badKnots_valid : ValidKnots badKnots.xPos badKnots.yPos badKnots.slopes := badSpline_wellformed.valid badRow

theorem badKnots_ends : badKnots.xPos 0 = -10 ∧ badKnots.yPos 0 = -10 := by simp [badKnots, rowKnots, knotPositions, badSpline]

theorem badSlope_gt : 1 < badKnots.slopes 0 := by
  have e : badKnots.slopes 0 = softplus (1 + Real.log (Real.exp (1 - 1 / 10000) - 1)) + 1 / 10000 := by
    simp [badKnots, rowKnots, normalizeKnotSlopes, badRow, badSpline]
  have h1 : 0 < Real.exp (1 - 1 / 10000 : ℝ) - 1 := by
    have := Real.add_one_lt_exp (x := (1 - 1 / 10000 : ℝ)) (by norm_num); linarith
  have h2 : Real.log (1 + Real.exp (Real.log (Real.exp (1 - 1 / 10000 : ℝ) - 1))) < softplus (1 + Real.log (Real.exp (1 - 1 / 10000) - 1)) := by
    refine Real.log_lt_log (by positivity) ?_
    have := Real.exp_lt_exp.2 (show Real.log (Real.exp (1 - 1 / 10000 : ℝ) - 1) < 1 + Real.log (Real.exp (1 - 1 / 10000 : ℝ) - 1) by linarith)
    linarith
  rw [Real.exp_log h1, add_sub_cancel, Real.log_exp] at h2
  rw [e]; linarith

theorem badNet (cond : Pos ℝ 1) : paramRow (K := 1) (MLP.call Real.tanh (.last (fun _ _ => 0) (fun j : Fin (1 * (1 * 3 + 1)) => if j.1 = 2 then (1 : ℝ) else 0)) cond) 0 = badRow := by
  funext j
  simp [paramRow, MLP.call, linear, sumFin, badRow]

/-- Forward: shift first, then the spline. -/
theorem badSpline_forward (tiny : ℝ) (x : Pos ℝ 1) : badSpline.forward tiny x =
    (fun _ => (splineFwd (x 0 + 1) badKnots.xPos badKnots.yPos badKnots.slopes).1, (splineFwd (x 0 + 1) badKnots.xPos badKnots.yPos badKnots.slopes).2) := by
  rw [SplineFlow.forward_eq]
  simp only [badSpline, List.map_cons, List.map_nil, seqMaps, SplineLayer.fwd, SplineLayer.affine, SplineLayer.spline, CouplingLayer.forward, scalarAffine, sumFin, rqSpline]
  refine Prod.ext (funext fun i => ?_) ?_
  · have : i = 0 := Subsingleton.elim _ _
    subst this
    simp only [badNet]
    simp [splineMask, badKnots, badSpline]
  · simp only [badNet]
    simp [splineMask, badKnots, badSpline]

/-- `inverse`: un-shift first, then the inverse spline — not the reverse order of `forward`. -/
theorem badSpline_inverse (tiny : ℝ) (y : Pos ℝ 1) : badSpline.inverse tiny y =
    (fun _ => (splineInv tiny (y 0 - 1) badKnots.xPos badKnots.yPos badKnots.slopes).1, (splineInv tiny (y 0 - 1) badKnots.xPos badKnots.yPos badKnots.slopes).2) := by
  rw [SplineFlow.inverse_eq]
  simp only [badSpline, List.reverse_singleton, List.map_cons, List.map_nil, seqMaps, SplineLayer.bwd, SplineLayer.affine, SplineLayer.spline, CouplingLayer.inverse, scalarAffine, sumFin, rqSpline]
  refine Prod.ext (funext fun i => ?_) ?_
  · have : i = 0 := Subsingleton.elim _ _
    subst this
    simp only [badNet]
    simp [splineMask, badKnots, badSpline]
  · simp only [badNet]
    simp [splineMask, badKnots, badSpline]

/-- C43 fails once `shift` has been trained away from 0: `inverse` undoes the two halves of a layer in the wrong order.  For this flow (0/1 mask, valid knots, any
guard constant) `inverse(forward(x)) ≠ x` at `x = -100`. -/
theorem C43_trained_not_invertible (tiny : ℝ) : badSpline.Wellformed ∧ ((badSpline.inverse tiny) ((badSpline.forward tiny) (fun _ => -100)).1).1 ≠ fun _ => -100 := by
  refine ⟨badSpline_wellformed, fun h => ?_⟩
  have hs := badSlope_gt
  obtain ⟨hx, hy⟩ := badKnots_ends
  have h0 := congrFun h 0
  rw [badSpline_forward, badSpline_inverse] at h0
  simp only at h0
  rw [splineFwd_left badKnots_valid (by rw [hx]; norm_num), hx, hy] at h0
  have hle : (-100 + 1 - -10) * badKnots.slopes 0 + -10 - 1 ≤ badKnots.yPos 0 := by rw [hy]; nlinarith
  have hnot : ¬ badKnots.yPos (Fin.last 1) ≤ (-100 + 1 - -10) * badKnots.slopes 0 + -10 - 1 := not_le.2 (hle.trans_lt badKnots_valid.y_lt)
  simp only [splineInv, if_pos hle, if_neg hnot] at h0
  rw [hx, hy] at h0
  have hs' : badKnots.slopes 0 ≠ 0 := by linarith
  have : ((-100 + 1 - -10) * badKnots.slopes 0 + -10 - 1 - -10) / badKnots.slopes 0 = -90 := by linarith
  rw [div_eq_iff hs'] at this
  linarith

end
end FlowMC
