import Verif.Model.RQSpline
/-
Vocabulary for what a spline flow with arbitrary (trained) parameters proposes.  Nothing in this file models code of /repo.
-/
namespace FlowMC.Spec
noncomputable section

variable {d K : ℕ}

/-- The layers applied one after the other, but inside every layer the spline half FIRST and the affine half SECOND (the code's `forward` does it the other way round), with the
log-determinants added up. -/
def splineThenAffine (tiny : ℝ) (c : SplineCfg) : List (SplineLayer d K) → (Fin d → ℝ) → (Fin d → ℝ) × ℝ
  | [], x => (x, 0)
  | l :: ls, x =>
    let a := (l.spline tiny c).forward x
    let b := l.affine.forward a.1
    let r := splineThenAffine tiny c ls b.1
    (r.1, a.2 + b.2 + r.2)

/-- The log-density (up to a constant) that the samples of the flow really have: base log-density of the whitened point taken through the layers with the halves exchanged, plus the
log-determinant of that map. -/
def sampleLogDensity (tiny : ℝ) (m : SplineFlow d K) (x : Fin d → ℝ) : ℝ :=
  let r := splineThenAffine tiny m.cfg m.layers (whiten m.dataMean m.dataVar x)
  r.2 + m.base.logProb r.1

end
end FlowMC.Spec
