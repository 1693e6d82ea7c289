import Verif.Spec.Ode
import Verif.Model.FMTrain
import Verif.Lemmas.Liouville
import Verif.Props.FlowFalse
import Mathlib.Analysis.Calculus.FDeriv.Measurable
/-
C55 (flow-matching paths), C56 (flow-matching density).
-/
set_option linter.unusedSectionVars false
open MeasureTheory ProbabilityTheory
open scoped ENNReal
namespace FlowMC
open Spec
noncomputable section
open Classical

variable {d : ℕ}

/-! ### C55 -/

/-- C55: the conditional optimal-transport path starts at `x0` and ends at `x1`. -/
theorem C55_endpoints (x0 x1 : Pos ℝ d) : (pathSample condOT x0 x1 0).1 = x0 ∧ (pathSample condOT x0 x1 1).1 = x1 := by
  constructor <;> funext i <;> simp [pathSample, condOT]

/-- C55: the second output is the time derivative of the first, at every time. -/
theorem C55_velocity (x0 x1 : Pos ℝ d) (t : ℝ) (i : Fin d) : HasDerivAt (fun t => (pathSample condOT x0 x1 t).1 i) ((pathSample condOT x0 x1 t).2 i) t := by
  simp only [pathSample, condOT]
  exact ((((hasDerivAt_id t).const_sub 1).mul_const (x0 i)).add ((hasDerivAt_id t).mul_const (x1 i))).congr_deriv (by simp)

/-- C55: the target velocity is `x1 - x0`. -/
theorem C55_velocity_eq (x0 x1 : Pos ℝ d) (t : ℝ) (i : Fin d) : (pathSample condOT x0 x1 t).2 i = x1 i - x0 i := by
  simp only [pathSample, condOT]; ring

/-- C55: what the optimiser receives for a training row `(x0, x1, t)` when the path uses the conditional-OT scheduler: the point at time `t` of the straight line from `x0` to the standardised
`x1`, the time, and the velocity of that line. -/
theorem C55_training {M O : Type} (ops : FMOps ℝ d M O) (hs : ops.sched = condOT) (m : M) (r : FMRow ℝ d) (i : Fin d) :
    (fmInput ops m r).1 i = (1 - r.t) * r.x0 i + r.t * ((r.x1 i - ops.mean m i) / ops.std m i) ∧ (fmInput ops m r).2.1 = r.t ∧
      (fmInput ops m r).2.2 i = (r.x1 i - ops.mean m i) / ops.std m i - r.x0 i := by
  simp only [fmInput, fmPath, hs, condOT]
  exact ⟨trivial, trivial, by ring⟩

theorem list_sum_zero_iff {l : List ℝ} (h : ∀ x ∈ l, 0 ≤ x) : l.sum = 0 ↔ ∀ x ∈ l, x = 0 := by
  induction l with
  | nil => simp
  | cons a l ih =>
    have ha := h a (by simp)
    have hl := List.sum_nonneg fun x hx => h x (List.mem_cons_of_mem a hx)
    rw [List.sum_cons, add_eq_zero_iff_of_nonneg ha hl, ih fun x hx => h x (List.mem_cons_of_mem a hx)]
    simp

/-- C55: the training loss is non-negative, and it is zero exactly when the network returns `x1 - x0` (with `x1` whitened) at every point of the batch. -/
theorem C55_loss_zero_iff (m : FlowMatching d) (hd : 0 < d) (data : List (Pos ℝ d × Pos ℝ d × ℝ)) (hne : data ≠ []) :
    0 ≤ m.loss (m.batch condOT data) ∧ (m.loss (m.batch condOT data) = 0 ↔ ∀ b ∈ data, ∀ i,
      m.net (fun i => (1 - b.2.2) * b.1 i + b.2.2 * whiten m.dataMean m.dataVar b.2.1 i) b.2.2 i = whiten m.dataMean m.dataVar b.2.1 i - b.1 i) := by
  have hlen : (0 : ℝ) < (m.batch condOT data).length * d := by
    have : 0 < data.length := List.length_pos_iff.2 hne
    simp only [FlowMatching.batch, List.length_map]
    positivity
  have hnn : ∀ x ∈ ((m.batch condOT data).map fun b => sumFin (fun i => (m.net b.1 b.2.1 i - b.2.2 i) ^ 2)), (0 : ℝ) ≤ x := by
    intro x hx
    obtain ⟨b, _, rfl⟩ := List.mem_map.1 hx
    rw [sumFin_eq]
    exact Finset.sum_nonneg fun i _ => sq_nonneg _
  refine ⟨div_nonneg (List.sum_nonneg hnn) hlen.le, ?_⟩
  unfold FlowMatching.loss
  rw [div_eq_zero_iff, or_iff_left hlen.ne', list_sum_zero_iff hnn]
  simp only [FlowMatching.batch, List.map_map, List.mem_map, Function.comp_apply, forall_exists_index, and_imp, forall_apply_eq_imp_iff₂]
  refine forall₂_congr fun b _ => ?_
  rw [sumFin_eq, Finset.sum_eq_zero_iff_of_nonneg fun i _ => sq_nonneg _]
  simp only [Finset.mem_univ, true_imp_iff, pow_eq_zero_iff two_ne_zero, sub_eq_zero, C55_velocity_eq]
  rfl

/-! ### C56 -/

variable {v : Pos ℝ d → ℝ → Pos ℝ d} {Dv J : Pos ℝ d → ℝ → Matrix (Fin d) (Fin d) ℝ} {φ : Pos ℝ d → ℝ → Pos ℝ d}

theorem Spec.SmoothFlow.inversePair (h : SmoothFlow v Dv φ J) {s : OdeSolver d} (hs : ExactSolver s Dv φ) :
    InversePair s.backward (fun z => (s.forward z, -(s.backward (s.forward z)).2)) := by
  have hr : ∀ x, s.forward (s.backward x).1 = x := by
    intro x
    obtain ⟨z, hz⟩ := h.bijective.2 x
    simp only at hz
    rw [← hz, hs.backward_pos, hs.forward]
  have hl : ∀ z, (s.backward (s.forward z)).1 = z := fun z => by rw [hs.forward, hs.backward_pos]
  refine ⟨hr, hl, fun x => ?_, fun z => by simp⟩
  simp only [hr]

/-- The backward solve transports volume according to the integrated divergence it returns. -/
theorem Spec.SmoothFlow.transports (h : SmoothFlow v Dv φ J) {s : OdeSolver d} (hs : ExactSolver s Dv φ) :
    Transports (fun x => (s.backward x).1) (fun x => (s.backward x).2) := by
  have hfw : s.forward = fun x => φ x 1 := funext hs.forward
  have hderiv : ∀ x, HasFDerivAt s.forward (LinearMap.toContinuousLinearMap (Matrix.toLin' (J x 1))) x := by rw [hfw]; exact h.deriv
  have hcont : Continuous s.forward := continuous_iff_continuousAt.2 fun x => (hderiv x).continuousAt
  have hp := h.inversePair hs
  have hdet : ∀ x, (J x 1).det = Real.exp (-(s.backward (s.forward x)).2) := by
    intro x
    rw [liouville (A := fun t => Dv (φ x t) t) (h.jacStart x) (h.variational x) (h.divergence x), hs.forward, hs.backward_div,
      intervalIntegral.integral_symm]
  have hp' : InversePair (fun z => (s.forward z, -(s.backward (s.forward z)).2)) s.backward := ⟨hp.right, hp.left, hp.logdet_right, hp.logdet_left⟩
  have mB : Measurable (fun x => (s.backward x).1) := inverse_measurable hp' hcont.measurable
  have hfd : ∀ x, fderiv ℝ s.forward x = LinearMap.toContinuousLinearMap (Matrix.toLin' (J x 1)) := fun x => (hderiv x).fderiv
  have hdd : ∀ x, ContinuousLinearMap.det (fderiv ℝ s.forward x) = (J x 1).det := by
    intro x
    rw [hfd, ContinuousLinearMap.det, LinearMap.coe_toContinuousLinearMap, LinearMap.det_toLin']
  have mdet : Measurable (fun x => (J x 1).det) := by
    have : Measurable (fun x => ContinuousLinearMap.det (fderiv ℝ s.forward x)) :=
      ContinuousLinearMap.continuous_det.measurable.comp (measurable_fderiv ℝ s.forward)
    simpa only [hdd] using this
  have mld : Measurable (fun x => (s.backward x).2) := by
    have e : (fun x => (s.backward x).2) = fun x => -Real.log ((J (s.backward x).1 1).det) := by
      funext x
      rw [hdet, Real.log_exp, neg_neg]
      exact congrArg (fun y => (s.backward y).2) (hp.left x).symm
    rw [e]
    exact (Real.measurable_log.comp (mdet.comp mB)).neg
  refine ⟨mB, mld, fun F _ => ?_⟩
  have himg : s.forward '' Set.univ = Set.univ := by
    rw [Set.image_univ, Set.range_eq_univ, hfw]; exact h.bijective.2
  have := lintegral_image_eq_lintegral_abs_det_fderiv_mul volume MeasurableSet.univ (fun x _ => (hderiv x).hasFDerivWithinAt) (by rw [hfw]; exact h.bijective.1.injOn)
    (fun x => ENNReal.ofReal (Real.exp (s.backward x).2) * F (s.backward x).1)
  rw [himg, setLIntegral_univ, setLIntegral_univ] at this
  rw [this]
  refine lintegral_congr fun z => ?_
  rw [← hfd, hdd, hdet, abs_of_pos (Real.exp_pos _), ← mul_assoc, ← ENNReal.ofReal_mul (Real.exp_pos _).le, ← Real.exp_add, neg_add_cancel, Real.exp_zero,
    ENNReal.ofReal_one, one_mul]
  exact congrArg F (hp.right z)

variable {Ω D M O : Type} {past : MeasurableSpace Ω} {sig : Key → MeasurableSpace Ω} [mΩ : MeasurableSpace Ω] {P : Measure Ω}
  [IsProbabilityMeasure P]

theorem fm_rows {env : Ω → Env ℝ D d M O} (hI : IdealDraws past sig P env) (m : FlowMatching d) (hS : Measurable (fun z => unwhiten m.dataMean m.dataVar (m.solver.forward z))) :
    IidLaw P (fun k n ω => m.sample (env ω).rng k n) ((stdNormal d).map (fun z => unwhiten m.dataMean m.dataVar (m.solver.forward z))) := by
  have := (normalRows_iid hI).mapRows hI.sig_le hS
  have e : ∀ rng k n, m.sample rng k n = ((List.finRange n).map (normalRow rng (split k).2 n d)).map fun z => unwhiten m.dataMean m.dataVar (m.solver.forward z) := by
    intro rng k n
    simp [FlowMatching.sample, OdeSolver.sample, List.map_map, Function.comp_def]
  simp only [e]
  exact ⟨fun k n ω => this.length _ n ω, fun k n => this.law _ n⟩

/-- C56, what holds: for every smooth velocity field solved exactly, the samples are independent with a distribution `q` whose normalised log-density at `x` is
`log_prob(x)` corrected by the difference of the base log-density at `x0` (the solution traced back to `t = 0`) and at the whitened `x` itself, where the code evaluates
it. -/
theorem C56_density_partial {env : Ω → Env ℝ D d M O} (hI : IdealDraws past sig P env) (m : FlowMatching d) (h : SmoothFlow m.net Dv φ J) (hs : ExactSolver m.solver Dv φ)
    (hv : ∀ i, 0 < m.dataVar i) : IidLaw P (fun k n ω => m.sample (env ω).rng k n) (targetMeasure fun x => m.logProb x
      + (isoNormLogpdf (m.solver.backward (whiten m.dataMean m.dataVar x)).1 (fun _ => 0) 1 - isoNormLogpdf (whiten m.dataMean m.dataVar x) (fun _ => 0) 1)) := by
  have hp := h.inversePair hs
  have hT := h.transports hs
  have mS : Measurable (fun z => unwhiten m.dataMean m.dataVar (m.solver.forward z)) := (measurable_unwhiten _ _).comp (inverse_measurable hp hT.meas)
  have hr := fm_rows hI m mS
  have hd := flow_density hp hT m.dataMean m.dataVar hv (fun x => isoNormLogpdf x (fun _ => 0) 1) (measurable_isoNorm _ _)
  rw [← stdNormal_density] at hd
  refine cast ?_ hr
  congr 1
  refine hd.trans ?_
  ext A hA
  rw [Measure.smul_apply, smul_eq_mul, targetMeasure, targetMeasure, withDensity_apply _ hA, withDensity_apply _ hA, ← lintegral_const_mul' _ _ ENNReal.ofReal_ne_top]
  refine lintegral_congr fun x => ?_
  rw [← ENNReal.ofReal_mul (Real.exp_pos _).le, ← Real.exp_add]
  congr 2
  simp only [FlowMatching.logProb, OdeSolver.logProb, sumFin_eq]
  ring

theorem Spec.IidLaw.unique {rows : Key → ℕ → Ω → List (Fin d → ℝ)} {q q' : Measure (Fin d → ℝ)} [IsProbabilityMeasure q] [IsProbabilityMeasure q']
    (h : IidLaw P rows q) (h' : IidLaw P rows q') : q = q' := by
  have := (h.law (.root 0) 1).symm.trans (h'.law (.root 0) 1)
  have e := congrArg (fun μ => μ.map (fun v : Fin 1 → Fin d → ℝ => v 0)) this
  rwa [(measurePreserving_eval (fun _ : Fin 1 => q) 0).map_eq, (measurePreserving_eval (fun _ : Fin 1 => q') 0).map_eq] at e

/-- Witness for C56: one feature, constant velocity 1, solved exactly, no whitening. -/
def driftModel : FlowMatching 1 :=
  { net := fun _ _ _ => 1
    solver := { forward := fun x i => x i + 1, backward := fun x => (fun i => x i - 1, 0) }
    dataMean := fun _ => 0
    dataVar := fun _ => 1 }

theorem driftModel_smooth : SmoothFlow driftModel.net (fun _ _ => 0) (fun x t i => x i + t) (fun _ _ => 1) where
  jac y t i j := by simpa [driftModel] using hasDerivAt_const (y j) (1 : ℝ)
  start x := by simp
  ode x t _ i := ((hasDerivAt_id t).const_add (x i)).hasDerivWithinAt
  jacStart _ := rfl
  variational x t _ i j := by simpa using hasDerivWithinAt_const t _ ((1 : Matrix (Fin 1) (Fin 1) ℝ) i j)
  deriv x := by
    have : LinearMap.toContinuousLinearMap (Matrix.toLin' (1 : Matrix (Fin 1) (Fin 1) ℝ)) = ContinuousLinearMap.id ℝ (Pos ℝ 1) := by
      ext; simp
    rw [this]
    exact (hasFDerivAt_id x).add_const (fun _ => (1 : ℝ))
  divergence x := by simpa using continuousOn_const
  bijective := ⟨fun a b h => funext fun i => by simpa using congrFun h i, fun y => ⟨fun i => y i - 1, funext fun i => by simp⟩⟩

theorem driftModel_exact : ExactSolver driftModel.solver (fun _ _ => 0) (fun x t i => x i + t) where
  forward _ := rfl
  backward_pos x := by funext i; simp [driftModel]
  backward_div x := by simp [driftModel]

/-- C56 is false: for the constant velocity field 1, solved exactly, `sample` draws from `N(1, 1)` but `log_prob` is the log-density of `N(0, 1)`, because the base density
is evaluated at `x1` instead of `x0`; not even proportionality holds. -/
theorem C56_wrong_density {env : Ω → Env ℝ D 1 M O} (hI : IdealDraws past sig P env) :
    SmoothFlow driftModel.net (fun _ _ => 0) (fun x t i => x i + t) (fun _ _ => 1) ∧ ExactSolver driftModel.solver (fun _ _ => 0) (fun x t i => x i + t) ∧
    ¬ ∃ q : Measure (Fin 1 → ℝ), IsProbabilityMeasure q ∧ SamplesFrom q driftModel.logProb ∧ IidLaw P (fun k n ω => driftModel.sample (env ω).rng k n) q := by
  refine ⟨driftModel_smooth, driftModel_exact, ?_⟩
  rintro ⟨q, hq, hs, hr⟩
  have hS : ∀ z : Pos ℝ 1, unwhiten driftModel.dataMean driftModel.dataVar (driftModel.solver.forward z) = fun i => z i + 1 := by
    intro z; funext a; simp [unwhiten, driftModel]
  have hW : ∀ z : Pos ℝ 1, whiten driftModel.dataMean driftModel.dataVar z = z := by intro z; funext a; simp [whiten, driftModel]
  have e1 : driftModel.logProb = fun x => isoNormLogpdf x (fun _ => 0) 1 := by
    funext x
    simp only [FlowMatching.logProb, hW, OdeSolver.logProb]
    simp [driftModel, sumFin]
  rw [e1] at hs
  have hq1 := samplesFrom_prob hs (stdNormal_mass 1)
  rw [← stdNormal_density] at hq1
  have mS : Measurable (fun (z : Pos ℝ 1) (i : Fin 1) => z i + 1) := by fun_prop
  have hr2 := fm_rows hI driftModel (by simp only [hS]; exact mS)
  simp only [hS] at hr2
  have : IsProbabilityMeasure ((stdNormal 1).map (fun (z : Pos ℝ 1) (i : Fin 1) => z i + 1)) := Measure.isProbabilityMeasure_map mS.aemeasurable
  have hm : (stdNormal 1).map (fun (z : Pos ℝ 1) (i : Fin 1) => z i + 1) = stdNormal 1 := (hr.unique hr2).symm.trans hq1
  have e := congrArg (fun μ => μ.map (fun v : Fin 1 → ℝ => v 0)) hm
  rw [Measure.map_map (by fun_prop) mS] at e
  have hcomp : ((fun v : Fin 1 → ℝ => v 0) ∘ fun (z : Pos ℝ 1) (i : Fin 1) => z i + 1) = (fun t => t + 1) ∘ fun v : Fin 1 → ℝ => v 0 := rfl
  rw [hcomp, ← Measure.map_map (by fun_prop) (by fun_prop), stdNormal, (measurePreserving_eval (fun _ : Fin 1 => gaussianReal 0 1) 0).map_eq,
    gaussianReal_map_add_const] at e
  have := (gaussianReal_ext_iff.1 e).1
  norm_num at this

end
end FlowMC
