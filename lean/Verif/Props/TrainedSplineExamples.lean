import Verif.Props.TrainedSpline
import Verif.Props.WitnessFlows
import Verif.Props.ProductionExamples
/-
Non-vacuity of C91 and of C73 (production phase): a whole run whose production phase leaves the target distribution.
-/
open MeasureTheory ProbabilityTheory
open scoped ENNReal
set_option linter.unusedSectionVars false
namespace FlowMC
open Spec
noncomputable section
namespace Witness

/-- The constructed flow `spl` after training: scale and shift of its layers have moved. -/
def splTrained : SplineFlow 3 8 := { spl with layers := spl.layers.map fun l => { l with scale := 1 / 3, shift := -2 } }
theorem splTrained_good : splTrained.Wellformed := by
  obtain ⟨a, b, c, e, f, g⟩ := spl_good.1
  refine ⟨a, b, c, e, f, fun l hl => ?_⟩
  simp only [splTrained, List.mem_map] at hl
  obtain ⟨l', h, rfl⟩ := hl
  exact g l' h

example := C91_inverse 0 splTrained splTrained_good (guardOff_zero _)
example := C91_density (splineDraws 3 8) 0 splTrained splTrained_good (guardOff_zero _) spl_var (show ConsistentBase _ _ _ splTrained.base from spl_base ▸ C46_gaussian (splineDraws 3 8) _ (chol_two 3))
example := C91_correct_iff (splineDraws 3 8) 0 splTrained splTrained_good (guardOff_zero _) spl_var (show ConsistentBase _ _ _ splTrained.base from spl_base ▸ C46_gaussian (splineDraws 3 8) _ (chol_two 3))
example := C91_trained_wrong (nvpDraws 1) 0 (fun _ => sq_nonneg _)
example := C91_trivial 0 spl spl_good.2

/-- A target that knows the log-density only (its gradient is reported as zero; MALA corrects for that). -/
def badTarget : Target ℝ Unit 1 where
  val x _ := badSpline.logProb 0 x
  grad _ _ := fun _ => 0

/-- A start with the target distribution: the inverse of the flow's `forward`, applied to a normal draw. -/
def badG (l : SplineLayer 1 1) (y : Pos ℝ 1) : Pos ℝ 1 := (l.affine.inverse ((l.spline 0 badSpline.cfg).inverse y).1).1

theorem bad_layer : ∃ l, badSpline.layers = [l] := ⟨_, rfl⟩

theorem bad_start : ∃ X : Ideal.Outcome → Pos ℝ 1, Measurable[Ideal.past] X ∧ Ideal.prob.map X = normalised (targetMeasure fun x => badSpline.logProb 0 x) := by
  obtain ⟨l, hl⟩ := bad_layer
  have hml : l ∈ badSpline.layers := by rw [hl]; simp
  have hw := badSpline_wellformed
  have hp : InversePair (badSpline.forward 0) (fun y => ((l.affine.inverse ((l.spline 0 badSpline.cfg).inverse y).1).1, ((l.spline 0 badSpline.cfg).inverse y).2 + (l.affine.inverse ((l.spline 0 badSpline.cfg).inverse y).1).2)) := by
    have := inversePair_comp (C37_inverse_pair l.affine (fun _ => Or.inl rfl) (C37_scalarAffine _ _))
      (C37_inverse_pair (l.spline 0 badSpline.cfg) (hw.masks l hml) (C37_rqSpline 0 badSpline.cfg (l.mlp.call Real.tanh) (fun _ _ => hw.valid _) (guardOff_zero badSpline l hml)))
    refine cast ?_ this
    congr 1
    funext x
    rw [SplineFlow.forward_eq, hl]
    simp [seqMaps, SplineLayer.fwd]
  have hT := spline_transports_all 0 badSpline hw
  have hd := flow_density hp hT badSpline.dataMean badSpline.dataVar (fun _ => one_pos) badSpline.base.logProb (C46_stdGaussian (d := 1) (nvpDraws 1)).logProb_meas
  rw [show targetMeasure badSpline.base.logProb = stdNormal 1 from (stdNormal_density 1).symm] at hd
  have mS : Measurable (fun z => unwhiten badSpline.dataMean badSpline.dataVar (l.affine.inverse ((l.spline 0 badSpline.cfg).inverse z).1).1) :=
    by have := inverse_measurable hp hT.meas; exact (measurable_unwhiten _ _).comp this
  let n1 : Ideal.Raw → Pos ℝ 1 := fun x i => x.1 0 i
  have mn : Measurable n1 := by fun_prop
  refine ⟨fun ω => unwhiten badSpline.dataMean badSpline.dataVar (l.affine.inverse ((l.spline 0 badSpline.cfg).inverse (n1 (ω none))).1).1, (mS.comp mn).comp Ideal.past_measurable, ?_⟩
  have e := Ideal.prob_at none (fun x => unwhiten badSpline.dataMean badSpline.dataVar (l.affine.inverse ((l.spline 0 badSpline.cfg).inverse (n1 x)).1).1) (mS.comp mn)
  rw [e]
  have e2 : Ideal.raw.map (fun x => unwhiten badSpline.dataMean badSpline.dataVar (l.affine.inverse ((l.spline 0 badSpline.cfg).inverse (n1 x)).1).1) =
      (stdNormal 1).map fun z => unwhiten badSpline.dataMean badSpline.dataVar (l.affine.inverse ((l.spline 0 badSpline.cfg).inverse z).1).1 := by
    rw [← Ideal.raw_row 0 1, Measure.map_map mS mn]; rfl
  rw [e2]
  haveI : IsProbabilityMeasure ((stdNormal 1).map fun z => unwhiten badSpline.dataMean badSpline.dataVar (l.affine.inverse ((l.spline 0 badSpline.cfg).inverse z).1).1) :=
    Measure.isProbabilityMeasure_map mS.aemeasurable
  exact (samplesFrom_finite ⟨_, hd⟩).2

/-- One chain, two production loops of four local and six global steps, no training. -/
def badCfg : BundleCfg ℝ Unit 1 (SplineModel 1 1) Unit where
  key := .root 0
  nChains := 1
  logpdf := badTarget
  nLocal := 4
  nGlobal := 6
  nTrainLoops := 0
  nProdLoops := 2
  nEpochs := 5
  stepSize := 1 / 10
  localThin := 2
  globalThin := 3
  nfBatch := 4
  mkModel := fun _ => badModel
  mkOptim := fun _ => ()

/-- Non-vacuity of C91 and C73 (production phase): a run from the target distribution, completed in every outcome, whose production rows do not all have the target distribution. -/
example : ∃ (X : Ideal.Outcome → Pos ℝ 1) (w w' : Ideal.Outcome → World ℝ Unit 1 (SplineModel 1 1) Unit), Ideal.prob.map X = normalised (targetMeasure fun x => badSpline.logProb 0 x) ∧
    (∀ ω, Completes (splineEnv 1 1 ω) (malaBundle badCfg).strategies.lookup ⟨(), none⟩ (repeatPhase 0 trainingPhase ++ ["reset_steppers", "update_state"])
      ⟨.root 7, [X ω], ⟨(malaBundle badCfg).resources, fun _ => 0⟩⟩ (w ω)) ∧
    (∀ ω, Completes (splineEnv 1 1 ω) (malaBundle badCfg).strategies.lookup ⟨(), none⟩ (repeatPhase 2 productionPhase) (w ω) (w' ω)) ∧
    ¬ ∀ i < 1, ∀ j < badCfg.nProdSteps, ∃ Y : Ideal.Outcome → Pos ℝ 1, Measurable Y ∧ Ideal.prob.map Y = normalised (targetMeasure fun x => badSpline.logProb 0 x) ∧
      ∀ ω, ∃ b, (w' ω).heap.res "positions_production" = some (.buffer b) ∧ ∀ a : Fin 1, b.data.get [i, j, a] = Y ω a := by
  obtain ⟨X, hX, hXl⟩ := bad_start
  have hlaw : ∀ ω, (splineEnv 1 1 ω).ops.Lawful := fun ω m k n => by
    simp only [splineEnv, SplineFlow.sample, List.length_map, m.2]
  have hgood : GoodCfg badCfg := ⟨by decide, by decide, by decide, by decide, by decide, by decide, by decide⟩
  choose w w' h1 h2 using fun ω => bundle_total (splineEnv 1 1 ω) (hlaw ω) badCfg hgood ⟨(), none⟩ (by decide) (by decide) (fun _ => True)
    ⟨fun _ _ _ _ _ => trivial, fun _ _ _ _ _ _ _ _ => trivial, fun _ _ _ => rfl⟩ (.root 7) [X ω] rfl (fun _ _ => trivial)
  have hw : ∀ ω, (w ω).key = .root 7 ∧ (w ω).xs = [X ω] ∧ (w ω).heap.res "global_sampler" = some (.kernel (.nf badModel 4)) := by
    intro ω
    have h := h1 ω
    simp only [badCfg, repeatPhase, List.replicate_zero, List.flatten_nil, List.nil_append] at h
    obtain ⟨e1, e2, -, -, -, e3, -⟩ := switch_step (splineEnv 1 1 ω) badCfg _ (bundle_hasCore badCfg) ⟨(), none⟩ _ _ h (fun _ => []) (bundleInv_fresh badCfg _ (fun _ _ => rfl))
    exact ⟨e2, e1, by rw [e3 _ (by decide)]; rfl⟩
  refine ⟨X, w, w', hXl, h1, h2, ?_⟩
  exact C91_production_wrong (splineDraws 1 1) 0 (fun _ => sq_nonneg _) (fun _ _ _ _ => rfl) (fun _ _ => rfl) badCfg hgood (by norm_num [badCfg]) (by decide) (by decide) ⟨(), none⟩ (fun _ => rfl)
    (by simp only [badCfg, badTarget]; fun_prop) (fun _ _ _ _ => rfl) (.root 7) (fun _ => .root 7) (fun ω => [X ω]) (fun _ => rfl) w w' h1 (fun ω => (hw ω).1) (fun ω => (hw ω).2.2)
    (fun i hi => by
      have : i = 0 := by simp only [badCfg] at hi; omega
      subst this
      exact ⟨X, fun ω => by rw [(hw ω).2.1]; rfl, hX, hXl⟩) h2

/-- C91 (rows), for the same flow and target. -/
example := fun X hX => C91_sweep_rows (splineDraws 1 1) 0 (fun _ _ _ _ => rfl) (fun _ _ => rfl) badModel badSpline_wellformed (guardOff_zero _) (fun _ => one_pos)
  (C46_stdGaussian (d := 1) (splineDraws 1 1)) 3 (by norm_num) badTarget (fun _ _ _ _ => rfl) ⟨(), none⟩
  (splineLogProb_measurable 0 badSpline badSpline_wellformed (C46_stdGaussian (d := 1) (splineDraws 1 1)).logProb_meas)
  (by
    have e : ∀ x, badTarget.val x ⟨(), none⟩ - badModel.1.logProb 0 x + sampleLogDensity 0 badModel.1 x = sampleLogDensity 0 badSpline x := by
      intro x; show badSpline.logProb 0 x - badSpline.logProb 0 x + sampleLogDensity 0 badSpline x = _; ring
    rw [funext e]
    obtain ⟨q, h1, h2, -⟩ := C91_density (splineDraws 1 1) 0 badSpline badSpline_wellformed (guardOff_zero _) (fun _ => one_pos) (C46_stdGaussian (d := 1) (splineDraws 1 1))
    exact (samplesFrom_finite h2).1) X hX (1 / 100) (by norm_num)

end Witness
end
end FlowMC
