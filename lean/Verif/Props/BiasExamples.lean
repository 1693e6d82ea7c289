import Verif.Props.Bias
import Verif.Props.WitnessKernels
/-
C93: a concrete case.  A normal target, a flow that samples it exactly but reports a `log_prob` with ripples.
-/
open MeasureTheory ProbabilityTheory
open scoped ENNReal
set_option linter.unusedSectionVars false
namespace FlowMC
open Spec
namespace Ideal

/-- The reported `log_prob`: wrong by up to `1/100`. -/
noncomputable def ripple (x : Pos ℝ 2) : ℝ := -(x 0 ^ 2 + x 1 ^ 2) / 2 + Real.sin (x 0) / 100
theorem ripple_meas : Measurable ripple := by unfold ripple; fun_prop
noncomputable def smooth (x : Pos ℝ 2) : ℝ := -(x 0 ^ 2 + x 1 ^ 2) / 2
theorem smooth_meas : Measurable smooth := by unfold smooth; fun_prop
theorem ripple_off (x : Pos ℝ 2) : |ripple x - smooth x - 0| ≤ 1 / 100 := by
  have h1 := Real.neg_one_le_sin (x 0)
  have h2 := Real.sin_le_one (x 0)
  simp only [ripple, smooth]
  rw [abs_le]
  constructor <;> linarith

theorem rippleFin : targetMeasure (fun x : Pos ℝ 2 => target.val x ⟨(), none⟩) Set.univ ≠ ∞ := (samplesFrom_normalised (stdNormal 2) _ (by fun_prop) Toy.normal_samplesFrom).1

/-- The hypotheses of C93 for this flow. -/
theorem ripple_uniform : targetMeasure (misfit (fun x => target.val x ⟨(), none⟩) ripple smooth) Set.univ ≠ ∞ ∧ 1 ≤ 1 * Real.exp (2 * (1 / 100)) ∧
    (∀ x, density (misfit (fun x => target.val x ⟨(), none⟩) ripple smooth) x ≤ 1 * Real.exp (2 * (1 / 100)) * density smooth x) ∧
    (∀ A, MeasurableSet A → |(normalised (targetMeasure (misfit (fun x => target.val x ⟨(), none⟩) ripple smooth))).real A - (normalised (targetMeasure fun x : Pos ℝ 2 => target.val x ⟨(), none⟩)).real A| ≤ 1 - Real.exp (-(2 * (1 / 100)))) ∧
    (2 * (1 * Real.exp (2 * (1 / 100))) - 1) * (1 - Real.exp (-(2 * (1 / 100)))) ≤ 2 * 1 * (Real.exp (2 * (1 / 100)) - 1) :=
  C93_uniform (fun x => target.val x ⟨(), none⟩) ripple smooth (by simp only [target]; fun_prop) ripple_meas smooth_meas rippleFin 1 le_rfl (fun _ => (one_mul _).ge) 0 (1 / 100) ripple_off

example := C93_steps (M := Unit) (.mala (1/10)) (show (1/10 : ℝ) ≠ 0 by norm_num) target ⟨(), none⟩ (by simp only [target]; fun_prop) (by refine measurable_pi_lambda _ fun i => ?_; simp only [target]; fun_prop)
  ripple smooth ripple_meas smooth_meas (stdNormal 2) Toy.normal_samplesFrom rippleFin ripple_uniform.1 _ ripple_uniform.2.1 ripple_uniform.2.2.1 _ ripple_uniform.2.2.2.1 (Measure.dirac fun _ => 1000) [true, false, false, true, false]

/-- The ideal world in which the flow reports the rippled `log_prob`. -/
noncomputable def rippleEnv (ω : Outcome) : Env ℝ Unit 2 Unit Unit := { env ω with ops := { (env ω).ops with logProb := fun _ => ripple } }

/-- A run of the bundle from a start far away, completed in every outcome: each production row has the target distribution up to an explicit error, whose second part is below 0.05. -/
example : ∃ w w' : Outcome → World ℝ Unit 2 Unit Unit,
    (∀ ω, Completes (rippleEnv ω) (malaBundle cfg).strategies.lookup ⟨(), none⟩ (repeatPhase 0 trainingPhase ++ ["reset_steppers", "update_state"])
      ⟨.root 7, [fun _ => 1000, start ω], ⟨(malaBundle cfg).resources, fun _ => 0⟩⟩ (w ω)) ∧
    (∀ ω, Completes (rippleEnv ω) (malaBundle cfg).strategies.lookup ⟨(), none⟩ (repeatPhase 3 productionPhase) (w ω) (w' ω)) ∧
    ∀ i < 2, ∀ j < cfg.nProdSteps, ∃ Y : Outcome → Pos ℝ 2, Measurable Y ∧
      CloseInLaw prob Y (normalised (targetMeasure fun x => target.val x ⟨(), none⟩)) ((1 - 1 / (1 * Real.exp (2 * (1 / 100)))) ^ (4 * (j / 4)) + 1 / 20) ∧
      ∀ ω, ∃ b, (w' ω).heap.res "positions_production" = some (.buffer b) ∧ ∀ a : Fin 2, b.data.get [i, j, a] = Y ω a := by
  have hlaw : ∀ ω, (rippleEnv ω).ops.Lawful := fun ω => flow.lawful ω
  choose w w' h1 h2 using fun ω => bundle_total (rippleEnv ω) (hlaw ω) cfg cfg_good ⟨(), none⟩ (by decide) (by decide) (fun _ => True)
    ⟨fun _ _ _ _ _ => trivial, fun _ _ _ _ _ _ _ _ => trivial, fun _ _ _ => rfl⟩ (.root 7) [fun _ => 1000, start ω] rfl (fun _ _ => trivial)
  have hw : ∀ ω, (w ω).key = .root 7 ∧ (w ω).xs = [fun _ => 1000, start ω] ∧ (w ω).heap.res "global_sampler" = some (.kernel (.nf () 4)) := by
    intro ω
    have h := h1 ω
    simp only [cfg, repeatPhase, List.replicate_zero, List.flatten_nil, List.nil_append] at h
    obtain ⟨e1, e2, -, -, -, e3, -⟩ := switch_step (rippleEnv ω) cfg _ (bundle_hasCore cfg) ⟨(), none⟩ _ _ h (fun _ => []) (bundleInv_fresh cfg _ (fun _ _ => rfl))
    exact ⟨e2, e1, by rw [e3 _ (by decide)]; rfl⟩
  have hI : IdealOn (Desc (.root 7)) past sig prob rippleEnv := ⟨draws.past_le, draws.sig_le, draws.indep, fun k _ => draws.normal_meas k trivial, fun k _ => draws.normal_law k trivial,
    fun k _ => draws.uniform_meas k trivial, fun k _ => draws.uniform_law k trivial⟩
  refine ⟨w, w', h1, h2, fun i hi j hj => ?_⟩
  obtain ⟨Y, y1, y2, y3⟩ := C93_production (.root 7) hI cfg cfg_good (by norm_num [cfg]) ⟨(), none⟩ () (by simp only [cfg, target]; fun_prop)
    (by refine measurable_pi_lambda _ fun i => ?_; simp only [cfg, target]; fun_prop) (fun _ _ _ _ => rfl) rippleFin (stdNormal 2) ripple smooth ripple_meas smooth_meas
    ⟨hlaw, fun k _ => flow.rows_meas k trivial, fun k _ => flow.rows_law k trivial, fun _ => rfl⟩ Toy.normal_samplesFrom ripple_uniform.1 _ ripple_uniform.2.1 ripple_uniform.2.2.1 _ ripple_uniform.2.2.2.1
    (fun _ => .root 7) (fun ω => [fun _ => 1000, start ω]) (fun _ => rfl) w w' h1 (fun ω => (hw ω).1) (fun ω => (hw ω).2.2)
    (fun i hi => by
      rw [show cfg.nChains = 2 from rfl] at hi
      rcases (show i = 0 ∨ i = 1 by omega) with rfl | rfl
      · exact ⟨fun _ _ => 1000, fun ω => by rw [(hw ω).2.1]; rfl, measurable_const⟩
      · exact ⟨start, fun ω => by rw [(hw ω).2.1]; rfl, start_known⟩) h2 i hi j hj
  refine ⟨Y, y1, fun A hA => (y2 A hA).trans (add_le_add le_rfl (ripple_uniform.2.2.2.2.trans ?_)), y3⟩
  have := Real.exp_bound_div_one_sub_of_interval (x := 2 * (1 / 100)) (by norm_num) (by norm_num)
  have h3 : (1 : ℝ) / (1 - 2 * (1 / 100)) ≤ 1 + 1 / 40 := by norm_num
  linarith

end Ideal
end FlowMC
