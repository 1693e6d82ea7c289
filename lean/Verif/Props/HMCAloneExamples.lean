import Verif.Props.HMCAlone
import Verif.Props.ConvergeExamples
import Verif.Props.AnyOrderExamples
/-
Non-vacuity of C98.
-/
open MeasureTheory ProbabilityTheory
open scoped ENNReal
set_option linter.unusedSectionVars false
namespace FlowMC
open Spec
namespace Ideal

theorem target_normal : IsNormalTarget target ⟨(), none⟩ := ⟨fun x => by simp only [target, Fin.sum_univ_two], fun x i => rfl⟩

/-- The settings of the counterexample are admissible ones: C25 applies to them. -/
example : IsPosDiag (unitMat : Mat ℝ 2) ∧ IsCholeskyInv (unitMat : Mat ℝ 2) unitMat := ⟨unit_diag, unit_chol⟩

/-- Ten leapfrog steps, a chain started at (1, 2): it jumps between (1, 2) and (-1, -2). -/
example : ∃ ε : ℝ, 0 < ε ∧ ∀ (rng : Rng ℝ), (∀ k, 0 < rng.uniform k ∧ rng.uniform k < 1) → ∀ (k : Key), ((serialSample (fun k x lp t data => hmcKernel rng ε 10 unitMat unitMat k x lp t data) target ⟨(), none⟩ 100 k ![1, 2])[6]?).map (·.pos) =
    some (![-1, -2] : Pos ℝ 2) := by
  obtain ⟨ε, h0, h⟩ := C98_rows_half_turn (D := Unit) (M := Unit) 10 (by norm_num)
  refine ⟨ε, h0, fun rng hr k => (h 2 target ⟨(), none⟩ target_normal rng hr _ rfl 100 k ![1, 2] 6 (by norm_num)).trans ?_⟩
  congr 1
  funext i
  fin_cases i <;> norm_num

/-- Such a generator exists. -/
example : ∃ rng : Rng ℝ, ∀ k, 0 < rng.uniform k ∧ rng.uniform k < 1 := ⟨{ (env (Classical.choice inferInstance)).rng with uniform := fun _ => 1 / 2 }, fun _ => by norm_num⟩

example : ∃ ε : ℝ, 0 < ε ∧ ¬ TVConverges (fun k => (stepLaw (noise 2) fun ω x => (hmcStep ε 10 unitMat unitMat target ⟨(), none⟩ ω.1 ω.2 x (target.val x ⟨(), none⟩)).pos)^[k] (Measure.dirac ![1, 2]))
    (normalised (targetMeasure fun x => target.val x ⟨(), none⟩)) := by
  obtain ⟨ε, h0, h⟩ := C98_no_convergence (D := Unit) 10 (by norm_num)
  refine ⟨ε, h0, h 2 target ⟨(), none⟩ target_normal 0 _ inferInstance ?_⟩
  rw [Measure.dirac_apply' _ (measurableSet_lt measurable_const (measurable_pi_apply 0)), Set.indicator_of_mem]
  · rfl
  · show (0 : ℝ) < 1
    norm_num

theorem target_short : ShortTrajectory (1 / 10) 3 (unitMat : Mat ℝ 2) fun x => target.grad x ⟨(), none⟩ := by
  refine ⟨by norm_num, .inr ⟨1, ?_, fun i => ?_⟩⟩
  · have : (fun x => target.grad x ⟨(), none⟩) = fun x : Pos ℝ 2 => -x := rfl
    rw [this]
    exact LipschitzWith.id.neg
  · simp [unitMat]; norm_num

/-- Three leapfrog steps of size 1/10, from the point (1000, -1000): the rows approach the target. -/
example (ε : ℝ) (hε : 0 < ε) := C98_rows_partial draws (1 / 10) 3 unitMat unitMat unit_diag unit_chol target ⟨(), none⟩ target_short _ (fun _ => rfl) (by simp only [target]; fun_prop)
  (by refine measurable_pi_lambda _ fun i => ?_; simp only [target]; fun_prop) target_finite (fun _ => ![1000, -1000]) measurable_const ε hε
example := C98_short_partial (1 / 10) 3 unitMat unitMat unit_diag unit_chol target ⟨(), none⟩ target_short (by simp only [target]; fun_prop)
  (by refine measurable_pi_lambda _ fun i => ?_; simp only [target]; fun_prop) target_finite (Measure.dirac ![1000, -1000])

/-- The HMC stepper of the sampler of C97 is a mixing one. -/
example : MixingStepper mixHeap.res ⟨(), none⟩ hamStepper := .inr ⟨_, _, target, rfl, rfl, rfl, unit_diag, unit_chol, target_short⟩

end Ideal
end FlowMC
