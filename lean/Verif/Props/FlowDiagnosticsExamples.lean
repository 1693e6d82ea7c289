import Verif.Props.FlowDiagnostics
import Verif.Props.AcceptRateExamples
/-
Non-vacuity of C107: a flow that does not fit the target, and the buffers of a run.
-/
open MeasureTheory ProbabilityTheory
open scoped ENNReal
set_option linter.unusedSectionVars false
namespace FlowMC
open Spec
namespace Ideal

/-- A normal log-density with a step: one unit higher where the first coordinate is negative. -/
noncomputable def steppedTarget : Target ℝ Unit 2 where
  val x _ := -(x 0 ^ 2 + x 1 ^ 2) / 2 + if x 0 < 0 then 1 else 0
  grad _ _ := fun _ => 0

theorem stepped_meas : Measurable fun x : Pos ℝ 2 => steppedTarget.val x ⟨(), none⟩ := by
  simp only [steppedTarget]
  exact (by fun_prop : Measurable fun x : Pos ℝ 2 => -(x 0 ^ 2 + x 1 ^ 2) / 2).add (Measurable.ite (measurableSet_lt (measurable_pi_apply 0) measurable_const) measurable_const measurable_const)

theorem stepped_finite : targetMeasure (fun x : Pos ℝ 2 => steppedTarget.val x ⟨(), none⟩) Set.univ ≠ ∞ := by
  obtain ⟨hfin, -⟩ := samplesFrom_normalised (stdNormal 2) _ (by fun_prop) flow.density
  have : targetMeasure (fun x : Pos ℝ 2 => steppedTarget.val x ⟨(), none⟩) Set.univ ≤ ENNReal.ofReal (Real.exp 1) * targetMeasure (fun x : Pos ℝ 2 => -(x 0 ^ 2 + x 1 ^ 2) / 2) Set.univ := by
    simp only [targetMeasure, withDensity_apply _ MeasurableSet.univ, Measure.restrict_univ]
    rw [← lintegral_const_mul _ (by fun_prop)]
    refine lintegral_mono fun x => ?_
    rw [← ENNReal.ofReal_mul (Real.exp_pos _).le, ← Real.exp_add]
    refine ENNReal.ofReal_le_ofReal (Real.exp_le_exp.2 ?_)
    simp only [steppedTarget]
    split_ifs <;> linarith
  exact ne_top_of_le_ne_top (ENNReal.mul_ne_top ENNReal.ofReal_ne_top hfin) this

/-- A flow with the standard normal distribution used on the stepped target is accepted at a rate of at least `1/e`, so no probability differs by more than `1 - 1/e`; and the hypotheses of all theorems of C107 about rates
are met by it. -/
example : let μ := normalised (targetMeasure fun x : Pos ℝ 2 => steppedTarget.val x ⟨(), none⟩)
    let R := flowRate steppedTarget ⟨(), none⟩ (fun x : Pos ℝ 2 => -(x 0 ^ 2 + x 1 ^ 2) / 2) (stdNormal 2) μ
    Real.exp (-1) ≤ R ∧ (R = 1 ↔ stdNormal 2 = μ) ∧ (∀ A, MeasurableSet A → |μ.real A - (stdNormal 2).real A| ≤ 1 - Real.exp (-1)) ∧ (1 - (1 - Real.exp (-1))) ^ 2 ≤ R := by
  intro μ R
  haveI : IsProbabilityMeasure μ := normalised_isProb _ stepped_meas stepped_finite
  have hμ : SamplesFrom μ fun x : Pos ℝ 2 => steppedTarget.val x ⟨(), none⟩ := ⟨_, rfl⟩
  have hR : Real.exp (-1) ≤ R := by
    have := C107_close steppedTarget ⟨(), none⟩ stepped_meas μ (stdNormal 2) (fun x : Pos ℝ 2 => -(x 0 ^ 2 + x 1 ^ 2) / 2) (by fun_prop) (-(1 / 2)) (1 / 2) fun x => by
      simp only [steppedTarget]
      rw [abs_le]
      split_ifs <;> constructor <;> linarith
    rwa [show -(2 * (1 / 2 : ℝ)) = -1 by norm_num] at this
  have hA : ∀ A, MeasurableSet A → |μ.real A - (stdNormal 2).real A| ≤ 1 - Real.exp (-1) := fun A hA =>
    (C107_certificate steppedTarget ⟨(), none⟩ stepped_meas μ (stdNormal 2) hμ _ (by fun_prop) flow.density A hA).trans (by linarith)
  exact ⟨hR, C107_perfect steppedTarget ⟨(), none⟩ stepped_meas μ (stdNormal 2) hμ _ (by fun_prop) flow.density, hA,
    C107_good_flow steppedTarget ⟨(), none⟩ stepped_meas μ (stdNormal 2) hμ _ (by fun_prop) flow.density _ (by linarith [Real.exp_pos (-1)]) hA⟩

/-- Non-vacuity of `C107_recorded`: the long call of flow proposals of the C104 example. -/
example (x : Pos ℝ 2) : ∃ R : ℝ, (∀ A, MeasurableSet A → |(stdNormal 2).real A - (stdNormal 2).real A| ≤ 1 - R) ∧
      (∀ η ≤ 1, (∀ A, MeasurableSet A → |(stdNormal 2).real A - (stdNormal 2).real A| ≤ η) → (1 - η) ^ 2 ≤ R) ∧
      ∀ δ > 0, ∀ ε > 0, ∃ L, ∀ N, L ≤ ceilDiv' N flowStepper.thinning →
        AcceptanceAfter env prob mixHeap.res ⟨(), none⟩ mixStrats [] (.root 3) (fun _ => x) R δ ε { flowStepper with nSteps := N } (ceilDiv' N flowStepper.thinning) :=
  C107_recorded (.root 3) (drawsFrom _) mixHeap.res ⟨(), none⟩ (stdNormal 2) (by rfl) (by rfl) mixStrats [] (by simp) flowStepper rfl () 4 (by decide) rfl _ rfl target rfl (fun _ _ _ _ => rfl)
    (by simp only [target]; fun_prop) Toy.normal_samplesFrom (stdNormal 2) _ (by fun_prop)
    ⟨flow.lawful, fun a _ => flow.rows_meas a trivial, fun a _ => flow.rows_law a trivial, flow.logProb, flow.density⟩ (fun _ => x) measurable_const

end Ideal
end FlowMC
