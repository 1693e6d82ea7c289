import Verif.Props.SmallSteps
import Verif.Props.AcceptRateExamples
/-
Non-vacuity of C108_recorded: the long random walk of the C104 example with a small enough step size.
-/
open MeasureTheory ProbabilityTheory
open scoped ENNReal
set_option linter.unusedSectionVars false
namespace FlowMC
open Spec
namespace Ideal

/-- The resources of the example with step size `σ` for the random walk. -/
noncomputable def smallRes (σ : ℝ) (n : String) : Option (Resource ℝ Unit 2 Unit Unit) := if n = walkStepper.kernelName then some (.kernel (.grw σ)) else mixHeap.res n

example (x : Pos ℝ 2) (δ : ℝ) (hδ : 0 < δ) : ∃ s₀ > 0, ∀ σ, 0 < |σ| → |σ| < s₀ → ∀ ε > 0, ∃ L, ∀ N, L ≤ ceilDiv' N walkStepper.thinning →
    AcceptanceAfter env prob (smallRes σ) ⟨(), none⟩ mixStrats [] (.root 3) (fun _ => x) 1 δ ε { walkStepper with nSteps := N } (ceilDiv' N walkStepper.thinning) := by
  obtain ⟨s₀, h0, h⟩ := C108_recorded (Ω := Outcome) (O := Unit) (.grw 1 : KernelRes ℝ 2 Unit) (by intro m b; simp) target ⟨(), none⟩ (by simp only [target]; fun_prop) (by simp only [target]; fun_prop) (stdNormal 2)
    Toy.normal_samplesFrom (by rfl) (by rfl) δ hδ
  exact ⟨s₀, h0, fun σ p1 p2 ε hε => h σ p1 p2 trivial (by simpa [MixingSettings, withStep] using abs_pos.1 p1) (.root 3) (drawsFrom _) (smallRes σ) mixStrats [] (by simp) walkStepper rfl (by simp [smallRes, withStep]) _
    (by rw [smallRes, if_neg (by decide)]; rfl) rfl (fun _ => x) measurable_const ε hε⟩

end Ideal
end FlowMC
