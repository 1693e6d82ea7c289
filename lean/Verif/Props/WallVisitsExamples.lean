import Verif.Props.WallVisits
import Verif.Props.WallErrorBarsExamples
/-
Non-vacuity of C113: the target on the unit square of the C101 example.
-/
open MeasureTheory ProbabilityTheory
open scoped ENNReal
set_option linter.unusedSectionVars false
namespace FlowMC
open Spec
namespace Bars
open Ideal
noncomputable section
open Classical

/-- The lower right quarter, far from the corner where chain 0 starts. -/
def quarter : Set (Pos ℝ 2) := {x | 1 / 2 < x 0 ∧ x 1 < 1 / 2}

theorem quarter_open : IsOpen quarter := (isOpen_lt continuous_const (continuous_apply 0)).inter (isOpen_lt (continuous_apply 1) continuous_const)

theorem quarter_pos : 0 < (normalised (wallMeasure square fun x => x 0)).real quarter := by
  obtain ⟨p1, p2⟩ := C113_positive square (fun x => x 0) (by fun_prop) (zero_lt_one.trans_le square_mass.1).ne' square_mass.2 quarter quarter_open.measurableSet
  refine p1 (p2 quarter_open ⟨![3 / 4, 1 / 4], ⟨by norm_num [quarter], ?_⟩⟩)
  rw [square_eq, interior_pi_set Set.finite_univ]
  intro i _
  rw [interior_Icc]
  fin_cases i <;> norm_num

/-- Non-vacuity of C113: two chains, one of them started in the upper left corner of the square; the probability that no production row of either of them lies in the lower right quarter decays geometrically with the
number of loops. -/
example : ∃ ρ : ℝ, 0 ≤ ρ ∧ ρ < 1 ∧ ∀ n, ∃ (s' : Outcome → Sampler XR Unit 2 (Pos ℝ 2) ℕ Unit) (b : Outcome → Buffer XR),
    (∀ ω, ∃ s, Sampler.new 2 2 (.root 7) none none none (some (malaBundle (wallCfg.withProd n))) [] = .ok s ∧ s.sample (wallEnv ω) (.mat [emb (begin' 0), emb (begin' 1)]) ⟨(), none⟩ = (.ok (), s' ω)) ∧
    (∀ ω, (s' ω).heap.res "positions_production" = some (.buffer (b ω))) ∧
    prob.real {ω | ∀ i < 2, ∀ j < n * 4, ¬ ∃ y : Pos ℝ 2, (1 / 2 < y 0 ∧ y 1 < 1 / 2) ∧ ∀ a : Fin 2, (b ω).data.get [i, j, a] = XR.fin (y a)} ≤ ρ ^ (n * 2) := by
  obtain ⟨C, hC, hcov⟩ := wallCovers
  obtain ⟨h0, h1⟩ := loopFactor_lt wallCfg hC
  have hp := quarter_pos
  haveI := wall_isProb (S := square) (lp := fun x => x 0) (zero_lt_one.trans_le square_mass.1).ne' square_mass.2
  have hle : (normalised (wallMeasure square fun x => x 0)).real quarter ≤ 1 := measureReal_le_one
  refine ⟨1 - (1 - loopFactor wallCfg C) * (normalised (wallMeasure square fun x => x 0)).real quarter, ?_, ?_, fun n => ?_⟩
  · have : (1 - loopFactor wallCfg C) * (normalised (wallMeasure square fun x => x 0)).real quarter ≤ 1 := mul_le_one₀ (by linarith) hp.le hle
    linarith
  · have : 0 < (1 - loopFactor wallCfg C) * (normalised (wallMeasure square fun x => x 0)).real quarter := mul_pos (by linarith) hp
    linarith
  obtain ⟨s', b, g1, g2, -, g3⟩ := C113_adaptive (V := Unit) draws wallCfg (by decide) (by decide) (fun _ => rfl) ⟨(), none⟩ wallAdaptive C hC hcov wallTraining
    (fun j => by fin_cases j <;> simp [BundleCfg.flow, wallCfg]) (.root 7) (fun ω => .mat [emb (begin' 0), emb (begin' 1)]) (fun _ => rfl)
    (fun i hi => by
      rw [show wallCfg.nChains = 2 from rfl] at hi
      refine ⟨fun _ => begin' i, measurable_const, fun _ => ⟨?_, begin_mem i⟩⟩
      rcases (show i = 0 ∨ i = 1 by omega) with rfl | rfl <;> rfl)
    quarter quarter_open.measurableSet n 2 2 [] _ rfl
  refine ⟨s', b, fun ω => ⟨_, rfl, g1 ω⟩, g2, ?_⟩
  have e : (wallCfg.withProd n).nProdSteps = n * 4 := by simp only [BundleCfg.nProdSteps, BundleCfg.withProd, wallCfg, Learn.wallRunCfg]; omega
  rw [e] at g3
  exact g3

end
end Bars
end FlowMC
