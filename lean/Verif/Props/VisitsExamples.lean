import Mathlib.Analysis.Complex.ExponentialBounds
import Verif.Props.Visits
import Verif.Props.ErrorBarsExamples
/-
Non-vacuity of C109: the learning flow of the C95 example.
-/
open MeasureTheory ProbabilityTheory
open scoped ENNReal
set_option linter.unusedSectionVars false
namespace FlowMC
open Spec
namespace Bars
open Ideal

/-- Non-vacuity of C109: two chains, one starting at the far point (1000, -1000) and one at a random point; the probability that no production row of either of them has a negative first and a positive second coordinate
decays geometrically with the number of loops. -/
example : ∃ ρ : ℝ, 0 ≤ ρ ∧ ρ < 1 ∧ ∀ n, ∃ (s' : Outcome → Sampler ℝ Unit 2 (Pos ℝ 2) ℕ Unit) (b : Outcome → Buffer ℝ),
    (∀ ω, ∃ s, Sampler.new 2 2 (.root 7) none none none (some (malaBundle (cfg.withProd n))) [] = .ok s ∧ s.sample (env ω) (.mat [![1000, -1000], start ω]) ⟨(), none⟩ = (.ok (), s' ω)) ∧
    (∀ ω, (s' ω).heap.res "positions_production" = some (.buffer (b ω))) ∧
    prob.real {ω | ∀ i < 2, ∀ j < n * 4, ¬ ((b ω).data.get [i, j, 0] < 0 ∧ 0 < (b ω).data.get [i, j, 1])} ≤ ρ ^ (n * 2) := by
  obtain ⟨C, hC, hcov⟩ := covers
  obtain ⟨h0, h1⟩ := loopFactor_lt cfg hC
  have hopen : IsOpen {x : Pos ℝ 2 | x 0 < 0 ∧ 0 < x 1} := (isOpen_lt (continuous_apply 0) continuous_const).inter (isOpen_lt continuous_const (continuous_apply 1))
  obtain ⟨p1, p2⟩ := C109_positive (fun x => narrow.val x ⟨(), none⟩) narrow_meas narrow_finite {x : Pos ℝ 2 | x 0 < 0 ∧ 0 < x 1}
  have hp := p1 (p2 hopen ⟨![-1, 1], by simp⟩)
  haveI := normalised_isProb _ narrow_meas narrow_finite
  have hle : (normalised (targetMeasure fun x => narrow.val x ⟨(), none⟩)).real {x : Pos ℝ 2 | x 0 < 0 ∧ 0 < x 1} ≤ 1 := measureReal_le_one
  refine ⟨1 - (1 - loopFactor cfg C) * (normalised (targetMeasure fun x => narrow.val x ⟨(), none⟩)).real {x : Pos ℝ 2 | x 0 < 0 ∧ 0 < x 1}, ?_, ?_, fun n => ?_⟩
  · have : (1 - loopFactor cfg C) * (normalised (targetMeasure fun x => narrow.val x ⟨(), none⟩)).real {x : Pos ℝ 2 | x 0 < 0 ∧ 0 < x 1} ≤ 1 := mul_le_one₀ (by linarith) hp.le hle
    linarith
  · have : 0 < (1 - loopFactor cfg C) * (normalised (targetMeasure fun x => narrow.val x ⟨(), none⟩)).real {x : Pos ℝ 2 | x 0 < 0 ∧ 0 < x 1} := mul_pos (by linarith) hp
    linarith
  obtain ⟨s', b, g1, g2, -, g3⟩ := C109_adaptive (V := Unit) draws cfg (by decide) (by decide) (fun _ => rfl) ⟨(), none⟩ adaptive C hC hcov training (fun j => by fin_cases j <;> simp [BundleCfg.flow, cfg]) (.root 7)
    (fun ω => .mat [![1000, -1000], start ω]) (fun _ => rfl)
    (fun i hi => by
      rw [show cfg.nChains = 2 from rfl] at hi
      rcases (show i = 0 ∨ i = 1 by omega) with rfl | rfl
      · exact ⟨fun _ => ![1000, -1000], measurable_const, fun _ => rfl⟩
      · exact ⟨start, start_known, fun _ => rfl⟩)
    {x : Pos ℝ 2 | x 0 < 0 ∧ 0 < x 1} hopen.measurableSet n 2 2 [] _ rfl
  refine ⟨s', b, fun ω => ⟨_, rfl, g1 ω⟩, g2, ?_⟩
  have e : (cfg.withProd n).nProdSteps = n * 4 := by simp only [BundleCfg.nProdSteps, BundleCfg.withProd, cfg, Learn.cfg]; omega
  rw [e] at g3
  exact g3

end Bars

/-- `C109_enough` has concrete values: with `C = 2`, one flow proposal per loop and a region of probability one half, forty loops suffice for `ε = 1/10000`. -/
example {R D M O : Type} {d : ℕ} (c : BundleCfg R D d M O) (hc : c.nGlobal = 1) (ht : c.globalThin = 1) : (1 - (1 - loopFactor c 2) * (1 / 2)) ^ 40 ≤ (1 / 10000 : ℝ) := by
  refine C109_enough c 2 (by norm_num) (1 / 2) (by norm_num) (by norm_num) (1 / 10000) (by norm_num) 40 ?_
  have hlog : Real.log (1 / (1 / 10000)) ≤ 10 := by
    rw [Real.log_le_iff_le_exp (by norm_num)]
    calc (1 / (1 / 10000) : ℝ) ≤ 2.7 ^ 10 := by norm_num
      _ ≤ Real.exp 1 ^ 10 := pow_le_pow_left₀ (by norm_num) (by have := Real.exp_one_gt_d9; linarith) 10
      _ = Real.exp 10 := by rw [← Real.exp_nat_mul]; norm_num
  have e : (1 - loopFactor c 2) * (1 / 2) = (1 / 4 : ℝ) := by rw [loopFactor, hc, ht]; norm_num
  rw [e, div_le_iff₀ (by norm_num)]
  push_cast
  linarith

end FlowMC
