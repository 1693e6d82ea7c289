import Verif.Props.Unbounded
import Verif.Props.ErrorBarsExamples
/-
Non-vacuity of C96: the posterior mean of the first parameter.
-/
open MeasureTheory ProbabilityTheory
open scoped ENNReal
set_option linter.unusedSectionVars false
namespace FlowMC
open Spec
namespace Bars
open Ideal

theorem coord_integrable : Integrable (fun x : Pos ℝ 2 => x 0) (normalised (targetMeasure fun x => narrow.val x ⟨(), none⟩)) := by
  unfold normalised
  refine Integrable.smul_measure ?_ (by
    have := (targetMeasure_real_pos _ narrow_meas narrow_finite)
    rw [measureReal_def, ENNReal.toReal_pos_iff] at this
    exact ENNReal.inv_ne_top.2 this.1.ne')
  unfold targetMeasure
  rw [integrable_withDensity_iff_integrable_smul' (narrow_meas.exp.ennreal_ofReal) (ae_of_all _ fun x => ENNReal.ofReal_lt_top)]
  have hdom : Integrable (fun x : Pos ℝ 2 => Real.exp (-(x 0 ^ 2 + x 1 ^ 2) / 2)) volume := by
    refine ⟨by fun_prop, ?_⟩
    have := target_finite
    simp only [targetMeasure, withDensity_apply _ MeasurableSet.univ, Measure.restrict_univ] at this
    rw [hasFiniteIntegral_iff_ofReal (ae_of_all _ fun x => (Real.exp_pos _).le)]
    exact lt_top_iff_ne_top.2 this
  refine hdom.mono' ?_ (ae_of_all _ fun x => ?_)
  · simp only [narrow]; fun_prop
  · rw [ENNReal.toReal_ofReal (Real.exp_pos _).le, smul_eq_mul, norm_mul, Real.norm_eq_abs, Real.norm_eq_abs, abs_of_pos (Real.exp_pos _)]
    have h1 : |x 0| ≤ Real.exp (x 0 ^ 2 / 2) := by
      refine le_trans ?_ (Real.add_one_le_exp _)
      rw [abs_le]; constructor <;> nlinarith [sq_nonneg (x 0 - 1), sq_nonneg (x 0 + 1)]
    calc _ ≤ Real.exp (narrow.val x ⟨(), none⟩) * Real.exp (x 0 ^ 2 / 2) := mul_le_mul_of_nonneg_left h1 (Real.exp_pos _).le
      _ = Real.exp (narrow.val x ⟨(), none⟩ + x 0 ^ 2 / 2) := (Real.exp_add _ _).symm
      _ ≤ _ := Real.exp_le_exp.2 (by simp only [narrow]; nlinarith [sq_nonneg (x 0), sq_nonneg (x 1)])

theorem coord_mean : ∫ x : Pos ℝ 2, x 0 ∂(normalised (targetMeasure fun x => narrow.val x ⟨(), none⟩)) = 0 := by
  unfold normalised targetMeasure
  rw [integral_smul_measure, integral_withDensity_eq_integral_toReal_smul (narrow_meas.exp.ennreal_ofReal) (ae_of_all _ fun x => ENNReal.ofReal_lt_top)]
  have h := integral_neg_eq_self (fun x : Pos ℝ 2 => (ENNReal.ofReal (Real.exp (narrow.val x ⟨(), none⟩))).toReal • x 0) volume
  have e : ∀ x : Pos ℝ 2, (ENNReal.ofReal (Real.exp (narrow.val (-x) ⟨(), none⟩))).toReal • (-x) 0 = -((ENNReal.ofReal (Real.exp (narrow.val x ⟨(), none⟩))).toReal • x 0) := fun x => by
    simp [narrow]
  simp only [e, integral_neg] at h
  have h0 : ∫ x : Pos ℝ 2, (ENNReal.ofReal (Real.exp (narrow.val x ⟨(), none⟩))).toReal • x 0 = 0 := by linarith
  rw [h0, smul_zero]

/-- Non-vacuity of C96: two chains, one starting at a fixed point far away and one at a random point; the target is a Gaussian centred at the origin.  With enough production loops the average of the first coordinate over
the production rows of each chain is as close to zero as required, with a probability as high as required. -/
example (δ ε : ℝ) (hδ : 0 < δ) (hε : 0 < ε) : ∃ L, ∀ n, L ≤ n → ∃ (s' : Outcome → Sampler ℝ Unit 2 (Pos ℝ 2) ℕ Unit) (b : Outcome → Buffer ℝ),
    (∀ ω, ∃ s, Sampler.new 2 2 (.root 7) none none none (some (malaBundle (cfg.withProd n))) [] = .ok s ∧ s.sample (env ω) (.mat [![1000, -1000], start ω]) ⟨(), none⟩ = (.ok (), s' ω)) ∧
    (∀ ω, (s' ω).heap.res "positions_production" = some (.buffer (b ω))) ∧
    prob.real {ω | ∃ i < 2, δ < |(∑ j ∈ Finset.range (n * 4), (b ω).data.get [i, j, 0]) / (n * 4 : ℕ)|} ≤ ε := by
  obtain ⟨L, hL⟩ := C96_adaptive (V := Unit) draws cfg (by decide) (by decide) (fun _ => rfl) ⟨(), none⟩ adaptive training (fun j => by fin_cases j <;> simp [BundleCfg.flow, cfg]) (.root 7)
    (fun ω => .mat [![1000, -1000], start ω]) (fun _ => rfl)
    (fun i hi => by
      rw [show cfg.nChains = 2 from rfl] at hi
      rcases (show i = 0 ∨ i = 1 by omega) with rfl | rfl
      · exact ⟨fun _ => ![1000, -1000], measurable_const, fun _ => rfl⟩
      · exact ⟨start, start_known, fun _ => rfl⟩)
    (fun x => x 0) (measurable_pi_apply 0) coord_integrable δ ε hδ hε
  refine ⟨L, fun n hn => ?_⟩
  obtain ⟨s', b, g1, g2, g3⟩ := hL n hn 2 2 [] _ rfl
  refine ⟨s', b, fun ω => ⟨_, rfl, g1 ω⟩, g2, ?_⟩
  have e : (cfg.withProd n).nProdSteps = n * 4 := by simp only [BundleCfg.nProdSteps, BundleCfg.withProd, cfg, Learn.cfg]; omega
  rw [e] at g3
  have e2 := coord_mean
  simp only [show cfg.logpdf = narrow from rfl, e2, sub_zero, chainMean] at g3
  exact g3
end Bars
end FlowMC
