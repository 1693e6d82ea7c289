import Mathlib.MeasureTheory.Function.Floor
import Verif.Props.Inexact
import Verif.Props.UnboundedExamples
import Verif.Props.WallErrorBarsExamples
/-
Non-vacuity of C102: log-densities rounded down to three decimals.
-/
open MeasureTheory ProbabilityTheory
open scoped ENNReal
set_option linter.unusedSectionVars false
namespace FlowMC
open Spec
namespace Bars
open Ideal
noncomputable section
open Classical

/-- A number rounded down to three decimals. -/
def round3 (x : ℝ) : ℝ := ⌊1000 * x⌋ / 1000

theorem round3_meas : Measurable round3 := by
  unfold round3
  exact ((measurable_from_top (f := fun n : ℤ => (n : ℝ))).comp (Measurable.floor (measurable_const_mul (1000 : ℝ)))).div_const 1000

theorem round3_near (x : ℝ) : |round3 x - x - 0| ≤ 1 / 1000 := by
  unfold round3
  have h1 := Int.floor_le (1000 * x); have h2 := Int.lt_floor_add_one (1000 * x)
  rw [abs_le]; constructor <;> linarith

/-- The narrow Gaussian, its log-density computed to three decimals only; the gradient is exact. -/
def narrow3 : Target ℝ Unit 2 := { narrow with val := fun x dat => round3 (narrow.val x dat) }

theorem narrow3_meas : Measurable fun x : Pos ℝ 2 => narrow3.val x ⟨(), none⟩ := round3_meas.comp narrow_meas

theorem narrow3_finite : targetMeasure (fun x => narrow3.val x ⟨(), none⟩) Set.univ ≠ ∞ := by
  have := (C102_bias Set.univ MeasurableSet.univ (fun x : Pos ℝ 2 => narrow.val x ⟨(), none⟩) (fun x : Pos ℝ 2 => narrow3.val x ⟨(), none⟩) narrow_meas narrow3_meas
    (by rw [wall_univ]; exact targetMeasure_ne_zero _ narrow_meas) (by rw [wall_univ]; exact narrow_finite) 0 (1 / 1000) (by norm_num) fun x _ => round3_near _).1.2
  rwa [wall_univ] at this

def cfg3 : BundleCfg ℝ Unit 2 (Pos ℝ 2) ℕ := { cfg with logpdf := narrow3 }

theorem adaptive3 : AdaptiveBundle (fun _ => True) prob sig env cfg3 ⟨(), none⟩ (stdNormal 2) Learn.push Learn.lnf box where
  good := ⟨by decide, by decide, by decide, by decide, by decide, by decide, by decide⟩
  step := adaptive.step
  meas := narrow3_meas
  gradMeas := adaptive.gradMeas
  ignores := fun _ _ _ _ => rfl
  finite := narrow3_finite
  flows := flows

theorem starts : ∀ i < cfg3.nChains, ∃ X : Outcome → Pos ℝ 2, Measurable[past] X ∧ ∀ ω, (InitPos.mat [![1000, -1000], start ω]).atleast2d[i]? = some (X ω) := fun i hi => by
  rw [show cfg3.nChains = 2 from rfl] at hi
  rcases (show i = 0 ∨ i = 1 by omega) with rfl | rfl
  · exact ⟨fun _ => ![1000, -1000], measurable_const, fun _ => rfl⟩
  · exact ⟨start, start_known, fun _ => rfl⟩

/-- Non-vacuity of C102 (rows): late rows have the narrow Gaussian law up to `ε` and two tenths of a percent. -/
example (ε : ℝ) (hε : 0 < ε) : ∃ N, ∀ n, ∃ s' : Outcome → Sampler ℝ Unit 2 (Pos ℝ 2) ℕ Unit,
    (∀ ω, ∃ s, Sampler.new 2 2 (.root 7) none none none (some (malaBundle (cfg3.withProd n))) [] = .ok s ∧ s.sample (env ω) (.mat [![1000, -1000], start ω]) ⟨(), none⟩ = (.ok (), s' ω)) ∧
    ∀ i < 2, ∀ j < n * 4, N ≤ j → ∃ Y : Outcome → Pos ℝ 2, Measurable Y ∧ CloseInLaw prob Y (normalised (targetMeasure fun x => narrow.val x ⟨(), none⟩)) (ε + 2 / 1000) ∧
      ∀ ω, ∃ b, (s' ω).heap.res "positions_production" = some (.buffer b) ∧ ∀ a : Fin 2, b.data.get [i, j, a] = Y ω a := by
  obtain ⟨N, hN⟩ := C102_rows (V := Unit) draws cfg3 (by decide) (by decide) (fun _ => rfl) ⟨(), none⟩ adaptive3 training (fun j => by fin_cases j <;> simp [BundleCfg.flow, cfg3, cfg]) (.root 7)
    (fun ω => .mat [![1000, -1000], start ω]) (fun _ => rfl) starts (fun x => narrow.val x ⟨(), none⟩) narrow_meas 0 (1 / 1000) (fun x => round3_near _) ε hε
  refine ⟨N, fun n => ?_⟩
  obtain ⟨s', h1, h2⟩ := hN n 2 2 [] _ rfl
  refine ⟨s', fun ω => ⟨_, rfl, h1 ω⟩, fun i hi j hj hNj => ?_⟩
  have e : (cfg3.withProd n).nProdSteps = n * 4 := by simp only [BundleCfg.nProdSteps, BundleCfg.withProd, cfg3, cfg, Learn.cfg]; omega
  obtain ⟨Y, hY, hc, -, hb⟩ := h2 i hi j (by rw [e]; exact hj) hNj
  refine ⟨Y, hY, fun A hA => (hc A hA).trans ?_, hb⟩
  have := Real.add_one_le_exp (-(2 * (1 / 1000 : ℝ)))
  linarith

/-- Non-vacuity of C102 (posterior means): the average of the first coordinate is within the tolerance plus `exp(2/1000) - 1` mean absolute deviations of its mean, which is zero. -/
example (τ ε : ℝ) (hτ : 0 < τ) (hε : 0 < ε) : ∃ L, ∀ n, L ≤ n → ∃ (s' : Outcome → Sampler ℝ Unit 2 (Pos ℝ 2) ℕ Unit) (b : Outcome → Buffer ℝ),
    (∀ ω, ∃ s, Sampler.new 2 2 (.root 7) none none none (some (malaBundle (cfg3.withProd n))) [] = .ok s ∧ s.sample (env ω) (.mat [![1000, -1000], start ω]) ⟨(), none⟩ = (.ok (), s' ω)) ∧
    (∀ ω, (s' ω).heap.res "positions_production" = some (.buffer (b ω))) ∧
    prob.real {ω | ∃ i < 2, τ + (Real.exp (2 / 1000) - 1) * ∫ x : Pos ℝ 2, |x 0| ∂(normalised (targetMeasure fun x => narrow.val x ⟨(), none⟩)) <
      |(∑ j ∈ Finset.range (n * 4), (b ω).data.get [i, j, 0]) / (n * 4 : ℕ)|} ≤ ε := by
  obtain ⟨L, hL⟩ := C102_means (V := Unit) draws cfg3 (by decide) (by decide) (fun _ => rfl) ⟨(), none⟩ adaptive3 training (fun j => by fin_cases j <;> simp [BundleCfg.flow, cfg3, cfg]) (.root 7)
    (fun ω => .mat [![1000, -1000], start ω]) (fun _ => rfl) starts (fun x => narrow.val x ⟨(), none⟩) narrow_meas 0 (1 / 1000) (fun x => round3_near _) (fun x => x 0) (measurable_pi_apply 0) coord_integrable τ ε hτ hε
  refine ⟨L, fun n hn => ?_⟩
  obtain ⟨s', b, g1, g2, g3⟩ := hL n hn 2 2 [] _ rfl
  refine ⟨s', b, fun ω => ⟨_, rfl, g1 ω⟩, g2, ?_⟩
  have e : (cfg3.withProd n).nProdSteps = n * 4 := by simp only [BundleCfg.nProdSteps, BundleCfg.withProd, cfg3, cfg, Learn.cfg]; omega
  rw [e] at g3
  have e2 := coord_mean
  simp only [e2, sub_zero, chainMean, show (2 * (1 / 1000) : ℝ) = 2 / 1000 by norm_num] at g3
  exact g3

/-- The target on the unit square, its log-density computed to three decimals only. -/
def squareTarget3 : Target XR Unit 2 where
  val x _ := if x ∈ emb '' square then .fin (round3 (unemb x 0)) else .ninf
  grad x _ := if x ∈ emb '' square then emb ![1, 0] else fun _ => .nan

theorem square3_walled : Walled square (fun x => round3 (x 0)) (fun _ => ![1, 0]) squareTarget3 ⟨(), none⟩ where
  inside x hx := by simp only [squareTarget3, emb_square, hx, if_true, unemb_emb]
  grad x hx := by simp only [squareTarget3, emb_square, hx, if_true]
  outside x hx := by simp only [squareTarget3, emb_square, hx, if_false]; exact .inr rfl
  meas := square_meas
  meas_lp := round3_meas.comp (measurable_pi_apply 0)
  meas_grad := measurable_const

def wallCfg3 : BundleCfg XR Unit 2 (Pos ℝ 2) ℕ := { wallCfg with logpdf := squareTarget3 }

theorem square3_mass : wallMeasure square (fun x => round3 (x 0)) Set.univ ≠ 0 ∧ wallMeasure square (fun x => round3 (x 0)) Set.univ ≠ ∞ :=
  (C102_bias square square_meas (fun x => x 0) (fun x => round3 (x 0)) (measurable_pi_apply 0) (round3_meas.comp (measurable_pi_apply 0)) (zero_lt_one.trans_le square_mass.1).ne' square_mass.2 0 (1 / 1000)
    (by norm_num) fun x _ => round3_near _).1

theorem wallAdaptive3 : AdaptiveWallBundle (fun _ => True) prob sig env wallEnv square (fun x => round3 (x 0)) (fun _ => ![1, 0]) wallCfg3 ⟨(), none⟩ (stdNormal 2) Learn.push Learn.lnf box where
  lifts := wallEnv_lifts
  good := ⟨by decide, by decide, by decide, by decide, by decide, by decide, by decide⟩
  step := ⟨1 / 10, by norm_num, rfl⟩
  walled := square3_walled
  ignores := fun _ _ _ _ => rfl
  nonzero := square3_mass.1
  finite := square3_mass.2
  flows := flows

/-- Non-vacuity of C102 (hard boundaries): the mean of the first coordinate under the density `exp x₀` on the unit square. -/
example (τ ε : ℝ) (hτ : 0 < τ) (hε : 0 < ε) : ∃ (n : ℕ) (s' : Outcome → Sampler XR Unit 2 (Pos ℝ 2) ℕ Unit) (b : Outcome → Buffer XR), 0 < n ∧
    (∀ ω, ∃ s, Sampler.new 2 2 (.root 7) none none none (some (malaBundle (wallCfg3.withProd n))) [] = .ok s ∧ s.sample (wallEnv ω) (.mat [emb (begin' 0), emb (begin' 1)]) ⟨(), none⟩ = (.ok (), s' ω)) ∧
    (∀ ω, (s' ω).heap.res "positions_production" = some (.buffer (b ω))) ∧
    prob.real {ω | ∃ i < 2, τ + (Real.exp (2 / 1000) - 1) * ∫ x : Pos ℝ 2, |x 0 - ∫ y : Pos ℝ 2, y 0 ∂(normalised (wallMeasure square fun x => x 0))| ∂(normalised (wallMeasure square fun x => x 0)) <
      |(∑ j ∈ Finset.range (n * 4), cellReal ((b ω).data.get [i, j, 0])) / (n * 4 : ℕ) - ∫ x : Pos ℝ 2, x 0 ∂(normalised (wallMeasure square fun x => x 0))|} ≤ ε := by
  haveI := wall_isProb (zero_lt_one.trans_le square_mass.1).ne' square_mass.2
  have hint : Integrable (fun x : Pos ℝ 2 => x 0) (normalised (wallMeasure square fun x => x 0)) :=
    Integrable.of_bound (measurable_pi_apply 0).aestronglyMeasurable 1 ((normalised_wall_ae square_meas).mono fun x hx => by rw [Real.norm_eq_abs, abs_of_nonneg (hx 0).1]; exact (hx 0).2)
  obtain ⟨L, hL⟩ := C102_walls (V := Unit) draws wallCfg3 (by decide) (by decide) (fun _ => rfl) ⟨(), none⟩ wallAdaptive3 wallTraining (fun j => by fin_cases j <;> simp [BundleCfg.flow, wallCfg3, wallCfg]) (.root 7)
    (fun ω => .mat [emb (begin' 0), emb (begin' 1)]) (fun _ => rfl)
    (fun i hi => by
      rw [show wallCfg3.nChains = 2 from rfl] at hi
      refine ⟨fun _ => begin' i, measurable_const, fun _ => ⟨?_, begin_mem i⟩⟩
      rcases (show i = 0 ∨ i = 1 by omega) with rfl | rfl <;> rfl)
    (fun x => x 0) (measurable_pi_apply 0) 0 (1 / 1000) (fun x _ => round3_near _) (fun x => x 0) (measurable_pi_apply 0) hint τ ε hτ hε
  obtain ⟨s', b, h1, h2, -, h4⟩ := hL (L + 1) (by omega) 2 2 [] _ rfl
  have e : (wallCfg3.withProd (L + 1)).nProdSteps = (L + 1) * 4 := by simp only [BundleCfg.nProdSteps, BundleCfg.withProd, wallCfg3, wallCfg, Learn.wallRunCfg]; omega
  rw [e] at h4
  simp only [show (2 * (1 / 1000) : ℝ) = 2 / 1000 by norm_num, wallMean] at h4
  exact ⟨L + 1, s', b, by omega, fun ω => ⟨_, rfl, h1 ω⟩, h2, h4⟩

end
end Bars
end FlowMC
