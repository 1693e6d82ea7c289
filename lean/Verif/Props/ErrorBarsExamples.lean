import Verif.Props.ErrorBars
import Verif.Props.LearningExamples
/-
Non-vacuity of C95: a flow that is moved to one of the recorded positions, drawn at random, but never out of a box; the target is narrower than the flow.
-/
open MeasureTheory ProbabilityTheory
open scoped ENNReal
set_option linter.unusedSectionVars false
namespace FlowMC
open Spec
namespace Bars
open Ideal

/-- `x` moved into the box `[-1, 1]²`. -/
noncomputable def clip (x : Pos ℝ 2) : Pos ℝ 2 := fun j => max (-1) (min 1 (x j))

/-- The flows inside the box. -/
def box : Set (Pos ℝ 2) := {m | ∀ j, |m j| ≤ 1}

theorem clip_box (x : Pos ℝ 2) : clip x ∈ box := fun j => abs_le.2 ⟨le_max_left _ _, max_le (by norm_num) (min_le_left _ _)⟩

theorem clip_meas : Measurable clip := by
  refine measurable_pi_lambda _ fun j => ?_
  exact measurable_const.max (measurable_const.min (measurable_pi_apply j))

/-- As in C83's witness, except that the flow moves to the nearest point of the box. -/
noncomputable def env (ω : Outcome) : Env ℝ Unit 2 (Pos ℝ 2) ℕ where
  rng := (Learn.env ω).rng
  ops := { (Learn.env ω).ops with trainStep := fun m o b => (0, clip (b.getD 0 m), o + 1) }
  big := 1000000000

theorem draws : IdealDraws past sig prob env :=
  ⟨Ideal.draws.past_le, Ideal.draws.sig_le, Ideal.draws.indep, Ideal.draws.normal_meas, Ideal.draws.normal_law, Ideal.draws.uniform_meas, Ideal.draws.uniform_law⟩

theorem flows : FlowFamily (fun _ => True) prob sig env (stdNormal 2) Learn.push Learn.lnf box where
  lawful := Learn.flows.lawful
  prob := Learn.flows.prob
  pushMeas := Learn.flows.pushMeas
  lnfMeas := Learn.flows.lnfMeas
  rows k hk n := by
    obtain ⟨z, h1, h2, h3⟩ := Learn.flows.rows k hk n
    exact ⟨z, h1, h2, fun ω m _ i => h3 ω m trivial i⟩
  logProb ω m _ := rfl
  density m _ := Learn.density m

theorem training : OrdinaryTraining sig env box where
  shuffle := Learn.training.shuffle
  choose := Learn.training.choose
  step := ⟨fun m o b => (0, clip (b.getD 0 m), o + 1), by
    refine measurable_const.prodMk (Measurable.prodMk ?_ ?_)
    · exact clip_meas.comp Learn.head_meas
    · exact (measurable_from_top (f := fun n : ℕ => n + 1)).comp (measurable_fst.comp measurable_snd), fun _ => rfl, fun _ _ _ _ => clip_box _⟩
  stats := ⟨fun m _ => m, measurable_fst, fun _ => rfl, fun _ h _ => h⟩
  big := ⟨_, fun _ => rfl⟩

theorem narrow_meas : Measurable fun x : Pos ℝ 2 => narrow.val x ⟨(), none⟩ := by simp only [narrow]; fun_prop

theorem narrow_finite : targetMeasure (fun x => narrow.val x ⟨(), none⟩) Set.univ ≠ ∞ := by
  refine ne_top_of_le_ne_top (b := targetMeasure (fun x : Pos ℝ 2 => -(x 0 ^ 2 + x 1 ^ 2) / 2) Set.univ) target_finite ?_
  simp only [targetMeasure, withDensity_apply _ MeasurableSet.univ]
  refine lintegral_mono fun x => ENNReal.ofReal_le_ofReal (Real.exp_le_exp.2 ?_)
  simp only [narrow]
  nlinarith [sq_nonneg (x 0), sq_nonneg (x 1)]

/-- All flows have the same normalisation. -/
theorem same_mass (m : Pos ℝ 2) : targetMeasure (Learn.lnf m) Set.univ = targetMeasure (Learn.lnf 0) Set.univ := by
  simp only [targetMeasure, withDensity_apply _ MeasurableSet.univ, Measure.restrict_univ]
  rw [← lintegral_add_left_eq_self (fun a => ENNReal.ofReal (Real.exp (Learn.lnf m a))) m]
  refine lintegral_congr fun x => ?_
  simp [Learn.lnf]

theorem lnf0 : Learn.lnf 0 = fun x : Pos ℝ 2 => -(x 0 ^ 2 + x 1 ^ 2) / 2 := by funext x; simp [Learn.lnf]

/-- Every flow of the family covers the target. -/
theorem covers : ∃ C : ℝ, 1 ≤ C ∧ ∀ m ∈ box, ∀ x, density (fun x => narrow.val x ⟨(), none⟩) x ≤ C * density (Learn.lnf m) x := by
  have hZp := targetMeasure_real_pos _ narrow_meas narrow_finite
  have hfin : targetMeasure (Learn.lnf 0) Set.univ ≠ ∞ := by rw [lnf0]; exact target_finite
  have hZq := targetMeasure_real_pos (Learn.lnf 0) (by rw [lnf0]; fun_prop) hfin
  set Zp := (targetMeasure fun x => narrow.val x ⟨(), none⟩).real Set.univ with hZpd
  set Zq := (targetMeasure (Learn.lnf 0)).real Set.univ with hZqd
  refine ⟨max 1 (Real.exp 2 * (Zq / Zp)), le_max_left _ _, fun m hm x => ?_⟩
  have e : (targetMeasure (Learn.lnf m)).real Set.univ = Zq := by rw [hZqd, measureReal_def, measureReal_def, same_mass]
  unfold density
  rw [← hZpd, e]
  have h1 : Real.exp 2 * (Zq / Zp) ≤ max 1 (Real.exp 2 * (Zq / Zp)) := le_max_right _ _
  have h2 : Real.exp (narrow.val x ⟨(), none⟩) ≤ Real.exp 2 * Real.exp (Learn.lnf m x) := by
    rw [← Real.exp_add]
    refine Real.exp_le_exp.2 ?_
    simp only [narrow, Learn.lnf]
    have a0 := abs_le.1 (hm 0); have a1 := abs_le.1 (hm 1)
    nlinarith [sq_nonneg (x 0 + m 0), sq_nonneg (x 1 + m 1)]
  calc Real.exp (narrow.val x ⟨(), none⟩) / Zp ≤ Real.exp 2 * Real.exp (Learn.lnf m x) / Zp := div_le_div_of_nonneg_right h2 hZp.le
    _ = Real.exp 2 * (Zq / Zp) * (Real.exp (Learn.lnf m x) / Zq) := by field_simp
    _ ≤ _ := mul_le_mul_of_nonneg_right h1 (div_nonneg (Real.exp_pos _).le hZq.le)

/-- Two chains, two training loops of three epochs; the flow starts in the corner of the box. -/
noncomputable def cfg : BundleCfg ℝ Unit 2 (Pos ℝ 2) ℕ := { Learn.cfg with logpdf := narrow, mkModel := fun _ => ![1, 1] }

theorem adaptive : AdaptiveBundle (fun _ => True) prob sig env cfg ⟨(), none⟩ (stdNormal 2) Learn.push Learn.lnf box where
  good := ⟨by decide, by decide, by decide, by decide, by decide, by decide, by decide⟩
  step := by norm_num [cfg, Learn.cfg]
  meas := by simp only [cfg, narrow]; fun_prop
  gradMeas := by refine measurable_pi_lambda _ fun i => ?_; simp only [cfg, narrow]; fun_prop
  ignores := fun _ _ _ _ => rfl
  finite := narrow_finite
  flows := flows

/-- Non-vacuity of C95: two chains, one starting at a fixed point far away and one at a random point; the fraction of the production rows of both chains with positive first coordinate estimates the probability of that half
plane under the target with a mean square error that decays like one over the number of loops. -/
example : ∃ K : ℝ, ∀ n, 0 < n → ∃ (s' : Outcome → Sampler ℝ Unit 2 (Pos ℝ 2) ℕ Unit) (b : Outcome → Buffer ℝ),
    (∀ ω, ∃ s, Sampler.new 2 2 (.root 7) none none none (some (malaBundle (cfg.withProd n))) [] = .ok s ∧ s.sample (env ω) (.mat [![1000, -1000], start ω]) ⟨(), none⟩ = (.ok (), s' ω)) ∧
    (∀ ω, (s' ω).heap.res "positions_production" = some (.buffer (b ω))) ∧
    ∀ δ, 0 < δ → prob.real {ω | δ < |((∑ j ∈ Finset.range (n * 4), if 0 < (b ω).data.get [0, j, 0] then (1 : ℝ) else 0) / (n * 4 : ℕ) +
        (∑ j ∈ Finset.range (n * 4), if 0 < (b ω).data.get [1, j, 0] then (1 : ℝ) else 0) / (n * 4 : ℕ)) / 2 -
      ∫ x : Pos ℝ 2, (if 0 < x 0 then (1 : ℝ) else 0) ∂(normalised (targetMeasure fun x => narrow.val x ⟨(), none⟩))|} ≤ (K / n / 2 + (K / n) ^ 2) / δ ^ 2 := by
  obtain ⟨C, hC, hcov⟩ := covers
  obtain ⟨h0, h1⟩ := loopFactor_lt cfg hC
  have h2 : 0 < 1 - loopFactor cfg C := by linarith
  refine ⟨1 + 4 / (1 - loopFactor cfg C), fun n hn => ?_⟩
  have hnp : (0 : ℝ) < n := by exact_mod_cast hn
  obtain ⟨s', b, g1, g2, g3⟩ := C95_adaptive (V := Unit) draws cfg (by decide) (by decide) (fun _ => rfl) ⟨(), none⟩ adaptive C hC hcov training (fun j => by fin_cases j <;> simp [BundleCfg.flow, cfg]) (.root 7)
    (fun ω => .mat [![1000, -1000], start ω]) (fun _ => rfl)
    (fun i hi => by
      rw [show cfg.nChains = 2 from rfl] at hi
      rcases (show i = 0 ∨ i = 1 by omega) with rfl | rfl
      · exact ⟨fun _ => ![1000, -1000], measurable_const, fun _ => rfl⟩
      · exact ⟨start, start_known, fun _ => rfl⟩)
    (fun x => if 0 < x 0 then 1 else 0) (Measurable.ite (measurableSet_lt measurable_const (measurable_pi_apply 0)) measurable_const measurable_const) 1
    (fun x y => by split <;> split <;> simp) n hn 2 2 [] _ rfl
  refine ⟨s', b, fun ω => ⟨_, rfl, g1 ω⟩, g2, fun δ hδ => ?_⟩
  have := (C95_interval 1 (fun x => by split <;> simp) g3 δ hδ).1
  have e : (cfg.withProd n).nProdSteps = n * 4 := by simp only [BundleCfg.nProdSteps, BundleCfg.withProd, cfg, Learn.cfg]; omega
  rw [e] at this
  simp only [pooledMean, show cfg.nChains = 2 from rfl, Finset.sum_range_succ, Finset.sum_range_zero, zero_add, chainMean] at this
  refine le_trans (le_of_eq ?_) (this.trans (div_le_div_of_nonneg_right ?_ (by positivity)))
  · rfl
  · have b1 : 2 * 1 / (n * (1 - loopFactor cfg C)) ≤ (1 + 4 / (1 - loopFactor cfg C)) / n := by
      rw [mul_one, div_le_div_iff₀ (by positivity) hnp]
      have : (1 + 4 / (1 - loopFactor cfg C)) * (n * (1 - loopFactor cfg C)) = (1 - loopFactor cfg C + 4) * n := by field_simp
      rw [this]
      nlinarith
    have b2 := pow_le_pow_left₀ (by positivity) b1 2
    norm_num at b2 ⊢
    linarith
end Bars
end FlowMC
