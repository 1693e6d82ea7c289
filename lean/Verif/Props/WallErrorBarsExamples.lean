import Verif.Props.WallErrorBars
import Verif.Props.WallAdaptiveExamples
import Verif.Props.ErrorBarsExamples
/-
Non-vacuity of C101: the mean of a parameter under a target on the unit square, from a run with a flow trained on the way.
-/
open MeasureTheory ProbabilityTheory
open scoped ENNReal
set_option linter.unusedSectionVars false
namespace FlowMC
open Spec
namespace Bars
open Ideal
noncomputable section
open Classical

/-- The unit square. -/
def square : Set (Fin 2 → ℝ) := {x | ∀ i, 0 ≤ x i ∧ x i ≤ 1}

/-- The log-density is the first coordinate inside the square, `-inf` outside and at non-finite positions, with gradient NaN there. -/
def squareTarget : Target XR Unit 2 where
  val x _ := if x ∈ emb '' square then .fin (unemb x 0) else .ninf
  grad x _ := if x ∈ emb '' square then emb ![1, 0] else fun _ => .nan

theorem emb_square (x : Fin 2 → ℝ) : emb x ∈ emb '' square ↔ x ∈ square := by
  constructor
  · rintro ⟨y, hy, e⟩
    rw [← unemb_emb x, ← e, unemb_emb]; exact hy
  · intro h; exact ⟨x, h, rfl⟩

theorem square_eq : square = Set.pi Set.univ fun _ : Fin 2 => Set.Icc (0 : ℝ) 1 := by ext x; simp only [square, Set.mem_setOf_eq, Set.mem_pi, Set.mem_univ, forall_true_left, Set.mem_Icc]

theorem square_meas : MeasurableSet square := by rw [square_eq]; exact MeasurableSet.univ_pi fun _ => measurableSet_Icc

theorem square_walled : Walled square (fun x => x 0) (fun _ => ![1, 0]) squareTarget ⟨(), none⟩ where
  inside x hx := by simp only [squareTarget, emb_square, hx, if_true, unemb_emb]
  grad x hx := by simp only [squareTarget, emb_square, hx, if_true]
  outside x hx := by simp only [squareTarget, emb_square, hx, if_false]; exact .inr rfl
  meas := square_meas
  meas_lp := by fun_prop
  meas_grad := measurable_const

theorem square_vol : (volume : Measure (Fin 2 → ℝ)) square = 1 := by rw [square_eq, volume_pi_pi]; simp

theorem square_mass : 1 ≤ wallMeasure square (fun x => x 0) Set.univ ∧ wallMeasure square (fun x => x 0) Set.univ ≠ ∞ := by
  simp only [wallMeasure, withDensity_apply _ MeasurableSet.univ, Measure.restrict_univ]
  constructor
  · calc (1 : ℝ≥0∞) = ∫⁻ x in square, 1 := by rw [setLIntegral_const, square_vol, one_mul]
      _ ≤ _ := setLIntegral_mono_ae' square_meas (ae_of_all _ fun x hx => by
        rw [← ENNReal.ofReal_one]; exact ENNReal.ofReal_le_ofReal (Real.one_le_exp (hx 0).1))
  · refine ne_top_of_le_ne_top (b := ENNReal.ofReal (Real.exp 1)) ENNReal.ofReal_ne_top ?_
    calc _ ≤ ∫⁻ x in square, ENNReal.ofReal (Real.exp 1) := setLIntegral_mono_ae' square_meas (ae_of_all _ fun x hx => ENNReal.ofReal_le_ofReal (Real.exp_le_exp.2 (hx 0).2))
      _ = _ := by rw [setLIntegral_const, square_vol, mul_one]

/-- As in C90's witness, except that the flow moves to the nearest point of the box `[-1, 1]²`. -/
def wallEnv (ω : Outcome) : Env XR Unit 2 (Pos ℝ 2) ℕ where
  rng := liftRng (env ω).rng
  ops := {
    sample := fun m k n => ((env ω).ops.sample m k n).map emb
    logProb := fun m x => .fin ((env ω).ops.logProb m (unemb x))
    trainStep := fun m o b => (.fin 0, clip (unemb (b.getD 0 (emb m))), o + 1)
    setStats := fun m _ => m }
  big := .fin 1000000000

theorem wallEnv_lifts (ω : Outcome) : Lifts (env ω) (wallEnv ω) := ⟨rfl, fun _ _ _ => rfl, fun _ _ => rfl⟩

theorem wallTraining : OrdinaryTraining sig wallEnv box where
  shuffle k n := measurable_const
  choose k n m := Learn.wallTraining.choose k n m
  step := ⟨fun m o b => (.fin 0, clip (unemb (b.getD 0 (emb m))), o + 1), by
    refine measurable_const.prodMk (Measurable.prodMk ?_ ?_)
    · exact clip_meas.comp Learn.wall_head_meas
    · exact (measurable_from_top (f := fun n : ℕ => n + 1)).comp (measurable_fst.comp measurable_snd), fun _ => rfl, fun _ _ _ _ => clip_box _⟩
  stats := ⟨fun m _ => m, measurable_fst, fun _ => rfl, fun _ h _ => h⟩
  big := ⟨_, fun _ => rfl⟩

/-- Two chains, two training loops of three epochs; the flow starts in the corner of the box. -/
def wallCfg : BundleCfg XR Unit 2 (Pos ℝ 2) ℕ := { Learn.wallRunCfg with logpdf := squareTarget, mkModel := fun _ => ![1, 1] }

theorem wallAdaptive : AdaptiveWallBundle (fun _ => True) prob sig env wallEnv square (fun x => x 0) (fun _ => ![1, 0]) wallCfg ⟨(), none⟩ (stdNormal 2) Learn.push Learn.lnf box where
  lifts := wallEnv_lifts
  good := ⟨by decide, by decide, by decide, by decide, by decide, by decide, by decide⟩
  step := ⟨1 / 10, by norm_num, rfl⟩
  walled := square_walled
  ignores := fun _ _ _ _ => rfl
  nonzero := (zero_lt_one.trans_le square_mass.1).ne'
  finite := square_mass.2
  flows := flows

/-- Every flow of the family covers the truncated target. -/
theorem wallCovers : ∃ C : ℝ, 1 ≤ C ∧ ∀ m ∈ box, ∀ x ∈ square, wallDensity square (fun x => x 0) x ≤ C * density (Learn.lnf m) x := by
  have hfin : targetMeasure (Learn.lnf 0) Set.univ ≠ ∞ := by rw [lnf0]; exact target_finite
  have hZq := targetMeasure_real_pos (Learn.lnf 0) (by rw [lnf0]; fun_prop) hfin
  set Zq := (targetMeasure (Learn.lnf 0)).real Set.univ with hZqd
  refine ⟨max 1 (Real.exp 5 * Zq), le_max_left _ _, fun m hm x hx => ?_⟩
  have e : (targetMeasure (Learn.lnf m)).real Set.univ = Zq := by rw [hZqd, measureReal_def, measureReal_def, same_mass]
  have hZ : 1 ≤ (wallMeasure square fun x => x 0).real Set.univ := by
    rw [measureReal_def, ← ENNReal.toReal_one]
    exact (ENNReal.toReal_le_toReal ENNReal.one_ne_top square_mass.2).2 square_mass.1
  unfold wallDensity density
  rw [e]
  have h2 : Real.exp (x 0) ≤ Real.exp 5 * Real.exp (Learn.lnf m x) := by
    rw [← Real.exp_add]
    refine Real.exp_le_exp.2 ?_
    simp only [Learn.lnf]
    have a0 := abs_le.1 (hm 0); have a1 := abs_le.1 (hm 1)
    obtain ⟨b0, c0⟩ := hx 0; obtain ⟨b1, c1⟩ := hx 1
    nlinarith [mul_nonneg (by linarith : 0 ≤ 2 - (x 0 - m 0)) (by linarith : 0 ≤ 2 + (x 0 - m 0)), mul_nonneg (by linarith : 0 ≤ 2 - (x 1 - m 1)) (by linarith : 0 ≤ 2 + (x 1 - m 1))]
  calc Real.exp (x 0) / (wallMeasure square fun x => x 0).real Set.univ ≤ Real.exp (x 0) := div_le_self (Real.exp_pos _).le hZ
    _ ≤ Real.exp 5 * Real.exp (Learn.lnf m x) := h2
    _ = Real.exp 5 * Zq * (Real.exp (Learn.lnf m x) / Zq) := by field_simp
    _ ≤ _ := mul_le_mul_of_nonneg_right (le_max_right _ _) (div_nonneg (Real.exp_pos _).le hZq.le)

/-- The start of chain `i`: a corner and an inner point. -/
def begin' (i : ℕ) : Fin 2 → ℝ := if i = 0 then ![0, 1] else ![1 / 3, 1 / 2]

theorem begin_mem (i : ℕ) : begin' i ∈ square := by
  unfold begin' square
  split <;> (intro j; fin_cases j <;> norm_num)

/-- Non-vacuity of C101: two chains, one of them started in a corner of the square; for every number of loops, every production row is a finite point of the square and the average of the first coordinate over the
production rows of both chains is off by more than `δ` with a probability that decays like one over the number of loops. -/
example : ∃ K : ℝ, ∀ n, 0 < n → ∃ (s' : Outcome → Sampler XR Unit 2 (Pos ℝ 2) ℕ Unit) (b : Outcome → Buffer XR),
    (∀ ω, ∃ s, Sampler.new 2 2 (.root 7) none none none (some (malaBundle (wallCfg.withProd n))) [] = .ok s ∧ s.sample (wallEnv ω) (.mat [emb (begin' 0), emb (begin' 1)]) ⟨(), none⟩ = (.ok (), s' ω)) ∧
    (∀ ω, (s' ω).heap.res "positions_production" = some (.buffer (b ω))) ∧
    (∀ ω, ∀ i < 2, ∀ j < n * 4, ∃ y ∈ square, ∀ a : Fin 2, (b ω).data.get [i, j, a] = XR.fin (y a)) ∧
    ∀ δ, 0 < δ → prob.real {ω | δ < |((∑ j ∈ Finset.range (n * 4), cellReal ((b ω).data.get [0, j, 0])) / (n * 4 : ℕ) + (∑ j ∈ Finset.range (n * 4), cellReal ((b ω).data.get [1, j, 0])) / (n * 4 : ℕ)) / 2 -
      ∫ x : Pos ℝ 2, x 0 ∂(normalised (wallMeasure square fun x => x 0))|} ≤ (K / n / 2 + (K / n) ^ 2) / δ ^ 2 := by
  obtain ⟨C, hC, hcov⟩ := wallCovers
  obtain ⟨h0, h1⟩ := loopFactor_lt wallCfg hC
  have h2 : 0 < 1 - loopFactor wallCfg C := by linarith
  have hB : ∀ x ∈ square, ∀ y ∈ square, |x 0 - y 0| ≤ 1 := fun x hx y hy => abs_le.2 ⟨by linarith [(hx 0).1, (hy 0).2], by linarith [(hx 0).2, (hy 0).1]⟩
  refine ⟨1 + 4 / (1 - loopFactor wallCfg C), fun n hn => ?_⟩
  have hnp : (0 : ℝ) < n := by exact_mod_cast hn
  obtain ⟨s', b, g1, g2, g3, g4⟩ := C101_adaptive (V := Unit) draws wallCfg (by decide) (by decide) (fun _ => rfl) ⟨(), none⟩ wallAdaptive C hC hcov wallTraining
    (fun j => by fin_cases j <;> simp [BundleCfg.flow, wallCfg]) (.root 7) (fun ω => .mat [emb (begin' 0), emb (begin' 1)]) (fun _ => rfl)
    (fun i hi => by
      rw [show wallCfg.nChains = 2 from rfl] at hi
      refine ⟨fun _ => begin' i, measurable_const, fun _ => ⟨?_, begin_mem i⟩⟩
      rcases (show i = 0 ∨ i = 1 by omega) with rfl | rfl <;> rfl)
    (fun x => x 0) (by fun_prop) 1 hB n hn 2 2 [] _ rfl
  have e : (wallCfg.withProd n).nProdSteps = n * 4 := by simp only [BundleCfg.nProdSteps, BundleCfg.withProd, wallCfg, Learn.wallRunCfg]; omega
  rw [e] at g4
  simp only [e] at g3
  refine ⟨s', b, fun ω => ⟨_, rfl, g1 ω⟩, g2, g3, fun δ hδ => ?_⟩
  have := (C101_interval 1 hB g3 g4 δ hδ).1
  simp only [wallPooledMean, show wallCfg.nChains = 2 from rfl, Finset.sum_range_succ, Finset.sum_range_zero, zero_add, wallMean] at this
  refine le_trans (le_of_eq ?_) (this.trans (div_le_div_of_nonneg_right ?_ (by positivity)))
  · rfl
  · have b1 : 2 * 1 / (n * (1 - loopFactor wallCfg C)) ≤ (1 + 4 / (1 - loopFactor wallCfg C)) / n := by
      rw [mul_one, div_le_div_iff₀ (by positivity) hnp]
      have : (1 + 4 / (1 - loopFactor wallCfg C)) * (n * (1 - loopFactor wallCfg C)) = (1 - loopFactor wallCfg C + 4) * n := by field_simp
      rw [this]
      nlinarith
    have b2 := pow_le_pow_left₀ (by positivity) b1 2
    norm_num at b2 ⊢
    linarith

end
end Bars
end FlowMC
