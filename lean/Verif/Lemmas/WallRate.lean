import Verif.Spec.WallErrorBars
import Verif.Lemmas.LoopErrors
import Verif.Props.WallAverages
import Verif.Props.Doeblin
/-
Inside walls, flow proposals contract at an explicit rate when the flow covers the truncated target.
-/
open MeasureTheory ProbabilityTheory Filter
open scoped ENNReal Topology
set_option linter.unusedSectionVars false
namespace FlowMC
open Spec
noncomputable section
open Classical

variable {d : ℕ} {S : Set (Fin d → ℝ)} {lp : (Fin d → ℝ) → ℝ}

theorem wallMeasure_real_pos (h0 : wallMeasure S lp Set.univ ≠ 0) (hfin : wallMeasure S lp Set.univ ≠ ∞) : 0 < (wallMeasure S lp).real Set.univ := ENNReal.toReal_pos h0 hfin

theorem normalised_wall (hlp : Measurable lp) (h0 : wallMeasure S lp Set.univ ≠ 0) (hfin : wallMeasure S lp Set.univ ≠ ∞) :
    normalised (wallMeasure S lp) = (volume.restrict S).withDensity fun x => ENNReal.ofReal (wallDensity S lp x) := by
  have hp := wallMeasure_real_pos h0 hfin
  rw [normalised]
  conv_lhs => enter [2]; rw [wallMeasure]
  rw [← withDensity_smul _ (by fun_prop)]
  congr 1
  funext x
  rw [Pi.smul_apply, smul_eq_mul, wallDensity, ENNReal.ofReal_div_of_pos hp, measureReal_def, ENNReal.ofReal_toReal hfin, ENNReal.div_eq_inv_mul]

/-- A flow proposal reaches every set with at least `1/C` times its probability under the truncated target. -/
theorem wall_minorise (hS : MeasurableSet S) (hlp : Measurable lp) (h0 : wallMeasure S lp Set.univ ≠ 0) (hfin : wallMeasure S lp Set.univ ≠ ∞) (lnf : (Fin d → ℝ) → ℝ) (hl : Measurable lnf)
    (q : Measure (Fin d → ℝ)) [IsProbabilityMeasure q] (hq : SamplesFrom q lnf) (C : ℝ) (hC : 0 < C) (hcov : ∀ x ∈ S, wallDensity S lp x ≤ C * density lnf x) (x : Fin d → ℝ)
    (A : Set (Fin d → ℝ)) (hA : MeasurableSet A) :
    1 / C * (normalised (wallMeasure S lp)).real A ≤ moveProb (q.prod unif) (freeStep S Prod.snd (flowR lp lnf)) A x := by
  haveI := wall_isProb h0 hfin
  obtain ⟨hfq, eq⟩ := samplesFrom_normalised q lnf hl hq
  have hZp := wallMeasure_real_pos h0 hfin
  have hZq := targetMeasure_real_pos _ hl hfq
  have hrm : Measurable (flowR lp lnf) := by unfold flowR; fun_prop
  set α : (Fin d → ℝ) → ℝ≥0∞ := fun y => freeProb S Prod.snd (flowR lp lnf) (x, y) with hα
  have hαm : Measurable α := (freeProb_measurable hS measurable_snd hrm).comp measurable_prodMk_left
  have hstep : ∫⁻ y in A, α y ∂q ≤ (q.prod unif) {n | freeStep S Prod.snd (flowR lp lnf) n x ∈ A} := by
    have hs : MeasurableSet {n : (Fin d → ℝ) × ℝ | freeStep S Prod.snd (flowR lp lnf) n x ∈ A} := by
      have hacc := freeAcc_measurable (S := S) hS measurable_snd hrm
      have hm : Measurable fun n : (Fin d → ℝ) × ℝ => freeStep S Prod.snd (flowR lp lnf) n x := by
        refine Measurable.ite ?_ measurable_fst measurable_const
        have : Measurable fun n : (Fin d → ℝ) × ℝ => (((x, n.1), n.2) : ((Fin d → ℝ) × (Fin d → ℝ)) × ℝ) := by fun_prop
        exact this hacc
      exact hm hA
    rw [Measure.prod_apply hs, ← lintegral_indicator hA]
    refine lintegral_mono fun y => ?_
    by_cases hy : y ∈ A
    · rw [Set.indicator_of_mem hy]
      simp only [hα]
      rw [← freeAcc_prob]
      refine measure_mono fun u hu => ?_
      simp only [Set.mem_preimage, Set.mem_setOf_eq] at hu ⊢
      unfold freeAcc at hu
      unfold freeStep
      rw [if_pos hu]; exact hy
    · rw [Set.indicator_of_notMem hy]; exact zero_le
  have hdens : ENNReal.ofReal (1 / C) * (normalised (wallMeasure S lp)) A ≤ ∫⁻ y in A, α y ∂q := by
    have e1 := normalised_wall hlp h0 hfin
    have e2 := normalised_density lnf hl hfq
    have hdm : Measurable fun y => ENNReal.ofReal (density lnf y) := by unfold density; fun_prop
    have hdp : Measurable fun y => ENNReal.ofReal (wallDensity S lp y) := by unfold wallDensity; fun_prop
    rw [eq, e1, e2, withDensity_apply _ hA, restrict_withDensity hA, lintegral_withDensity_eq_lintegral_mul _ hdm hαm, ← lintegral_const_mul _ hdp, Measure.restrict_restrict hA, Set.inter_comm, ← Measure.restrict_restrict hS,
      ← lintegral_indicator hS]
    refine lintegral_mono fun y => ?_
    by_cases hy : y ∈ S
    swap
    · rw [Set.indicator_of_notMem hy]; exact zero_le
    rw [Set.indicator_of_mem hy]
    simp only [Pi.mul_apply]
    have hd0 : ∀ y, 0 ≤ density lnf y := fun y => div_nonneg (Real.exp_pos _).le measureReal_nonneg
    by_cases hx : x ∈ S
    · have hae : α y = ENNReal.ofReal (min 1 (Real.exp (flowR lp lnf (x, y)))) := by simp only [hα, freeProb]; rw [if_pos hy, if_pos hx]
      rw [hae, ← ENNReal.ofReal_mul (by positivity), ← ENNReal.ofReal_mul (hd0 _)]
      refine ENNReal.ofReal_le_ofReal ?_
      rw [mul_min_of_nonneg _ _ (hd0 _), mul_one, le_min_iff]
      constructor
      · rw [one_div, inv_mul_le_iff₀ hC]; exact hcov y hy
      · have hx := hcov x hx
        unfold density wallDensity at hx
        unfold density wallDensity flowR
        rw [show lp y - lp x - (lnf y - lnf x) = lp y - lnf y - (lp x - lnf x) by ring, Real.exp_sub, Real.exp_sub, Real.exp_sub]
        have p1 := Real.exp_pos (lp x); have p2 := Real.exp_pos (lp y); have p3 := Real.exp_pos (lnf x); have p4 := Real.exp_pos (lnf y)
        have hx' : Real.exp (lp x) * (targetMeasure lnf).real Set.univ ≤ C * Real.exp (lnf x) * (wallMeasure S lp).real Set.univ := by
          rw [div_le_iff₀ hZp] at hx
          calc _ ≤ (C * (Real.exp (lnf x) / (targetMeasure lnf).real Set.univ) * (wallMeasure S lp).real Set.univ) * (targetMeasure lnf).real Set.univ := mul_le_mul_of_nonneg_right hx hZq.le
            _ = _ := by field_simp
        have e : Real.exp (lnf y) / (targetMeasure lnf).real Set.univ * (Real.exp (lp y) / Real.exp (lnf y) / (Real.exp (lp x) / Real.exp (lnf x))) =
            Real.exp (lp y) * Real.exp (lnf x) / ((targetMeasure lnf).real Set.univ * Real.exp (lp x)) := by field_simp
        rw [e, one_div, inv_mul_eq_div, div_div, div_le_div_iff₀ (by positivity) (by positivity)]
        calc _ = Real.exp (lp y) * (Real.exp (lp x) * (targetMeasure lnf).real Set.univ) := by ring
          _ ≤ Real.exp (lp y) * (C * Real.exp (lnf x) * (wallMeasure S lp).real Set.univ) := mul_le_mul_of_nonneg_left hx' p2.le
          _ = _ := by ring
    · have hae : α y = 1 := by simp only [hα, freeProb]; rw [if_pos hy, if_neg hx]
      rw [hae, mul_one, ← ENNReal.ofReal_mul (by positivity)]
      refine ENNReal.ofReal_le_ofReal ?_
      rw [one_div, inv_mul_le_iff₀ hC]; exact hcov y hy
  have hall := hdens.trans hstep
  rw [← ENNReal.toReal_le_toReal (ENNReal.mul_ne_top ENNReal.ofReal_ne_top (measure_ne_top _ _)) (measure_ne_top _ _), ENNReal.toReal_mul, ENNReal.toReal_ofReal (by positivity)] at hall
  exact hall

variable {Ω D M O Z : Type} {g : (Fin d → ℝ) → Fin d → ℝ} {data : Data D}
variable {past : MeasurableSpace Ω} {sig : Key → MeasurableSpace Ω} [mΩ : MeasurableSpace Ω] {P : Measure Ω} [IsProbabilityMeasure P] {env : Ω → Env ℝ D d M O} {env' : Ω → Env XR D d M O} {T : Key → Prop}
  [MeasurableSpace M] [MeasurableSpace Z] {ν : Measure Z} {push : M → Z → Pos ℝ d} {lnf : M → Pos ℝ d → ℝ} {G : Set M}

/-- Every production loop shrinks the distance to the truncated target. -/
theorem wall_loopsRate {c : BundleCfg XR D d M O} (hE : AdaptiveWallBundle T P sig env env' S lp g c data ν push lnf G) {a : ℝ} (ha : a ≠ 0) {C : ℝ} (hC : 1 ≤ C)
    (hcov : ∀ m ∈ G, ∀ x ∈ S, wallDensity S lp x ≤ C * density (lnf m) x) (m : Ω → M) (hG : ∀ ω, m ω ∈ G) :
    LoopsRate (noise d) (ν.prod unif) (fun _ : PastOf past => freeStep S (malaQ g a) (malaR lp g a)) (pushBy (wallFlowStep S lp lnf) push (fun ω : PastOf past => m ω)) (loopsSteps c)
      (normalised (wallMeasure S lp)) (loopFactor c C) := by
  haveI := hE.flows.prob
  haveI := wall_isProb hE.nonzero hE.finite
  haveI : IsProbabilityMeasure (noise d) := by unfold noise; infer_instance
  have hpm : ∀ ω, Measurable (push (m ω)) := fun ω => hE.flows.pushMeas.comp (measurable_const.prodMk measurable_id)
  have hlm : ∀ ω, Measurable (lnf (m ω)) := fun ω => hE.flows.lnfMeas.comp (measurable_const.prodMk measurable_id)
  haveI : ∀ ω, IsProbabilityMeasure (ν.map (push (m ω))) := fun ω => Measure.isProbabilityMeasure_map (hpm ω).aemeasurable
  have hM := mala_wallMH hE.walled hE.nonzero hE.finite a ha
  have h0 : 0 ≤ 1 - 1 / C := by rw [sub_nonneg, div_le_one (by linarith)]; exact hC
  have h1 : 1 - 1 / C ≤ 1 := by have : 0 < 1 / C := by positivity
                                linarith
  intro (w : Ω) x l pre
  have hF := flow_wallMH hE.walled hE.nonzero hE.finite (lnf (m w)) (hlm w) (ν.map (push (m w))) (hE.flows.density _ (hG w))
  rw [histLaw_pushBy hM.step_meas (wallFlowStep S lp lnf) (fun ω : PastOf past => m ω) w (hpm w) hF.step_meas]
  refine ((histLaw_rate (ρ := 1 - 1 / C) (fun μ ε hμ => ?_) (fun μ ε hμ => ?_) (pre ++ loopsSteps c l) (Measure.dirac x) inferInstance).2).mono ?_
  · exact ⟨Measure.isProbabilityMeasure_map hM.step_meas.aemeasurable, fun h => near_step h hM.step_meas (hM.rev.invariant hM.step_meas)⟩
  · refine ⟨Measure.isProbabilityMeasure_map hF.step_meas.aemeasurable, fun h => ?_⟩
    exact near_contract (by positivity) (by rw [div_le_one (by linarith)]; exact hC) h hF.step_meas (hF.rev.invariant hF.step_meas)
      (fun x A hA => wall_minorise hE.walled.meas hE.walled.meas_lp hE.nonzero hE.finite (lnf (m w)) (hlm w) _ (hE.flows.density _ (hG w)) C (by linarith) (hcov _ (hG w)) x A hA)
  · rw [loopFactor, ← pow_mul]
    refine pow_le_pow_of_le_one h0 h1 ?_
    rw [List.count_append, count_loopsSteps, mul_comm]
    exact Nat.le_add_left _ _

end
end FlowMC
