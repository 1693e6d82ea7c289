import Verif.Props.Learning
/-
C88: averages over the production rows of an adaptive run converge in probability to means under the target.
-/
open MeasureTheory ProbabilityTheory Filter
open scoped ENNReal Topology
set_option linter.unusedSectionVars false
namespace FlowMC
open Spec

/-! ### correlations of a passenger with the state after a history that depends on the passenger -/

section
variable {X W : Type} [MeasurableSpace X] [MeasurableSpace W]
variable {N1 N2 : Type} [MeasurableSpace N1] [MeasurableSpace N2] {ν1 : Measure N1} [IsProbabilityMeasure ν1] {ν2 : Measure N2} [IsProbabilityMeasure ν2]
  {s1 : W → N1 → X → X} {s2 : W → N2 → X → X}

theorem histMean_mul {s1 : N1 → X → X} {s2 : N2 → X → X} (a : ℝ) (h : List Bool) (f : X → ℝ) (x : X) :
    histMean (stepMean ν1 s1) (stepMean ν2 s2) h (fun x => a * f x) x = a * histMean (stepMean ν1 s1) (stepMean ν2 s2) h f x := by
  have e : ∀ {N : Type} [MeasurableSpace N] (ν : Measure N) (s : N → X → X) (f : X → ℝ), stepMean ν s (fun x => a * f x) = fun x => a * stepMean ν s f x := by
    intro N _ ν s f
    funext x
    exact integral_const_mul (μ := ν) a fun n => f (s n x)
  induction h generalizing f with
  | nil => rfl
  | cons b h ih =>
    cases b
    · rw [histMean, e, ih]; rfl
    · rw [histMean, e, ih]; rfl

theorem integral_onSndAt (h1 : Measurable fun p : (W × X) × N1 => s1 p.1.1 p.2 p.1.2) (h2 : Measurable fun p : (W × X) × N2 => s2 p.1.1 p.2 p.1.2) (h : List Bool) {μ : Measure (W × X)} [IsProbabilityMeasure μ]
    {g : W → ℝ} (hg : Measurable g) {C : ℝ} (hC : ∀ w, |g w| ≤ C) {f : X → ℝ} (hf : Measurable f) {B : ℝ} (hB : ∀ x, |f x| ≤ B) :
    ∫ p, g p.1 * f p.2 ∂(histLaw (stepLaw ν1 (onSndAt s1)) (stepLaw ν2 (onSndAt s2)) h μ) = ∫ p, g p.1 * histMean (stepMean ν1 (s1 p.1)) (stepMean ν2 (s2 p.1)) h f p.2 ∂μ := by
  rw [integral_histLaw (f := fun p : W × X => g p.1 * f p.2) (ν1 := ν1) (ν2 := ν2) (onSndAt_measurable h1) (onSndAt_measurable h2) h ((hg.comp measurable_fst).mul (hf.comp measurable_snd)) (B := C * B) ?_]
  · refine integral_congr_ae (ae_of_all _ ?_)
    rintro ⟨w, x⟩
    simp only [histMean_onSndAt, histMean_mul]
  · intro p
    rw [abs_mul]
    exact mul_le_mul (hC _) (hB _) (abs_nonneg _) (le_trans (abs_nonneg _) (hC p.1))

theorem histMean_at_measurable (h1 : Measurable fun p : (W × X) × N1 => s1 p.1.1 p.2 p.1.2) (h2 : Measurable fun p : (W × X) × N2 => s2 p.1.1 p.2 p.1.2) (h : List Bool) {f : X → ℝ} (hf : Measurable f) :
    Measurable fun p : W × X => histMean (stepMean ν1 (s1 p.1)) (stepMean ν2 (s2 p.1)) h f p.2 := by
  have e : (fun p : W × X => histMean (stepMean ν1 (s1 p.1)) (stepMean ν2 (s2 p.1)) h f p.2) = histMean (stepMean ν1 (onSndAt s1)) (stepMean ν2 (onSndAt s2)) h (fun p => f p.2) := by
    funext ⟨w, x⟩
    rw [histMean_onSndAt]
  rw [e]
  exact histMean_measurable (onSndAt_measurable h1) (onSndAt_measurable h2) h (hf.comp measurable_snd)

/-- If, whatever the passenger and the start, the mean deviation `Dev l` tends to zero and the laws approach `π`, then the mean of `Dev l'` after `l` loops is small once `l` and `l'` are large. -/
theorem dev_small (h1 : Measurable fun p : (W × X) × N1 => s1 p.1.1 p.2 p.1.2) (h2 : Measurable fun p : (W × X) × N2 => s2 p.1.1 p.2 p.1.2) (μ : Measure (W × X)) [IsProbabilityMeasure μ]
    (π : Measure X) [IsProbabilityMeasure π] (loops : ℕ → List Bool)
    (hnear : ∀ (w : W) (x : X) (ε : ℝ), 0 < ε → ∃ N, ∀ l, N ≤ l → Near (histLaw (stepLaw ν1 (s1 w)) (stepLaw ν2 (s2 w)) (loops l) (Measure.dirac x)) π ε)
    (Dev : ℕ → W × X → ℝ) (Dm : ∀ l, Measurable (Dev l)) (C : ℝ) (hC : 0 < C) (Db : ∀ l p, |Dev l p| ≤ C) (Dlim : ∀ p, Tendsto (fun l => Dev l p) atTop (𝓝 0)) (η : ℝ) (hη : 0 < η) :
    ∃ N, ∀ l, N ≤ l → ∀ l', N ≤ l' → ∫ p, Dev l' p ∂(histLaw (stepLaw ν1 (onSndAt s1)) (stepLaw ν2 (onSndAt s2)) (loops l) μ) ≤ η := by
  haveI : IsProbabilityMeasure (μ.map Prod.fst) := Measure.isProbabilityMeasure_map measurable_fst.aemeasurable
  -- the mean under the target
  have Dint : Tendsto (fun l => ∫ p, Dev l p ∂((μ.map Prod.fst).prod π)) atTop (𝓝 0) := by
    have := tendsto_integral_of_dominated_convergence (μ := (μ.map Prod.fst).prod π) (F := Dev) (f := fun _ => 0) (fun _ => C) (fun l => (Dm l).aestronglyMeasurable) (integrable_const _)
      (fun l => ae_of_all _ fun x => by rw [Real.norm_eq_abs]; exact Db l x) (ae_of_all _ Dlim)
    simpa using this
  obtain ⟨N1, hN1⟩ := (Metric.tendsto_atTop.1 Dint) (η / 2) (by positivity)
  have hε : 0 < η / (8 * C) := by positivity
  choose Np hNp using fun p : W × X => hnear p.1 p.2 (η / (8 * C)) hε
  obtain ⟨N2, hN2⟩ := mean_near_of_pointwise (P := μ) Np hε
  refine ⟨max N1 N2, fun l hl l' hl' => ?_⟩
  set A : W × X → ℝ := fun p => ∫ y, Dev l' (p.1, y) ∂(histLaw (stepLaw ν1 (s1 p.1)) (stepLaw ν2 (s2 p.1)) (loops l) (Measure.dirac p.2)) with hA
  set T : W → ℝ := fun w => ∫ y, Dev l' (w, y) ∂π with hT
  have sec : ∀ w, Measurable fun y => Dev l' (w, y) := fun w => (Dm l').comp (measurable_const.prodMk measurable_id)
  have Ae : ∀ p, histMean (stepMean ν1 (onSndAt s1)) (stepMean ν2 (onSndAt s2)) (loops l) (Dev l') p = A p := by
    rintro ⟨w, x⟩
    rw [histMean_onSndAt, histMean_eq (onSndAt_section h1 w) (onSndAt_section h2 w) (loops l) (sec w) (fun y => Db l' (w, y))]
  have Am : Measurable A := by
    rw [← funext Ae]
    exact histMean_measurable (onSndAt_measurable h1) (onSndAt_measurable h2) _ (Dm l')
  have Tm : Measurable T := (Dm l').stronglyMeasurable.integral_prod_right'.measurable
  have pr : ∀ p : W × X, IsProbabilityMeasure (histLaw (stepLaw ν1 (s1 p.1)) (stepLaw ν2 (s2 p.1)) (loops l) (Measure.dirac p.2)) := fun p =>
    histLaw_prob (onSndAt_section h1 p.1) (onSndAt_section h2 p.1) _ _
  have Ab : ∀ p, |A p| ≤ C := fun p => by haveI := pr p; exact abs_integral_bdd fun y => Db l' (p.1, y)
  have Tb : ∀ w, |T w| ≤ C := fun w => abs_integral_bdd fun y => Db l' (w, y)
  have e1 : ∫ p, Dev l' p ∂(histLaw (stepLaw ν1 (onSndAt s1)) (stepLaw ν2 (onSndAt s2)) (loops l) μ) = ∫ p, A p ∂μ := by
    rw [integral_histLaw (onSndAt_measurable h1) (onSndAt_measurable h2) _ (Dm l') (Db l')]
    exact integral_congr_ae (ae_of_all _ Ae)
  have e2 : ∫ p, Dev l' p ∂((μ.map Prod.fst).prod π) = ∫ p, T p.1 ∂μ := by
    rw [integral_prod _ (integrable_bdd (Dm l') (Db l')), integral_map measurable_fst.aemeasurable Tm.aestronglyMeasurable]
  set φ : W × X → ℝ := fun p => |A p - T p.1| / (2 * C) with hφ
  have φm : Measurable φ := ((Am.sub (Tm.comp measurable_fst)).abs).div_const _
  have φb : ∀ p, 0 ≤ φ p ∧ φ p ≤ 1 := fun p => by
    refine ⟨by positivity, ?_⟩
    rw [hφ, div_le_one (by positivity), abs_le]
    have h1 := abs_le.1 (Ab p); have h2 := abs_le.1 (Tb p.1)
    constructor <;> linarith
  have := hN2 φ 0 φm φb le_rfl zero_le_one (fun p hp => ?_) Set.univ MeasurableSet.univ
  · rw [Measure.restrict_univ, zero_mul, sub_zero, integral_div, abs_div, abs_of_pos (by positivity : (0 : ℝ) < 2 * C), div_le_iff₀ (by positivity)] at this
    have h3 : |∫ p, A p ∂μ - ∫ p, T p.1 ∂μ| ≤ η / 2 := by
      have hTi : Integrable (fun p : W × X => T p.1) μ := integrable_bdd (Tm.comp measurable_fst) fun p => Tb p.1
      rw [← integral_sub (integrable_bdd Am Ab) hTi]
      refine abs_integral_le_integral_abs.trans ((le_abs_self _).trans (this.trans (le_of_eq ?_)))
      field_simp; ring
    have h4 := hN1 l' (le_trans (le_max_left _ _) hl')
    rw [Real.dist_eq, sub_zero, e2] at h4
    rw [e1]
    have := (abs_le.1 h3).2; have := (abs_lt.1 h4).2
    linarith
  · haveI := pr p
    have := integral_near (hNp p l (le_trans hp (le_trans (le_max_right _ _) hl))) (sec p.1) (fun y => Db l' (p.1, y))
    rw [sub_zero, abs_of_nonneg (φb p).1, hφ, div_le_iff₀ (by positivity)]
    refine this.trans (le_of_eq ?_)
    ring

end

variable {Ω D M O V Z W : Type} {d : ℕ}
variable {past : MeasurableSpace Ω} {sig : Key → MeasurableSpace Ω} [mΩ : MeasurableSpace Ω] {P : Measure Ω} [IsProbabilityMeasure P] {env : Ω → Env ℝ D d M O} {T : Key → Prop}
  [MeasurableSpace M] [MeasurableSpace O] [MeasurableSpace Z] [MeasurableSpace W] {ν : Measure Z} {push : M → Z → Pos ℝ d} {lnf : M → Pos ℝ d → ℝ} {G : Set M} [BufNum ℝ]

/-- Rows of later loops forget everything that happened in earlier ones, whatever the flow. -/
theorem family_forgets (c : BundleCfg ℝ D d M O) (data : Data D) (hE : AdaptiveBundle T P sig env c data ν push lnf G) (φ : W → M) (hφ : Measurable φ) (hG : ∀ w, φ w ∈ G)
    (μ : Measure (W × Pos ℝ d)) [IsProbabilityMeasure μ] (f : Pos ℝ d → ℝ) (hf : Measurable f) (B : ℝ) (hB0 : 0 < B) (hB : ∀ x, |f x| ≤ B)
    (hf0 : ∫ x, f x ∂(normalised (targetMeasure fun x => c.logpdf.val x data)) = 0) (R : ℕ) (η : ℝ) (hη : 0 < η) :
    ∃ N, ∀ l, N ≤ l → ∀ J : Measure ((W × Pos ℝ d) × Pos ℝ d), IsProbabilityMeasure J →
      J.map (fun p => (p.1.1, p.2)) = histLaw (stepLaw (noise d) (onSndAt fun _ : W => localStep (.mala c.stepSize : KernelRes ℝ d M) c.logpdf data))
        (stepLaw (ν.prod unif) (onSndAt (pushStep c.logpdf data push lnf φ))) (loopsSteps c l) μ →
      ∀ l', N ≤ l' → ∀ r < R,
      |∫ p, f p.1.2 * f p.2 ∂(histLaw (stepLaw (noise d) (onSndAt fun _ : W × Pos ℝ d => localStep (.mala c.stepSize : KernelRes ℝ d M) c.logpdf data))
        (stepLaw (ν.prod unif) (onSndAt (pushStep c.logpdf data push lnf (fun p : W × Pos ℝ d => φ p.1)))) (rowPre c r ++ loopsSteps c l') J)| ≤ η := by
  haveI := hE.flows.prob
  haveI := normalised_isProb _ hE.meas hE.finite
  haveI : IsProbabilityMeasure (noise d) := by unfold noise; infer_instance
  have h0 := localStep_measurable (.mala c.stepSize : KernelRes ℝ d M) c.logpdf data hE.meas hE.gradMeas
  set s1 : W → (Fin d → ℝ) × ℝ → Pos ℝ d → Pos ℝ d := fun _ => localStep (.mala c.stepSize : KernelRes ℝ d M) c.logpdf data with hs1
  set s2 : W → Z × ℝ → Pos ℝ d → Pos ℝ d := pushStep c.logpdf data push lnf φ with hs2
  have h1 : Measurable fun p : (W × Pos ℝ d) × ((Fin d → ℝ) × ℝ) => s1 p.1.1 p.2 p.1.2 := h0.comp ((measurable_snd.comp measurable_fst).prodMk measurable_snd)
  have h2 : Measurable fun p : (W × Pos ℝ d) × (Z × ℝ) => s2 p.1.1 p.2 p.1.2 := pushStep_measurable c.logpdf data hE.meas hE.flows.pushMeas hE.flows.lnfMeas φ hφ
  have hlm : ∀ w, Measurable (lnf (φ w)) := fun w => hE.flows.lnfMeas.comp (measurable_const.prodMk measurable_id)
  have hpm : ∀ w, Measurable (push (φ w)) := fun w => hE.flows.pushMeas.comp (measurable_const.prodMk measurable_id)
  haveI : ∀ w, IsProbabilityMeasure (ν.map (push (φ w))) := fun w => Measure.isProbabilityMeasure_map (hpm w).aemeasurable
  have near : ∀ (w : W) (x : Pos ℝ d) (ε : ℝ), 0 < ε → ∃ N, ∀ l, N ≤ l → ∀ pre, Near (histLaw (stepLaw (noise d) (s1 w)) (stepLaw (ν.prod unif) (s2 w)) (pre ++ loopsSteps c l) (Measure.dirac x))
      (normalised (targetMeasure fun x => c.logpdf.val x data)) ε := by
    intro w x ε hε
    obtain ⟨N, hN⟩ := cycles_near c data hE.step hE.meas hE.gradMeas hE.finite (ν.map (push (φ w))) (lnf (φ w)) (hlm w) (hE.flows.density _ (hG w)) 1 (fun _ => Measure.dirac x) (fun _ => inferInstance) ε hε
    refine ⟨N, fun l hl pre => ?_⟩
    have := hN 0 (by omega) l hl pre
    rw [← histLaw_push c data hE.meas hE.gradMeas hE.flows φ w] at this
    exact this
  set m : List Bool → W × Pos ℝ d → ℝ := fun h p => histMean (stepMean (noise d) (s1 p.1)) (stepMean (ν.prod unif) (s2 p.1)) h f p.2 with hm
  have mm : ∀ h, Measurable (m h) := fun h => histMean_at_measurable h1 h2 h hf
  have mb : ∀ h p, |m h p| ≤ B := fun h p => histMean_bdd h hB p.2
  set Dev : ℕ → W × Pos ℝ d → ℝ := fun l p => ∑ r ∈ Finset.range R, |m (rowPre c r ++ loopsSteps c l) p| with hDev
  have Dm : ∀ l, Measurable (Dev l) := fun l => Finset.measurable_sum _ fun r _ => (mm _).abs
  have D0 : ∀ l p, 0 ≤ Dev l p := fun l p => Finset.sum_nonneg fun r _ => abs_nonneg _
  have Db : ∀ l p, |Dev l p| ≤ R * B + 1 := fun l p => by
    rw [abs_of_nonneg (D0 l p)]
    calc Dev l p ≤ ∑ r ∈ Finset.range R, B := Finset.sum_le_sum fun r _ => mb _ _
      _ = R * B := by simp
      _ ≤ _ := by linarith
  have Dlim : ∀ p, Tendsto (fun l => Dev l p) atTop (𝓝 0) := by
    intro p
    have : Tendsto (fun l => ∑ r ∈ Finset.range R, |m (rowPre c r ++ loopsSteps c l) p|) atTop (𝓝 (∑ r ∈ Finset.range R, 0)) := by
      refine tendsto_finset_sum _ fun r _ => ?_
      rw [Metric.tendsto_atTop]
      intro ε hε
      obtain ⟨N, hN⟩ := near p.1 p.2 (ε / (4 * B)) (by positivity)
      refine ⟨N, fun l hl => ?_⟩
      have hn := hN l hl (rowPre c r)
      haveI := histLaw_prob (ν1 := noise d) (ν2 := ν.prod unif) (onSndAt_section h1 p.1) (onSndAt_section h2 p.1) (rowPre c r ++ loopsSteps c l) (Measure.dirac p.2)
      have := integral_near hn hf hB
      rw [hf0, sub_zero] at this
      rw [Real.dist_eq, sub_zero, abs_abs]
      simp only [hm]
      rw [histMean_eq (onSndAt_section h1 p.1) (onSndAt_section h2 p.1) _ hf hB]
      refine lt_of_le_of_lt this ?_
      have : 2 * B * (ε / (4 * B)) = ε / 2 := by field_simp; ring
      rw [this]; linarith
    simpa using this
  obtain ⟨N, hN⟩ := dev_small (ν1 := noise d) (ν2 := ν.prod unif) h1 h2 μ (normalised (targetMeasure fun x => c.logpdf.val x data)) (loopsSteps c)
    (fun w x ε hε => by obtain ⟨N, hN⟩ := near w x ε hε; exact ⟨N, fun l hl => hN l hl []⟩) Dev Dm (R * B + 1) (by positivity) Db Dlim (η / B) (by positivity)
  refine ⟨N, fun l hl J hJ hJs l' hl' r hr => ?_⟩
  have h1' : Measurable fun p : ((W × Pos ℝ d) × Pos ℝ d) × ((Fin d → ℝ) × ℝ) => localStep (.mala c.stepSize : KernelRes ℝ d M) c.logpdf data p.2 p.1.2 := h0.comp ((measurable_snd.comp measurable_fst).prodMk measurable_snd)
  have h2' := pushStep_measurable c.logpdf data hE.meas hE.flows.pushMeas hE.flows.lnfMeas (fun p : W × Pos ℝ d => φ p.1) (hφ.comp measurable_fst)
  rw [integral_onSndAt (s1 := fun _ : W × Pos ℝ d => localStep (.mala c.stepSize : KernelRes ℝ d M) c.logpdf data) h1' h2' _ (g := fun p : W × Pos ℝ d => f p.2) (hf.comp measurable_snd) (fun p => hB p.2) hf hB]
  have small := hN l hl l' hl'
  have pm : Measurable fun p : (W × Pos ℝ d) × Pos ℝ d => (p.1.1, p.2) := (measurable_fst.comp measurable_fst).prodMk measurable_snd
  rw [← hJs, integral_map pm.aemeasurable (Dm l').aestronglyMeasurable] at small
  have e3 : |∫ p, f p.1.2 * m (rowPre c r ++ loopsSteps c l') (p.1.1, p.2) ∂J| ≤ B * ∫ p, Dev l' (p.1.1, p.2) ∂J := by
    rw [← integral_const_mul]
    refine (abs_integral_le_integral_abs).trans ?_
    refine integral_mono_of_nonneg (ae_of_all _ fun p => abs_nonneg _) ?_ (ae_of_all _ fun p => ?_)
    · exact (integrable_bdd ((Dm l').comp pm) (fun p => Db l' (p.1.1, p.2))).const_mul B
    · simp only [abs_mul]
      refine mul_le_mul (hB _) ?_ (abs_nonneg _) hB0.le
      exact Finset.single_le_sum (f := fun r => |m (rowPre c r ++ loopsSteps c l') (p.1.1, p.2)|) (fun r _ => abs_nonneg _) (Finset.mem_range.2 hr)
  refine e3.trans ?_
  calc B * ∫ p, Dev l' (p.1.1, p.2) ∂J ≤ B * (η / B) := mul_le_mul_of_nonneg_left small hB0.le
    _ = η := by field_simp

/-- The conclusion of `family_forgets` for all chains. -/
def FamilyForgets (past : MeasurableSpace Ω) [MeasurableSpace Ω] (P : Measure Ω) (c : BundleCfg ℝ D d M O) (data : Data D) (ν : Measure Z) (push : M → Z → Pos ℝ d) (lnf : M → Pos ℝ d → ℝ) (m : Ω → M)
    (X : ℕ → Ω → Pos ℝ d) (f : Pos ℝ d → ℝ) (η : ℝ) (N : ℕ) : Prop :=
  ∀ i < c.nChains, ∀ l, N ≤ l → ∀ J : Measure ((PastOf past × Pos ℝ d) × Pos ℝ d), IsProbabilityMeasure J →
      J.map (fun p => (p.1.1, p.2)) = histLaw (stepLaw (noise d) (onSndAt fun _ : PastOf past => localStep (.mala c.stepSize : KernelRes ℝ d M) c.logpdf data))
        (stepLaw (ν.prod unif) (onSndAt (pushStep c.logpdf data push lnf (fun ω : PastOf past => m ω)))) (loopsSteps c l) (P.map fun ω => (toPast past ω, X i ω)) →
      ∀ l', N ≤ l' → ∀ r < rowsPerCall c true + rowsPerCall c false,
      |∫ p, f p.1.2 * f p.2 ∂(histLaw (stepLaw (noise d) (onSndAt fun _ : PastOf past × Pos ℝ d => localStep (.mala c.stepSize : KernelRes ℝ d M) c.logpdf data))
        (stepLaw (ν.prod unif) (onSndAt (pushStep c.logpdf data push lnf (fun p : PastOf past × Pos ℝ d => m p.1)))) (rowPre c r ++ loopsSteps c l') J)| ≤ η

theorem ProdRun.family_means {c : BundleCfg ℝ D d M O} {data : Data D} {m : Ω → M} {k : Key} {logs : Ω → Bool → List (Block ℝ d)} {w : ℕ → Ω → World ℝ D d M O} {zs : ℕ → Ω → List (Pos ℝ d)} {b1 b2 : ℕ → Ω → Block ℝ d}
    (R : ProdRun env c data m k logs c.nProdLoops w zs b1 b2) (h : IdealOn (Desc k) past sig P env) (hE : AdaptiveBundle (Desc k) P sig env c data ν push lnf G)
    (hm : Measurable[past] m) (hG : ∀ ω, m ω ∈ G) (X : ℕ → Ω → Pos ℝ d) (hX : ∀ i < c.nChains, Measurable[past] (X i)) (hn : 0 < c.nProdLoops)
    (f : Pos ℝ d → ℝ) (hf : Measurable f) (B : ℝ) (hB : ∀ x, |f x| ≤ B) (η : ℝ) (hη : 0 ≤ η) (N : ℕ) (hN : FamilyForgets past P c data ν push lnf m X f η N)
    (i : ℕ) (hi : i < c.nChains) (hstart : ∀ ω, (w 0 ω).xs[i]? = some (X i ω)) (b : Ω → Buffer ℝ)
    (hb : ∀ ω, ∀ j < c.nProdSteps, ∀ Y, rowCell c b1 b2 i (j / (rowsPerCall c true + rowsPerCall c false)) (j % (rowsPerCall c true + rowsPerCall c false)) ω = some Y → ∀ a : Fin d, (b ω).data.get [i, j, a] = Y a)
    (δ : ℝ) (hδ : 0 < δ) : P.real {ω | δ < |chainMean f (b ω) i c.nProdSteps|} ≤ (η + (4 * N + 1) * B ^ 2 / c.nProdLoops) / δ ^ 2 := by
  haveI := hE.flows.prob
  haveI : IsProbabilityMeasure (noise d) := by unfold noise; infer_instance
  have hid := toPast_measurable past
  set n := c.nProdLoops with hnn
  set Q := rowsPerCall c true + rowsPerCall c false with hQ
  have law := family_rowLaws k h c hE.good data hE.meas hE.gradMeas hE.ignores hE.flows (fun ω : PastOf past => m ω) hm (toPast past) hG (P.map fun ω => (toPast past ω, X i ω))
  obtain ⟨lawX, lawR⟩ := R.laws law 0 [] i ⟨hid.mono (past_le_info (by simp [prodSet])) le_rfl, X i, hstart, (hX i hi).mono (past_le_info (by simp [prodSet])) le_rfl, rfl⟩
  simp only [Nat.zero_add, List.append_nil] at lawX lawR
  have hrow : ∀ l r, ∃ Y : Ω → Pos ℝ d, l < n → r < Q → (∀ ω, rowCell c b1 b2 i l r ω = some (Y ω)) ∧ Measurable[info past sig (prodSet k (l + 1))] Y := by
    intro l r
    by_cases hl : l < n
    · by_cases hr : r < Q
      · obtain ⟨-, Y, e1, e2, e3⟩ := lawR l hl r hr
        exact ⟨Y, fun _ _ => ⟨e1, e2⟩⟩
      · exact ⟨fun _ _ => 0, fun _ h => absurd h hr⟩
    · exact ⟨fun _ _ => 0, fun h => absurd h hl⟩
  choose Y hY using hrow
  have Ym : ∀ l < n, ∀ r < Q, Measurable (Y l r) := fun l hl r hr => (hY l r hl hr).2.mono (h.info_le _) le_rfl
  refine means_of_cor hE.good hn f hf B hB η hη N i Y (fun l hl r hr => (hY l r hl hr).1) Ym ?_ b hb δ hδ
  intro l l' hl hll hl' r hr r' hr'
  obtain ⟨hpm, X', e1, e2, e3⟩ := lawX (l + 1) (by omega)
  have hYr := hY l r (by omega) hr
  set J := P.map (fun ω => ((toPast past ω, Y l r ω), X' ω)) with hJ
  have hJm : Measurable (fun ω => ((toPast past ω, Y l r ω), X' ω)) := ((hpm.prodMk hYr.2).prodMk e2).mono (h.info_le _) le_rfl
  haveI : IsProbabilityMeasure J := Measure.isProbabilityMeasure_map hJm.aemeasurable
  have hJs : J.map (fun p => (p.1.1, p.2)) = histLaw (stepLaw (noise d) (onSndAt fun _ : PastOf past => localStep (.mala c.stepSize : KernelRes ℝ d M) c.logpdf data))
        (stepLaw (ν.prod unif) (onSndAt (pushStep c.logpdf data push lnf (fun ω : PastOf past => m ω)))) (loopsSteps c (l + 1)) (P.map fun ω => (toPast past ω, X i ω)) := by
    have pm : Measurable fun p : (PastOf past × Pos ℝ d) × Pos ℝ d => (p.1.1, p.2) := (measurable_fst.comp measurable_fst).prodMk measurable_snd
    rw [hJ, Measure.map_map pm hJm, ← e3]; rfl
  have hm' : Measurable fun p : PastOf past × Pos ℝ d => m p.1 := by
    have hm0 : Measurable (fun ω : PastOf past => m ω) := hm
    exact hm0.comp measurable_fst
  have law' := family_rowLaws k h c hE.good data hE.meas hE.gradMeas hE.ignores hE.flows (fun p : PastOf past × Pos ℝ d => m p.1) hm' (fun ω => (toPast past ω, Y l r ω)) hG J
  obtain ⟨l'', rfl⟩ : ∃ l'', l' = l + 1 + l'' := ⟨l' - (l + 1), by omega⟩
  have := (R.laws law' (l + 1) [] i ⟨hpm.prodMk hYr.2, X', e1, e2, rfl⟩).2 l'' hl' r' hr'
  rw [List.append_nil] at this
  obtain ⟨-, Y', g1, g2, g3⟩ := this
  obtain rfl : Y' = Y (l + 1 + l'') r' := funext fun ω => by
    have := (hY (l + 1 + l'') r' hl' hr').1 ω
    rw [g1 ω, Option.some.injEq] at this; exact this
  have hm2 : Measurable (fun ω => ((toPast past ω, Y l r ω), Y (l + 1 + l'') r' ω)) := ((hpm.prodMk hYr.2).mono (h.info_le _) le_rfl).prodMk (Ym _ hl' r' hr')
  have e : ∫ ω, f (Y l r ω) * f (Y (l + 1 + l'') r' ω) ∂P = ∫ p, f p.1.2 * f p.2 ∂(P.map fun ω => ((toPast past ω, Y l r ω), Y (l + 1 + l'') r' ω)) := by
    rw [integral_map hm2.aemeasurable]
    exact ((hf.comp (measurable_snd.comp measurable_fst)).mul (hf.comp measurable_snd)).aestronglyMeasurable
  rw [e, g3]
  exact (abs_le.1 (hN i hi (l + 1) (by omega) J inferInstance hJs l'' (by omega) r' hr')).2

theorem loops_bound (nC N : ℕ) (C δ ε : ℝ) (hδ : 0 < δ) (hε : 0 < ε) :
    ∃ L : ℕ, ∀ n : ℕ, L ≤ n → 0 < n ∧ nC * ((ε * δ ^ 2 / (2 * (nC + 1)) + (4 * N + 1) * C ^ 2 / n) / δ ^ 2) ≤ ε := by
  set η := ε * δ ^ 2 / (2 * ((nC : ℝ) + 1)) with hη
  have hη0 : 0 < η := by positivity
  obtain ⟨L, hL⟩ := exists_nat_gt ((4 * N + 1) * C ^ 2 / η)
  refine ⟨L, fun n hn => ?_⟩
  have hLn : (4 * N + 1) * C ^ 2 / η < (n : ℝ) := lt_of_lt_of_le hL (by exact_mod_cast hn)
  have hnp : (0 : ℝ) < n := lt_of_le_of_lt (by positivity) hLn
  refine ⟨by exact_mod_cast hnp, ?_⟩
  have h2 : (4 * N + 1) * C ^ 2 / n ≤ η := by
    rw [div_lt_iff₀ hη0] at hLn
    rw [div_le_iff₀ hnp]; linarith
  calc nC * ((η + (4 * N + 1) * C ^ 2 / n) / δ ^ 2) ≤ nC * ((η + η) / δ ^ 2) := by
        refine mul_le_mul_of_nonneg_left ?_ (Nat.cast_nonneg _)
        refine div_le_div_of_nonneg_right (by linarith) (by positivity)
    _ = ε * (nC / (nC + 1)) := by rw [hη]; field_simp; ring
    _ ≤ ε * 1 := by
      refine mul_le_mul_of_nonneg_left ?_ hε.le
      rw [div_le_one (by positivity)]; linarith
    _ = ε := mul_one ε

/-- **C88 (production phase).** A run of `RQSpline_MALA_Bundle` in an ideal random world.  Suppose that when training is over (`w ω`) the random key is `k`, the flow in the global sampler is `m ω` and chain `i`
is at `X i ω`, where flow and positions are *any* functions of what happened before, the flow being in a family of flows whose `log_prob` is the log-density of their samples up to a constant.  Let `f` be any
bounded measurable function of the position.  For all `δ, ε > 0` there is an `L` such that with `L` or more production loops, the probability that in some chain the average of `f` over the production rows of
`positions_production` differs by more than `δ` from the mean of `f` under the target is at most `ε`. -/
theorem C88_production (k : Key) (h : IdealOn (Desc k) past sig P env) (c : BundleCfg ℝ D d M O) (data : Data D) (hE : AdaptiveBundle (Desc k) P sig env c data ν push lnf G)
    (m : Ω → M) (hm : Measurable[past] m) (hG : ∀ ω, m ω ∈ G) (X : ℕ → Ω → Pos ℝ d) (hX : ∀ i < c.nChains, Measurable[past] (X i))
    (f : Pos ℝ d → ℝ) (hf : Measurable f) (B : ℝ) (hB : ∀ x, |f x| ≤ B) (δ ε : ℝ) (hδ : 0 < δ) (hε : 0 < ε) :
    ∃ L, ∀ (n : ℕ), L ≤ n → ∀ (key : Ω → Key) (xs : Ω → List (Pos ℝ d)) (w w' : Ω → World ℝ D d M O), (∀ ω, (xs ω).length = c.nChains) →
      (∀ ω, Completes (env ω) (malaBundle (c.withProd n)).strategies.lookup data (repeatPhase c.nTrainLoops trainingPhase ++ ["reset_steppers", "update_state"])
        ⟨key ω, xs ω, ⟨(malaBundle (c.withProd n)).resources, fun _ => 0⟩⟩ (w ω)) →
      (∀ ω, (w ω).key = k) → (∀ ω, (w ω).heap.res "global_sampler" = some (.kernel (.nf (m ω) c.nfBatch))) → (∀ ω, ∀ i < c.nChains, (w ω).xs[i]? = some (X i ω)) →
      (∀ ω, Completes (env ω) (malaBundle (c.withProd n)).strategies.lookup data (repeatPhase n productionPhase) (w ω) (w' ω)) →
      ∃ b : Ω → Buffer ℝ, (∀ ω, (w' ω).heap.res "positions_production" = some (.buffer (b ω))) ∧
        P.real {ω | ∃ i < c.nChains, δ < |chainMean f (b ω) i (c.withProd n).nProdSteps - ∫ x, f x ∂(normalised (targetMeasure fun x => c.logpdf.val x data))|} ≤ ε := by
  haveI := hE.flows.prob
  haveI := normalised_isProb _ hE.meas hE.finite
  have hid := toPast_measurable past
  set a := ∫ x, f x ∂(normalised (targetMeasure fun x => c.logpdf.val x data)) with ha
  have haB : |a| ≤ B := abs_integral_bdd hB
  have hB0 : 0 ≤ B := le_trans (abs_nonneg _) haB
  have hC : ∀ x, |f x - a| ≤ 2 * B + 1 := fun x => by
    have h1 := abs_le.1 (hB x); have h2 := abs_le.1 haB
    rw [abs_le]; constructor <;> linarith
  have hf0 : ∫ x, (f x - a) ∂(normalised (targetMeasure fun x => c.logpdf.val x data)) = 0 := by
    rw [integral_sub (integrable_bdd hf hB) (integrable_const a)]
    simp [ha]
  have hη : 0 < ε * δ ^ 2 / (2 * ((c.nChains : ℝ) + 1)) := by positivity
  have each : ∀ i, ∃ N, i < c.nChains → ∀ l, N ≤ l → ∀ J : Measure ((PastOf past × Pos ℝ d) × Pos ℝ d), IsProbabilityMeasure J →
      J.map (fun p => (p.1.1, p.2)) = histLaw (stepLaw (noise d) (onSndAt fun _ : PastOf past => localStep (.mala c.stepSize : KernelRes ℝ d M) c.logpdf data))
        (stepLaw (ν.prod unif) (onSndAt (pushStep c.logpdf data push lnf (fun ω : PastOf past => m ω)))) (loopsSteps c l) (P.map fun ω => (toPast past ω, X i ω)) →
      ∀ l', N ≤ l' → ∀ r < rowsPerCall c true + rowsPerCall c false,
      |∫ p, (f p.1.2 - a) * (f p.2 - a) ∂(histLaw (stepLaw (noise d) (onSndAt fun _ : PastOf past × Pos ℝ d => localStep (.mala c.stepSize : KernelRes ℝ d M) c.logpdf data))
        (stepLaw (ν.prod unif) (onSndAt (pushStep c.logpdf data push lnf (fun p : PastOf past × Pos ℝ d => m p.1)))) (rowPre c r ++ loopsSteps c l') J)| ≤ ε * δ ^ 2 / (2 * ((c.nChains : ℝ) + 1)) := by
    intro i
    by_cases hi : i < c.nChains
    · haveI : IsProbabilityMeasure (P.map fun ω : Ω => (toPast past ω, X i ω)) := Measure.isProbabilityMeasure_map ((hid.prodMk (hX i hi)).mono h.past_le le_rfl).aemeasurable
      obtain ⟨N, hN⟩ := family_forgets c data hE (fun ω : PastOf past => m ω) hm hG (P.map fun ω => (toPast past ω, X i ω)) (fun x => f x - a) (hf.sub_const a) (2 * B + 1) (by linarith) hC hf0
        (rowsPerCall c true + rowsPerCall c false) _ hη
      exact ⟨N, fun _ => hN⟩
    · exact ⟨0, fun h => absurd h hi⟩
  choose Ni hNi using each
  set N := (Finset.range c.nChains).sup Ni with hNd
  have hN : FamilyForgets past P c data ν push lnf m X (fun x => f x - a) (ε * δ ^ 2 / (2 * ((c.nChains : ℝ) + 1))) N := by
    intro i hi l hl J hJ hJs l' hl' r hr
    have : Ni i ≤ N := Finset.le_sup (f := Ni) (Finset.mem_range.2 hi)
    exact hNi i hi l (le_trans this hl) J hJ hJs l' (le_trans this hl') r hr
  obtain ⟨L, hL⟩ := loops_bound c.nChains N (2 * B + 1) δ ε hδ hε
  refine ⟨L, fun n hnL key xs w w' hx htrain hkey hflow hstart hprod => ?_⟩
  obtain ⟨hn, hbd⟩ := hL n hnL
  have hc' := goodCfg_withProd hE.good n
  have hE' : AdaptiveBundle (Desc k) P sig env (c.withProd n) data ν push lnf G := ⟨hc', hE.step, hE.meas, hE.gradMeas, hE.ignores, hE.finite, hE.flows⟩
  have hN' : FamilyForgets past P (c.withProd n) data ν push lnf m X (fun x => f x - a) (ε * δ ^ 2 / (2 * ((c.nChains : ℝ) + 1))) N := by
    intro i hi l hl J hJ hJs l' hl' r hr
    rw [loopsSteps_withProd] at hJs ⊢
    exact hN i hi l hl J hJ hJs l' hl' r hr
  obtain ⟨logs, v, zs, b1, b2, e0, en, R⟩ := production_run hc' hE.flows.lawful w w' (fun ω => production_start (env ω) (hE.flows.lawful ω) (c.withProd n) hc' data (key ω) (xs ω) (hx ω) (w ω) (htrain ω)) hkey hflow hprod
  choose b hb hcell using fun ω => R.buffer ω
  refine ⟨b, fun ω => by rw [← en]; exact hb ω, ?_⟩
  have hpos : 0 < (c.withProd n).nProdSteps := by
    have hcap : (c.withProd n).nProdSteps = n * (rowsPerCall c true + rowsPerCall c false) := capacity_eq (c.withProd n) true
    have := rowsPerCall_pos hE.good true
    rw [hcap]; exact Nat.mul_pos hn (by omega)
  have hset : {ω | ∃ i < c.nChains, δ < |chainMean f (b ω) i (c.withProd n).nProdSteps - a|} =
      ⋃ i ∈ Finset.range c.nChains, {ω | δ < |chainMean (fun x => f x - a) (b ω) i (c.withProd n).nProdSteps|} := by
    ext ω
    simp only [Set.mem_setOf_eq, Set.mem_iUnion, Finset.mem_range, exists_prop, chainMean_sub f _ _ _ hpos]
  rw [hset]
  refine (measureReal_biUnion_finset_le _ _).trans (le_trans ?_ hbd)
  calc _ ≤ ∑ i ∈ Finset.range c.nChains, (ε * δ ^ 2 / (2 * ((c.nChains : ℝ) + 1)) + (4 * N + 1) * (2 * B + 1) ^ 2 / n) / δ ^ 2 := by
        refine Finset.sum_le_sum fun i hi => ?_
        rw [Finset.mem_range] at hi
        exact R.family_means h hE' hm hG X hX hn (fun x => f x - a) (hf.sub_const a) (2 * B + 1) hC _ hη.le N hN' i hi (fun ω => by rw [e0]; exact hstart ω i hi) b (fun ω j hj => hcell ω i hi j hj) δ hδ
    _ = _ := by simp

/-- A whole run with `n` production loops, cut at the end of training. -/
theorem adaptive_split (h : IdealDraws past sig P env) (c : BundleCfg ℝ D d M O) (hn : 0 < c.nChains) (hb : 0 < c.batchSize) (hfin : ∀ x : ℝ, BufNum.isFinite x = true) (data : Data D)
    (hB : AdaptiveBundle (fun _ => True) P sig env c data ν push lnf G) (key : Key) (init : Ω → InitPos ℝ d) (hx : ∀ ω, (init ω).atleast2d.length = c.nChains) (w : Ω → World ℝ D d M O)
    (hw : ∀ ω, Completes (env ω) (malaBundle c).strategies.lookup data (repeatPhase c.nTrainLoops trainingPhase ++ ["reset_steppers", "update_state"])
      ⟨key, (init ω).atleast2d, ⟨(malaBundle c).resources, fun _ => 0⟩⟩ (w ω))
    (n nd nc : ℕ) (kw : List (String × V)) (s : Sampler ℝ D d M O V) (hs : Sampler.new nd nc key none none none (some (malaBundle (c.withProd n))) kw = .ok s) :
    ∃ (s' : Ω → Sampler ℝ D d M O V) (v w' : Ω → World ℝ D d M O), (∀ ω, s.sample (env ω) (init ω) data = (.ok (), s' ω)) ∧ (∀ ω, (s' ω).heap = (w' ω).heap) ∧
      (∀ ω, Completes (env ω) (malaBundle (c.withProd n)).strategies.lookup data (repeatPhase c.nTrainLoops trainingPhase ++ ["reset_steppers", "update_state"])
        ⟨key, (init ω).atleast2d, ⟨(malaBundle (c.withProd n)).resources, fun _ => 0⟩⟩ (v ω)) ∧
      (∀ ω, (v ω).key = trainedKey c.nTrainLoops c.nEpochs key) ∧ (∀ ω, (v ω).heap.res "global_sampler" = (w ω).heap.res "global_sampler") ∧ (∀ ω, (v ω).xs = (w ω).xs) ∧
      (∀ ω, Completes (env ω) (malaBundle (c.withProd n)).strategies.lookup data (repeatPhase n productionPhase) (v ω) (w' ω)) := by
  simp only [Sampler.new, Except.ok.injEq] at hs
  subst hs
  have hl : ∀ ω, (env ω).ops.Lawful := hB.flows.lawful
  have hSt : ∀ ω, StaysIn (env ω) (c.withProd n) data (fun _ => True) := fun ω => ⟨fun _ _ _ _ _ => trivial, fun _ _ _ _ _ _ _ _ => trivial, fun x _ i => hfin _⟩
  choose v w' h1 h2 using fun ω => bundle_total (env ω) (hl ω) (c.withProd n) (goodCfg_withProd hB.good n) data hn hb _ (hSt ω) key (init ω).atleast2d (hx ω) (fun _ _ => trivial)
  have h3 : ∀ ω, Completes (env ω) (bundleStrategies (c.withProd n)).lookup data (bundleOrder (c.withProd n)) ⟨key, (init ω).atleast2d, ⟨bundleResources (c.withProd n), fun _ => 0⟩⟩ (w' ω) := fun ω => by
    rw [bundleOrder, completes_append]; exact ⟨v ω, h1 ω, h2 ω⟩
  have h4 := fun ω => completes_sample (h3 ω)
  have hsample : ∀ ω, Sampler.sample (V := V) (env ω) ⟨nd, nc, key, ⟨bundleResources (c.withProd n), fun _ => 0⟩, (bundleStrategies (c.withProd n)).lookup, some (bundleOrder (c.withProd n)),
      setAttrs kw (fun _ => none)⟩ (init ω) data =
      (.ok (), ⟨nd, nc, key, (w' ω).heap, (bundleStrategies (c.withProd n)).lookup, some (bundleOrder (c.withProd n)), setAttrs kw (fun _ => none)⟩) := by
    intro ω
    simp only [Sampler.sample]
    rw [h4 ω]
  have hsame : ∀ ω, (v ω).heap.res "global_sampler" = (w ω).heap.res "global_sampler" ∧ (v ω).xs = (w ω).xs := by
    intro ω
    have := C85_training (env ω) none c n data key (init ω).atleast2d
    simp only [libraryBundle, trainingOrder] at this
    rw [completes_sample (hw ω)] at this
    have e : runOrder (env ω) (malaBundle (c.withProd n)).strategies.lookup (repeatPhase c.nTrainLoops trainingPhase ++ ["reset_steppers", "update_state"]) key (init ω).atleast2d data
        ⟨(malaBundle (c.withProd n)).resources, fun _ => 0⟩ = (.ok ((v ω).key, (v ω).xs), (v ω).heap) := completes_sample (h1 ω)
    have this2 : SameOutcome notProduction (Except.ok ((w ω).key, (w ω).xs), (w ω).heap) (runOrder (env ω) (malaBundle (c.withProd n)).strategies.lookup
      (repeatPhase c.nTrainLoops trainingPhase ++ ["reset_steppers", "update_state"]) key (init ω).atleast2d data ⟨(malaBundle (c.withProd n)).resources, fun _ => 0⟩) := this
    rw [e] at this2
    obtain ⟨a, b⟩ := this2
    simp only [Except.ok.injEq, Prod.mk.injEq] at a
    exact ⟨(b.1 _ (by simp [notProduction])).symm, a.2.symm⟩
  exact ⟨_, v, w', hsample, fun ω => rfl, h1, fun ω => switch_key (env ω) (c.withProd n) data _ _ _ (h1 ω), fun ω => (hsame ω).1, fun ω => (hsame ω).2, h2⟩

/-- **C88 (the whole run).** A call of `sample` with the MALA bundle, in an ideal random world, flow and positions at the end of training being random in any way.  `w` is what training (and the switch
to production) leaves behind — the flow `m` in the global sampler, the positions `X i` of the chains.  For every bounded measurable `f` and all `δ, ε > 0` there is `L` such that in a run with `L` or more
production loops the call returns, and with probability at least `1 - ε` the average of `f` over the production rows of every chain is within `δ` of its mean under the target. -/
theorem C88_sample (h : IdealDraws past sig P env) (c : BundleCfg ℝ D d M O) (hn : 0 < c.nChains) (hb : 0 < c.batchSize) (hfin : ∀ x : ℝ, BufNum.isFinite x = true) (data : Data D)
    (hB : AdaptiveBundle (fun _ => True) P sig env c data ν push lnf G) (key : Key) (init : Ω → InitPos ℝ d) (hx : ∀ ω, (init ω).atleast2d.length = c.nChains) (w : Ω → World ℝ D d M O)
    (hw : ∀ ω, Completes (env ω) (malaBundle c).strategies.lookup data (repeatPhase c.nTrainLoops trainingPhase ++ ["reset_steppers", "update_state"])
      ⟨key, (init ω).atleast2d, ⟨(malaBundle c).resources, fun _ => 0⟩⟩ (w ω))
    (m : Ω → M) (hm : Measurable[before past sig (trainedKey c.nTrainLoops c.nEpochs key)] m) (hG : ∀ ω, m ω ∈ G) (hflow : ∀ ω, (w ω).heap.res "global_sampler" = some (.kernel (.nf (m ω) c.nfBatch)))
    (X : ℕ → Ω → Pos ℝ d) (hX : ∀ i < c.nChains, Measurable[before past sig (trainedKey c.nTrainLoops c.nEpochs key)] (X i)) (hstart : ∀ ω, ∀ i < c.nChains, (w ω).xs[i]? = some (X i ω))
    (f : Pos ℝ d → ℝ) (hf : Measurable f) (C : ℝ) (hC : ∀ x, |f x| ≤ C) (δ ε : ℝ) (hδ : 0 < δ) (hε : 0 < ε) :
    ∃ L, ∀ (n : ℕ), L ≤ n → ∀ (nd nc : ℕ) (kw : List (String × V)) (s : Sampler ℝ D d M O V), Sampler.new nd nc key none none none (some (malaBundle (c.withProd n))) kw = .ok s →
      ∃ (s' : Ω → Sampler ℝ D d M O V) (b : Ω → Buffer ℝ), (∀ ω, s.sample (env ω) (init ω) data = (.ok (), s' ω)) ∧ (∀ ω, (s' ω).heap.res "positions_production" = some (.buffer (b ω))) ∧
        P.real {ω | ∃ i < c.nChains, δ < |chainMean f (b ω) i (c.withProd n).nProdSteps - ∫ x, f x ∂(normalised (targetMeasure fun x => c.logpdf.val x data))|} ≤ ε := by
  set k := trainedKey c.nTrainLoops c.nEpochs key with hk
  have hI := idealOn_before h k (fun _ _ => trivial)
  have hE : AdaptiveBundle (Desc k) P (after sig k) env c data ν push lnf G :=
    ⟨hB.good, hB.step, hB.meas, hB.gradMeas, hB.ignores, hB.finite, flowFamily_before k (fun _ _ => trivial) hB.flows⟩
  obtain ⟨L, hL⟩ := C88_production k hI c data hE m hm hG X hX f hf C hC δ ε hδ hε
  refine ⟨L, fun n hnL nd nc kw s hs => ?_⟩
  obtain ⟨s', v, w', g1, g2, g3, g4, g5, g6, g7⟩ := adaptive_split h c hn hb hfin data hB key init hx w hw n nd nc kw s hs
  obtain ⟨b, hb1, hb2⟩ := hL n hnL (fun _ => key) (fun ω => (init ω).atleast2d) v w' hx g3 g4 (fun ω => by rw [g5]; exact hflow ω) (fun ω i hi => by rw [g6]; exact hstart ω i hi) g7
  exact ⟨s', b, g1, fun ω => by rw [g2]; exact hb1 ω, hb2⟩

/-- **C88 (end to end).** A call of `sample` with the MALA bundle in an ideal random world.  Training is any procedure of the code's shape (as in C83): its shuffles and choices of examples are drawn with their
keys, the optimisation step and the standardisation are any measurable functions that keep the flow in the family `G`; the initial positions are random, determined by the past.  Nothing is assumed about what
training achieves.  For every bounded measurable `f` and all `δ, ε > 0` there is `L` such that with `L` or more production loops the call returns, and with probability at least `1 - ε` the average of `f` over
the rows of every chain in the production buffer is within `δ` of the mean of `f` under the target. -/
theorem C88_adaptive (h : IdealDraws past sig P env) (c : BundleCfg ℝ D d M O) (hn : 0 < c.nChains) (hb : 0 < c.batchSize) (hfin : ∀ x : ℝ, BufNum.isFinite x = true) (data : Data D)
    (hB : AdaptiveBundle (fun _ => True) P sig env c data ν push lnf G) (hT : OrdinaryTraining sig env G) (hflow : c.flow ∈ G) (key : Key) (init : Ω → InitPos ℝ d)
    (hx : ∀ ω, (init ω).atleast2d.length = c.nChains) (hX : ∀ i < c.nChains, ∃ X : Ω → Pos ℝ d, Measurable[past] X ∧ ∀ ω, (init ω).atleast2d[i]? = some (X ω))
    (f : Pos ℝ d → ℝ) (hf : Measurable f) (C : ℝ) (hC : ∀ x, |f x| ≤ C) (δ ε : ℝ) (hδ : 0 < δ) (hε : 0 < ε) :
    ∃ L, ∀ (n : ℕ), L ≤ n → ∀ (nd nc : ℕ) (kw : List (String × V)) (s : Sampler ℝ D d M O V), Sampler.new nd nc key none none none (some (malaBundle (c.withProd n))) kw = .ok s →
      ∃ (s' : Ω → Sampler ℝ D d M O V) (b : Ω → Buffer ℝ), (∀ ω, s.sample (env ω) (init ω) data = (.ok (), s' ω)) ∧ (∀ ω, (s' ω).heap.res "positions_production" = some (.buffer (b ω))) ∧
        P.real {ω | ∃ i < c.nChains, δ < |chainMean f (b ω) i (c.withProd n).nProdSteps - ∫ x, f x ∂(normalised (targetMeasure fun x => c.logpdf.val x data))|} ≤ ε := by
  have hSt : ∀ ω, StaysIn (env ω) c data (fun _ => True) := fun ω => ⟨fun _ _ _ _ _ => trivial, fun _ _ _ _ _ _ _ _ => trivial, fun x _ i => hfin _⟩
  choose w w' h1 h2 using fun ω => bundle_total (env ω) (hB.flows.lawful ω) c hB.good data hn hb _ (hSt ω) key (init ω).atleast2d (hx ω) (fun _ _ => trivial)
  have hfin' : MeasurableSet {x : ℝ | BufNum.isFinite x = true} := by simp [hfin]
  obtain ⟨m, hm, hG, hmg, hX'⟩ := trained_before h c hB.good hfin' data hB.ignores hB.meas hB.gradMeas hB.flows hT hflow key (fun ω => (init ω).atleast2d) hx hX w h1
  choose! X hXm hXe using hX'
  exact C88_sample h c hn hb hfin data hB key init hx w h1 m hm hG hmg X hXm (fun ω i hi => hXe i hi ω) f hf C hC δ ε hδ hε

end FlowMC
