import Verif.Lemmas.MinRate
import Verif.Props.AcceptRate
/-
C107: the acceptance rate of flow proposals measures how far the flow is from the target.
-/
open MeasureTheory ProbabilityTheory Filter
open scoped ENNReal Topology
set_option linter.unusedSectionVars false
namespace FlowMC
open Spec

variable {Ω D M O : Type} {d : ℕ}
variable {T : Key → Prop} {past : MeasurableSpace Ω} {sig : Key → MeasurableSpace Ω} [mΩ : MeasurableSpace Ω] {P : Measure Ω} [IsProbabilityMeasure P] {env : Ω → Env ℝ D d M O}

theorem density_of_logs (μ q : Measure (Pos ℝ d)) [IsProbabilityMeasure μ] [IsProbabilityMeasure q] (f g : Pos ℝ d → ℝ) (hf : Measurable f) (hg : Measurable g)
    (hμ : SamplesFrom μ f) (hq : SamplesFrom q g) : ∃ c : ℝ, 0 < c ∧ DensityOf μ q fun x => c * Real.exp (f x - g x) := by
  obtain ⟨a, ha⟩ := hμ
  obtain ⟨b, hb⟩ := hq
  have one : ∀ (ν : Measure (Pos ℝ d)) [IsProbabilityMeasure ν] (Z : ℝ≥0∞) (l : Pos ℝ d → ℝ), ν = Z • targetMeasure l → Z ≠ 0 := by
    rintro ν _ Z l h rfl
    have e : ν Set.univ = 1 := measure_univ
    rw [h] at e
    simp at e
  have top : ∀ (ν : Measure (Pos ℝ d)) [IsProbabilityMeasure ν] (Z : ℝ≥0∞) (l : Pos ℝ d → ℝ), Measurable l → ν = Z • targetMeasure l → Z ≠ ∞ := by
    rintro ν _ Z l hl h rfl
    have e : ν Set.univ = 1 := measure_univ
    rw [h, Measure.smul_apply, smul_eq_mul] at e
    by_cases h0 : targetMeasure l Set.univ = 0
    · rw [h0] at e; simp at e
    · rw [ENNReal.top_mul h0] at e; simp at e
  have a0 := one μ a f ha
  have b0 := one q b g hb
  have aT := top μ a f hf ha
  have bT := top q b g hg hb
  have ca : 0 < a.toReal := ENNReal.toReal_pos a0 aT
  have cb : 0 < b.toReal := ENNReal.toReal_pos b0 bT
  refine ⟨a.toReal / b.toReal, div_pos ca cb, (((hf.sub hg).exp).const_mul _), fun x => by positivity, ?_⟩
  conv_rhs => rw [hb]
  conv_lhs => rw [ha]
  have hw : Measurable fun x => ENNReal.ofReal (a.toReal / b.toReal * Real.exp (f x - g x)) := (((hf.sub hg).exp).const_mul _).ennreal_ofReal
  rw [withDensity_smul_measure, targetMeasure, targetMeasure, ← withDensity_mul _ hg.exp.ennreal_ofReal hw, ← withDensity_smul _ hf.exp.ennreal_ofReal, ← withDensity_smul _ (hg.exp.ennreal_ofReal.mul hw)]
  congr 1
  funext x
  simp only [Pi.smul_apply, Pi.mul_apply, smul_eq_mul]
  rw [← ENNReal.ofReal_toReal aT, ← ENNReal.ofReal_toReal bT, ← ENNReal.ofReal_mul (by positivity), ← ENNReal.ofReal_mul (by positivity), ← ENNReal.ofReal_mul (by positivity)]
  congr 1
  rw [Real.exp_sub]
  have := Real.exp_pos (g x)
  simp only [ENNReal.toReal_ofReal ca.le, ENNReal.toReal_ofReal cb.le]
  field_simp

theorem flowRate_eq (t : Target ℝ D d) (data : Data D) (μ q : Measure (Pos ℝ d)) [IsProbabilityMeasure μ] [IsProbabilityMeasure q] (lnf : Pos ℝ d → ℝ) (c : ℝ) (hc : 0 < c)
    (hw : DensityOf μ q fun x => c * Real.exp (t.val x data - lnf x)) : flowRate t data lnf q μ = minRate q fun x => c * Real.exp (t.val x data - lnf x) := by
  unfold flowRate minRate
  rw [hw.integral]
  refine integral_congr_ae (ae_of_all _ fun x => ?_)
  simp only
  rw [← integral_const_mul]
  refine integral_congr_ae (ae_of_all _ fun y => ?_)
  simp only [flowAcceptAt]
  have hp : 0 < c * Real.exp (t.val x data - lnf x) := by positivity
  rw [mul_min_of_nonneg _ _ hp.le, mul_one]
  congr 1
  rw [Real.exp_sub, Real.exp_sub]
  have := Real.exp_pos (lnf x)
  have := Real.exp_pos (lnf y)
  have := Real.exp_pos (t.val x data)
  field_simp

/-- **C107 (a high rate certifies the flow).** No probability under the flow differs from the one under the target by more than one minus the stationary acceptance rate of the flow's proposals. -/
theorem C107_certificate (t : Target ℝ D d) (data : Data D) (hm : Measurable fun x => t.val x data) (μ q : Measure (Pos ℝ d)) [IsProbabilityMeasure μ] [IsProbabilityMeasure q]
    (hμ : SamplesFrom μ fun x => t.val x data) (lnf : Pos ℝ d → ℝ) (hl : Measurable lnf) (hq : SamplesFrom q lnf) (A : Set (Pos ℝ d)) (hA : MeasurableSet A) :
    |μ.real A - q.real A| ≤ 1 - flowRate t data lnf q μ := by
  obtain ⟨c, hc, hw⟩ := density_of_logs μ q _ lnf hm hl hμ hq
  rw [flowRate_eq t data μ q lnf c hc hw]
  exact hw.tv_le hA

/-- **C107 (a good flow is accepted).** If no probability under the flow exceeds the one under the target by more than `ε ≤ 1`, the stationary acceptance rate is at least `(1 - ε)²`. -/
theorem C107_good_flow (t : Target ℝ D d) (data : Data D) (hm : Measurable fun x => t.val x data) (μ q : Measure (Pos ℝ d)) [IsProbabilityMeasure μ] [IsProbabilityMeasure q]
    (hμ : SamplesFrom μ fun x => t.val x data) (lnf : Pos ℝ d → ℝ) (hl : Measurable lnf) (hq : SamplesFrom q lnf) (ε : ℝ) (hε : ε ≤ 1)
    (htv : ∀ A, MeasurableSet A → |μ.real A - q.real A| ≤ ε) : (1 - ε) ^ 2 ≤ flowRate t data lnf q μ := by
  obtain ⟨c, hc, hw⟩ := density_of_logs μ q _ lnf hm hl hμ hq
  rw [flowRate_eq t data μ q lnf c hc hw]
  exact hw.le_minRate ε hε fun A hA => by have := abs_le.1 (htv A hA); linarith

/-- **C107 (perfect flows).** The stationary acceptance rate is one exactly when the flow's distribution is the target. -/
theorem C107_perfect (t : Target ℝ D d) (data : Data D) (hm : Measurable fun x => t.val x data) (μ q : Measure (Pos ℝ d)) [IsProbabilityMeasure μ] [IsProbabilityMeasure q]
    (hμ : SamplesFrom μ fun x => t.val x data) (lnf : Pos ℝ d → ℝ) (hl : Measurable lnf) (hq : SamplesFrom q lnf) : flowRate t data lnf q μ = 1 ↔ q = μ := by
  constructor
  · intro h
    ext A hA
    have := C107_certificate t data hm μ q hμ lnf hl hq A hA
    rw [h, sub_self, abs_nonpos_iff, sub_eq_zero] at this
    exact ((measureReal_eq_measureReal_iff).1 this).symm
  · rintro rfl
    refine le_antisymm ?_ ?_
    · have := (abs_nonneg _).trans (C107_certificate t data hm q q hμ lnf hl hq ∅ MeasurableSet.empty)
      linarith
    · have := C107_good_flow t data hm q q hμ lnf hl hq 0 zero_le_one fun A _ => by simp
      simpa using this

/-- **C107 (close log-densities).** If the flow's log-density differs from the target's by at most `δ`, up to a constant, the stationary acceptance rate is at least `exp(-2δ)`. -/
theorem C107_close (t : Target ℝ D d) (data : Data D) (hm : Measurable fun x => t.val x data) (μ q : Measure (Pos ℝ d)) [IsProbabilityMeasure μ] [IsProbabilityMeasure q]
    (lnf : Pos ℝ d → ℝ) (hl : Measurable lnf) (a δ : ℝ) (hclose : ∀ x, |lnf x - t.val x data - a| ≤ δ) : Real.exp (-(2 * δ)) ≤ flowRate t data lnf q μ := by
  have hb : ∀ x y, Real.exp (-(2 * δ)) ≤ flowAcceptAt t data lnf y x ∧ flowAcceptAt t data lnf y x ≤ 1 := by
    intro x y
    refine ⟨le_min ?_ ?_, min_le_left _ _⟩
    · have : 0 ≤ δ := (abs_nonneg _).trans (hclose x)
      exact Real.exp_le_one_iff.2 (by linarith)
    · rw [← Real.exp_add, ← Real.exp_add, ← Real.exp_sub, Real.exp_le_exp]
      have h1 := abs_le.1 (hclose x)
      have h2 := abs_le.1 (hclose y)
      linarith
  have hmeas : Measurable fun p : Pos ℝ d × Pos ℝ d => flowAcceptAt t data lnf p.2 p.1 := by
    unfold flowAcceptAt
    exact measurable_const.min (((hm.comp measurable_snd).exp.mul (hl.comp measurable_fst).exp).div ((hm.comp measurable_fst).exp.mul (hl.comp measurable_snd).exp))
  have hi : ∀ x, Integrable (fun y => flowAcceptAt t data lnf y x) q := fun x =>
    (integrable_const (1 : ℝ)).mono (hmeas.comp measurable_prodMk_left).aestronglyMeasurable
      (ae_of_all _ fun y => by rw [Real.norm_of_nonneg ((Real.exp_pos _).le.trans (hb x y).1)]; simpa using (hb x y).2)
  have h1 : ∀ x, Real.exp (-(2 * δ)) ≤ ∫ y, flowAcceptAt t data lnf y x ∂q := fun x => by
    have := integral_mono (integrable_const (Real.exp (-(2 * δ)))) (hi x) fun y => (hb x y).1
    simpa using this
  have h2 : ∀ x, ∫ y, flowAcceptAt t data lnf y x ∂q ≤ 1 := fun x => by
    have := integral_mono (hi x) (integrable_const (1 : ℝ)) fun y => (hb x y).2
    simpa using this
  have hI : Integrable (fun x => ∫ y, flowAcceptAt t data lnf y x ∂q) μ :=
    (integrable_const (1 : ℝ)).mono (hmeas.stronglyMeasurable.integral_prod_right (ν := q)).aestronglyMeasurable
      (ae_of_all _ fun x => by rw [Real.norm_of_nonneg ((Real.exp_pos _).le.trans (h1 x))]; simpa using h2 x)
  have := integral_mono (integrable_const (Real.exp (-(2 * δ)))) hI h1
  simpa [flowRate] using this

/-- **C107 (what the buffers show).** A stepper that uses flow proposals is used for one long call, from any start and after any calls of exact strategies.  The acceptance flags it records average, up to `δ` and except
with probability `ε`, to a number `R` with: no probability under the flow differs from the one under the target by more than `1 - R`; and if they all differ by at most `η ≤ 1` then `R` is at least `(1 - η)²`. -/
theorem C107_recorded [BufNum ℝ] (k : Key) (h : IdealOn (Desc k) past sig P env) (r0 : String → Option (Resource ℝ D d M O)) (data : Data D) (μ : Measure (Pos ℝ d)) [IsProbabilityMeasure μ]
    (h1 : (BufNum.ofBool true : ℝ) = 1) (h0 : (BufNum.ofBool false : ℝ) = 0)
    (strats : String → Option (Strategy ℝ D d M O)) (names : List String) (hs : ∀ name ∈ names, ∀ s, strats name = some s → ExactStrategy (Desc k) P sig env r0 data μ s)
    (s : TakeSteps) (hk : s.kind = .group) (m : M) (b : ℕ) (hb : 0 < b) (hkr : r0 s.kernelName = some (.kernel (.nf m b))) (lr : Resource ℝ D d M O) (hlr : r0 s.logpdfName = some lr)
    (t : Target ℝ D d) (ht : lr.target? = some t) (hn : IgnoresNSteps t) (hm : Measurable fun x => t.val x data) (hμ : SamplesFrom μ fun x => t.val x data)
    (q : Measure (Pos ℝ d)) [IsProbabilityMeasure q] (lnf : Pos ℝ d → ℝ) (hl : Measurable lnf) (hf : IdealFlowOn (Desc k) P sig env m q lnf)
    (X : Ω → Pos ℝ d) (hXm : Measurable[past] X) :
    ∃ R : ℝ, (∀ A, MeasurableSet A → |μ.real A - q.real A| ≤ 1 - R) ∧
      (∀ η ≤ 1, (∀ A, MeasurableSet A → |μ.real A - q.real A| ≤ η) → (1 - η) ^ 2 ≤ R) ∧
      ∀ δ > 0, ∀ ε > 0, ∃ L, ∀ N, L ≤ ceilDiv' N s.thinning → AcceptanceAfter env P r0 data strats names k X R δ ε { s with nSteps := N } (ceilDiv' N s.thinning) :=
  ⟨flowRate t data lnf q μ, fun A hA => C107_certificate t data hm μ q hμ lnf hl hf.density A hA, fun η hη hA => C107_good_flow t data hm μ q hμ lnf hl hf.density η hη hA,
    fun δ hδ ε hε => C104_flow k h r0 data μ h1 h0 strats names hs s hk m b hb hkr lr hlr t ht hn hm hμ q lnf hl hf X hXm δ ε hδ hε⟩

end FlowMC
