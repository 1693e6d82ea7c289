import Verif.Props.ConvergeRun
import Mathlib.MeasureTheory.Integral.Layercake
/-
C71: geometric convergence at an explicit rate, when the flow covers the target.
-/
open MeasureTheory ProbabilityTheory
open scoped ENNReal
set_option linter.unusedSectionVars false
namespace FlowMC
open Spec

/-! ### a step with a minorising part contracts -/

section
variable {X N : Type} [MeasurableSpace X] [MeasurableSpace N] {ν : Measure N} [IsProbabilityMeasure ν] {step : N → X → X}

/-- Means of functions with values in `[0, c]` differ by at most `c` times what probabilities differ by. -/
theorem lintegral_le_of_near {μ π : Measure X} {δ : ℝ≥0∞} (h : ∀ A, MeasurableSet A → μ A ≤ π A + δ) (g : X → ℝ) (hg : Measurable g) (c : ℝ) (h0 : ∀ x, 0 ≤ g x)
    (hc : ∀ x, g x ≤ c) : ∫⁻ x, ENNReal.ofReal (g x) ∂μ ≤ ∫⁻ x, ENNReal.ofReal (g x) ∂π + ENNReal.ofReal c * δ := by
  rw [lintegral_eq_lintegral_meas_le μ (ae_of_all _ h0) hg.aemeasurable, lintegral_eq_lintegral_meas_le π (ae_of_all _ h0) hg.aemeasurable]
  have hpt : ∀ t : ℝ, μ {a | t ≤ g a} ≤ π {a | t ≤ g a} + (Set.Iic c).indicator (fun _ => δ) t := by
    intro t
    by_cases ht : t ≤ c
    · rw [Set.indicator_of_mem (show t ∈ Set.Iic c from ht)]
      exact h _ (measurableSet_le measurable_const hg)
    · have : {a | t ≤ g a} = ∅ := by
        ext a; simp only [Set.mem_setOf_eq, Set.mem_empty_iff_false, iff_false]
        intro h'; exact ht (h'.trans (hc a))
      rw [this]; simp
  calc ∫⁻ t in Set.Ioi 0, μ {a | t ≤ g a} ≤ ∫⁻ t in Set.Ioi 0, (π {a | t ≤ g a} + (Set.Iic c).indicator (fun _ => δ) t) := lintegral_mono fun t => hpt t
    _ = (∫⁻ t in Set.Ioi (0 : ℝ), π {a | t ≤ g a}) + ∫⁻ t in Set.Ioi (0 : ℝ), (Set.Iic c).indicator (fun _ => δ) t :=
      lintegral_add_right _ (measurable_const.indicator measurableSet_Iic)
    _ ≤ _ := by
      refine add_le_add le_rfl ?_
      rw [lintegral_indicator measurableSet_Iic, setLIntegral_const, Measure.restrict_apply measurableSet_Iic, mul_comm]
      rw [Set.inter_comm, Set.Ioi_inter_Iic, Real.volume_Ioc, sub_zero]

/-- Probability of moving from `x` into `A`. -/
noncomputable def moveProb (ν : Measure N) (step : N → X → X) (A : Set X) (x : X) : ℝ := ν.real {n | step n x ∈ A}

theorem moveProb_measurable (hm : Measurable fun p : X × N => step p.2 p.1) {A : Set X} (hA : MeasurableSet A) : Measurable (moveProb ν step A) := by
  have : Measurable fun x => ν (Prod.mk x ⁻¹' ((fun p : X × N => step p.2 p.1) ⁻¹' A)) := measurable_measure_prodMk_left (hm hA)
  exact this.ennreal_toReal

theorem stepLaw_moveProb {μ : Measure X} [SFinite μ] (hm : Measurable fun p : X × N => step p.2 p.1) {A : Set X} (hA : MeasurableSet A) :
    stepLaw ν step μ A = ∫⁻ x, ENNReal.ofReal (moveProb ν step A x) ∂μ := by
  rw [stepLaw, Measure.map_apply hm hA, Measure.prod_apply (hm hA)]
  refine lintegral_congr fun x => ?_
  rw [moveProb, ofReal_measureReal]
  rfl

theorem near_contract {μ π : Measure X} [IsProbabilityMeasure μ] [IsProbabilityMeasure π] {ε β : ℝ} (hβ0 : 0 ≤ β) (hβ : β ≤ 1) (h : Near μ π ε)
    (hm : Measurable fun p : X × N => step p.2 p.1) (hπ : stepLaw ν step π = π) (hmin : ∀ x A, MeasurableSet A → β * π.real A ≤ moveProb ν step A x) :
    Near (stepLaw ν step μ) π ((1 - β) * ε) := by
  have hε : 0 ≤ ε := le_trans (abs_nonneg _) (h ∅ MeasurableSet.empty)
  haveI : IsProbabilityMeasure (stepLaw ν step μ) := Measure.isProbabilityMeasure_map hm.aemeasurable
  intro A hA
  have hmax : ∀ x, moveProb ν step A x ≤ β * π.real A + (1 - β) := by
    intro x
    have h1 := hmin x Aᶜ hA.compl
    have hs : MeasurableSet {n | step n x ∈ A} := (hm.comp measurable_prodMk_left) hA
    have h2 : moveProb ν step Aᶜ x = 1 - moveProb ν step A x := by
      have e : {n | step n x ∈ Aᶜ} = {n | step n x ∈ A}ᶜ := rfl
      rw [moveProb, e, measureReal_compl hs, probReal_univ]; rfl
    rw [h2, measureReal_compl hA, probReal_univ] at h1
    nlinarith
  have one : ∀ (a b : Measure X) [IsProbabilityMeasure a] [IsProbabilityMeasure b], (∀ A, MeasurableSet A → a A ≤ b A + ENNReal.ofReal ε) →
      stepLaw ν step a A ≤ stepLaw ν step b A + ENNReal.ofReal ((1 - β) * ε) := by
    intro a b _ _ hab
    rw [stepLaw_moveProb hm hA, stepLaw_moveProb hm hA]
    have hg := moveProb_measurable (ν := ν) hm hA
    have hsplit : ∀ (ρ : Measure X) [IsProbabilityMeasure ρ], ∫⁻ x, ENNReal.ofReal (moveProb ν step A x) ∂ρ =
        ENNReal.ofReal (β * π.real A) + ∫⁻ x, ENNReal.ofReal (moveProb ν step A x - β * π.real A) ∂ρ := by
      intro ρ _
      have : ∀ x, ENNReal.ofReal (moveProb ν step A x) = ENNReal.ofReal (β * π.real A) + ENNReal.ofReal (moveProb ν step A x - β * π.real A) := by
        intro x
        rw [← ENNReal.ofReal_add (mul_nonneg hβ0 measureReal_nonneg) (by have := hmin x A hA; linarith)]
        congr 1; ring
      simp only [this]
      rw [lintegral_add_left measurable_const]; simp
    rw [hsplit a, hsplit b, add_assoc, ENNReal.ofReal_mul (p := 1 - β) (by linarith)]
    refine add_le_add le_rfl ?_
    exact lintegral_le_of_near hab (fun x => moveProb ν step A x - β * π.real A) (hg.sub_const _) (1 - β) (fun x => by have := hmin x A hA; linarith) (fun x => by have := hmax x; linarith)
  rw [real_close_iff (mul_nonneg (by linarith) hε)]
  conv => enter [1, 2]; rw [← hπ]
  conv => enter [2, 1]; rw [← hπ]
  exact ⟨one _ _ fun A hA => ((real_close_iff hε A).1 (h A hA)).1, one _ _ fun A hA => ((real_close_iff hε A).1 (h A hA)).2⟩

end

/-! ### flow proposals -/

section
variable {D M : Type} {d : ℕ}

theorem targetMeasure_real_pos (lp : (Fin d → ℝ) → ℝ) (hm : Measurable lp) (hfin : targetMeasure lp Set.univ ≠ ∞) : 0 < (targetMeasure lp).real Set.univ :=
  ENNReal.toReal_pos (targetMeasure_ne_zero lp hm) hfin

theorem normalised_density (lp : (Fin d → ℝ) → ℝ) (hm : Measurable lp) (hfin : targetMeasure lp Set.univ ≠ ∞) :
    normalised (targetMeasure lp) = volume.withDensity fun x => ENNReal.ofReal (density lp x) := by
  have hp := targetMeasure_real_pos lp hm hfin
  rw [normalised]
  conv_lhs => rw [targetMeasure, ← withDensity_smul _ (by fun_prop)]
  congr 1
  funext x
  rw [Pi.smul_apply, smul_eq_mul, density, ENNReal.ofReal_div_of_pos hp, measureReal_def, ENNReal.ofReal_toReal hfin, ENNReal.div_eq_inv_mul]
  rfl

/-- A probability distribution with log-density `lnf` up to a constant is the normalised one. -/
theorem samplesFrom_normalised (q : Measure (Fin d → ℝ)) [IsProbabilityMeasure q] (lnf : (Fin d → ℝ) → ℝ) (hl : Measurable lnf) (hq : SamplesFrom q lnf) :
    targetMeasure lnf Set.univ ≠ ∞ ∧ q = normalised (targetMeasure lnf) := by
  obtain ⟨Z, hZ⟩ := hq
  have h1 : Z * targetMeasure lnf Set.univ = 1 := by
    have : q Set.univ = 1 := measure_univ
    rwa [hZ] at this
  have hfin : targetMeasure lnf Set.univ ≠ ∞ := by
    intro h
    rw [h] at h1
    rcases eq_or_ne Z 0 with rfl | hz
    · simp at h1
    · rw [ENNReal.mul_top hz] at h1; simp at h1
  refine ⟨hfin, ?_⟩
  rw [normalised, ← ENNReal.eq_inv_of_mul_eq_one_left h1, hZ]

theorem flow_minorise (t : Target ℝ D d) (data : Data D) (ht : Measurable (fun x => t.val x data)) (lnf : Pos ℝ d → ℝ) (hl : Measurable lnf)
    (q : Measure (Pos ℝ d)) [IsProbabilityMeasure q] (hq : SamplesFrom q lnf) (hfin : targetMeasure (fun x => t.val x data) Set.univ ≠ ∞) (C : ℝ) (hC : 0 < C)
    (hcov : ∀ x, density (fun x => t.val x data) x ≤ C * density lnf x) (x : Pos ℝ d) (A : Set (Pos ℝ d)) (hA : MeasurableSet A) :
    1 / C * (normalised (targetMeasure fun x => t.val x data)).real A ≤ moveProb (q.prod unif) (flowStep t data lnf) A x := by
  haveI := normalised_isProb _ ht hfin
  obtain ⟨hfq, eq⟩ := samplesFrom_normalised q lnf hl hq
  have hZp := targetMeasure_real_pos _ ht hfin
  have hZq := targetMeasure_real_pos _ hl hfq
  have hf := flow_mhData t data ht lnf hl q hq
  set α : Pos ℝ d → ℝ := fun y => min 1 (Real.exp ((t.val y data - t.val x data) - (lnf y - lnf x))) with hα
  have hαm : Measurable fun y => ENNReal.ofReal (α y) := by
    have := hl; have := ht
    simp only [hα]; fun_prop
  -- accepted proposals in A
  have hstep : ∫⁻ y in A, ENNReal.ofReal (α y) ∂q ≤ (q.prod unif) {n | flowStep t data lnf n x ∈ A} := by
    have hs : MeasurableSet {n : Pos ℝ d × ℝ | flowStep t data lnf n x ∈ A} := by
      have := hf.meas.comp (measurable_prodMk_left (x := x))
      exact this hA
    rw [Measure.prod_apply hs, ← lintegral_indicator hA]
    refine lintegral_mono fun y => ?_
    by_cases hy : y ∈ A
    · rw [Set.indicator_of_mem hy]
      have := C21_accept_probability ((t.val y data - t.val x data) - (lnf y - lnf x))
      simp only [hα]
      rw [← this]
      refine measure_mono fun u hu => ?_
      simp only [Set.mem_preimage, Set.mem_setOf_eq] at hu ⊢
      rw [hf.eq, if_pos hu]; exact hy
    · rw [Set.indicator_of_notMem hy]; exact zero_le
  have hdens : ENNReal.ofReal (1 / C) * (normalised (targetMeasure fun x => t.val x data)) A ≤ ∫⁻ y in A, ENNReal.ofReal (α y) ∂q := by
    have e1 := normalised_density _ ht hfin
    have e2 := normalised_density lnf hl hfq
    have hdm : Measurable fun y => ENNReal.ofReal (density lnf y) := by unfold density; fun_prop
    have hdp : Measurable fun y => ENNReal.ofReal (density (fun x => t.val x data) y) := by unfold density; fun_prop
    rw [eq, e1, e2, withDensity_apply _ hA, restrict_withDensity hA, lintegral_withDensity_eq_lintegral_mul _ hdm hαm, ← lintegral_const_mul _ hdp]
    refine lintegral_mono fun y => ?_
    simp only [Pi.mul_apply]
    have hd0 : ∀ (f : Pos ℝ d → ℝ) y, 0 ≤ density f y := fun f y => div_nonneg (Real.exp_pos _).le measureReal_nonneg
    rw [← ENNReal.ofReal_mul (by positivity), ← ENNReal.ofReal_mul (hd0 _ _)]
    refine ENNReal.ofReal_le_ofReal ?_
    simp only [hα]
    rw [mul_min_of_nonneg _ _ (hd0 _ _), mul_one, le_min_iff]
    constructor
    · rw [one_div, inv_mul_le_iff₀ hC]; exact hcov y
    · have hx := hcov x
      unfold density at hx ⊢
      rw [show t.val y data - t.val x data - (lnf y - lnf x) = t.val y data - lnf y - (t.val x data - lnf x) by ring, Real.exp_sub, Real.exp_sub, Real.exp_sub]
      have p1 := Real.exp_pos (t.val x data); have p2 := Real.exp_pos (t.val y data); have p3 := Real.exp_pos (lnf x); have p4 := Real.exp_pos (lnf y)
      have hx' : Real.exp (t.val x data) * (targetMeasure lnf).real Set.univ ≤ C * Real.exp (lnf x) * (targetMeasure fun x => t.val x data).real Set.univ := by
        rw [div_le_iff₀ hZp] at hx
        calc _ ≤ (C * (Real.exp (lnf x) / (targetMeasure lnf).real Set.univ) * (targetMeasure fun x => t.val x data).real Set.univ) * (targetMeasure lnf).real Set.univ :=
              mul_le_mul_of_nonneg_right hx hZq.le
          _ = _ := by field_simp
      have e : Real.exp (lnf y) / (targetMeasure lnf).real Set.univ * (Real.exp (t.val y data) / Real.exp (lnf y) / (Real.exp (t.val x data) / Real.exp (lnf x))) =
          Real.exp (t.val y data) * Real.exp (lnf x) / ((targetMeasure lnf).real Set.univ * Real.exp (t.val x data)) := by field_simp
      rw [e, one_div, inv_mul_eq_div, div_div, div_le_div_iff₀ (by positivity) (by positivity)]
      calc _ = Real.exp (t.val y data) * (Real.exp (t.val x data) * (targetMeasure lnf).real Set.univ) := by ring
        _ ≤ Real.exp (t.val y data) * (C * Real.exp (lnf x) * (targetMeasure fun x => t.val x data).real Set.univ) := mul_le_mul_of_nonneg_left hx' p2.le
        _ = _ := by ring
  have hall := hdens.trans hstep
  rw [← ENNReal.toReal_le_toReal (ENNReal.mul_ne_top ENNReal.ofReal_ne_top (measure_ne_top _ _)) (measure_ne_top _ _), ENNReal.toReal_mul, ENNReal.toReal_ofReal (by positivity)] at hall
  exact hall

end

/-! ### convergence at a rate -/

section
variable {X : Type} [MeasurableSpace X]

theorem near_one (μ π : Measure X) [IsProbabilityMeasure μ] [IsProbabilityMeasure π] : Near μ π 1 := by
  intro A _
  rw [abs_le]
  have := measureReal_le_one (μ := μ) (s := A); have := measureReal_le_one (μ := π) (s := A)
  have := measureReal_nonneg (μ := μ) (s := A); have := measureReal_nonneg (μ := π) (s := A)
  constructor <;> linarith

theorem Near.mono {μ π : Measure X} {ε ε' : ℝ} (h : Near μ π ε) (hε : ε ≤ ε') : Near μ π ε' := fun A hA => (h A hA).trans hε

/-- Every flow proposal contracts, no local step expands. -/
theorem histLaw_rate {loc glob : Measure X → Measure X} {π : Measure X} [IsProbabilityMeasure π] {ρ : ℝ}
    (hl : ∀ μ ε, IsProbabilityMeasure μ → IsProbabilityMeasure (loc μ) ∧ (Near μ π ε → Near (loc μ) π ε))
    (hg : ∀ μ ε, IsProbabilityMeasure μ → IsProbabilityMeasure (glob μ) ∧ (Near μ π ε → Near (glob μ) π (ρ * ε))) (h : List Bool) (μ : Measure X) (hμ : IsProbabilityMeasure μ) :
    IsProbabilityMeasure (histLaw loc glob h μ) ∧ Near (histLaw loc glob h μ) π (ρ ^ h.count false) := by
  induction h with
  | nil => exact ⟨hμ, by simpa [histLaw] using near_one μ π⟩
  | cons b h ih =>
    cases b
    · refine ⟨(hg _ 1 ih.1).1, ?_⟩
      rw [List.count_cons_self, pow_succ, mul_comm]
      exact (hg _ _ ih.1).2 ih.2
    · refine ⟨(hl _ 1 ih.1).1, ?_⟩
      rw [List.count_cons_of_ne (by decide)]
      exact (hl _ _ ih.1).2 ih.2

end

variable {Ω D M O V : Type} {d : ℕ}

theorem flow_contract (t : Target ℝ D d) (data : Data D) (ht : Measurable (fun x => t.val x data)) (lnf : Pos ℝ d → ℝ) (hl : Measurable lnf)
    (q : Measure (Pos ℝ d)) [IsProbabilityMeasure q] (hq : SamplesFrom q lnf) (hfin : targetMeasure (fun x => t.val x data) Set.univ ≠ ∞) (C : ℝ) (hC : 1 ≤ C)
    (hcov : ∀ x, density (fun x => t.val x data) x ≤ C * density lnf x) (μ : Measure (Pos ℝ d)) (ε : ℝ) (hμ : IsProbabilityMeasure μ) :
    IsProbabilityMeasure (stepLaw (q.prod unif) (flowStep t data lnf) μ) ∧
    (Near μ (normalised (targetMeasure fun x => t.val x data)) ε → Near (stepLaw (q.prod unif) (flowStep t data lnf) μ) (normalised (targetMeasure fun x => t.val x data)) ((1 - 1 / C) * ε)) := by
  haveI := normalised_isProb _ ht hfin
  have hf := flow_mhData t data ht lnf hl q hq
  refine ⟨Measure.isProbabilityMeasure_map hf.meas.aemeasurable, fun h => ?_⟩
  exact near_contract (by positivity) (by rw [div_le_one (by linarith)]; exact hC) h hf.meas (hf.reversible.invariant hf.meas)
    (fun x A hA => flow_minorise t data ht lnf hl q hq hfin C (by linarith) hcov x A hA)

theorem local_nonexpand (kr : KernelRes ℝ d M) (hk : ExactSettings kr) (t : Target ℝ D d) (data : Data D) (ht : Measurable (fun x => t.val x data)) (hg : Measurable (fun x => t.grad x data))
    (hfin : targetMeasure (fun x => t.val x data) Set.univ ≠ ∞) (μ : Measure (Pos ℝ d)) (ε : ℝ) (hμ : IsProbabilityMeasure μ) :
    IsProbabilityMeasure (stepLaw (noise d) (localStep kr t data) μ) ∧
    (Near μ (normalised (targetMeasure fun x => t.val x data)) ε → Near (stepLaw (noise d) (localStep kr t data) μ) (normalised (targetMeasure fun x => t.val x data)) ε) := by
  haveI := normalised_isProb _ ht hfin
  haveI : IsProbabilityMeasure (noise d) := by unfold noise; infer_instance
  haveI : SFinite (targetMeasure fun x => t.val x data) := by unfold targetMeasure; infer_instance
  have hm := localStep_measurable kr t data ht hg
  have hr : Reversible (normalised (targetMeasure fun x => t.val x data)) (noise d) (localStep kr t data) := (localStep_reversible kr hk t data ht hg).smul _
  exact ⟨Measure.isProbabilityMeasure_map hm.aemeasurable, fun h => near_step h hm (hr.invariant hm)⟩

/-- **C71**, flow proposals: if the density of the flow is everywhere at least `1/C` times the density of the target, then after `n` flow proposals, from every start, all
probabilities are within `(1 - 1/C)ⁿ` of those under the target. -/
theorem C71_flow (t : Target ℝ D d) (data : Data D) (ht : Measurable (fun x => t.val x data)) (lnf : Pos ℝ d → ℝ) (hl : Measurable lnf)
    (q : Measure (Pos ℝ d)) [IsProbabilityMeasure q] (hq : SamplesFrom q lnf) (hfin : targetMeasure (fun x => t.val x data) Set.univ ≠ ∞) (C : ℝ) (hC : 1 ≤ C)
    (hcov : ∀ x, density (fun x => t.val x data) x ≤ C * density lnf x) (μ : Measure (Pos ℝ d)) [IsProbabilityMeasure μ] (n : ℕ) (A : Set (Pos ℝ d)) (hA : MeasurableSet A) :
    |((stepLaw (q.prod unif) fun ω x => (nfBody ω.2 ⟨x, t.val x data, lnf x⟩ (ω.1, t.val ω.1 data, lnf ω.1)).2.pos)^[n] μ).real A -
      (normalised (targetMeasure fun x => t.val x data)).real A| ≤ (1 - 1 / C) ^ n := by
  haveI := normalised_isProb _ ht hfin
  have := (histLaw_rate (loc := id) (fun μ ε h => ⟨h, id⟩) (flow_contract t data ht lnf hl q hq hfin C hC hcov) (List.replicate n false) μ inferInstance).2 A hA
  rwa [histLaw_global, List.count_replicate_self] at this

/-- **C71**, alternating with local steps of any exact kernel (random walk, MALA, HMC with a diagonal mass matrix) in any order: only the number of flow proposals counts. -/
theorem C71_alternating (kr : KernelRes ℝ d M) (hk : ExactSettings kr) (t : Target ℝ D d) (data : Data D) (ht : Measurable (fun x => t.val x data)) (hg : Measurable (fun x => t.grad x data))
    (lnf : Pos ℝ d → ℝ) (hl : Measurable lnf) (q : Measure (Pos ℝ d)) [IsProbabilityMeasure q] (hq : SamplesFrom q lnf)
    (hfin : targetMeasure (fun x => t.val x data) Set.univ ≠ ∞) (C : ℝ) (hC : 1 ≤ C) (hcov : ∀ x, density (fun x => t.val x data) x ≤ C * density lnf x)
    (μ : Measure (Pos ℝ d)) [IsProbabilityMeasure μ] (L G n : ℕ) (A : Set (Pos ℝ d)) (hA : MeasurableSet A) :
    |((fun μ => (stepLaw (q.prod unif) (flowStep t data lnf))^[G] ((stepLaw (noise d) (localStep kr t data))^[L] μ))^[n] μ).real A -
      (normalised (targetMeasure fun x => t.val x data)).real A| ≤ (1 - 1 / C) ^ (n * G) := by
  haveI := normalised_isProb _ ht hfin
  have key : ∀ n, ∃ h : List Bool, h.count false = n * G ∧ histLaw (stepLaw (noise d) (localStep kr t data)) (stepLaw (q.prod unif) (flowStep t data lnf)) h μ =
      (fun μ => (stepLaw (q.prod unif) (flowStep t data lnf))^[G] ((stepLaw (noise d) (localStep kr t data))^[L] μ))^[n] μ := by
    intro n
    induction n with
    | zero => exact ⟨[], by simp, rfl⟩
    | succ n ih =>
      obtain ⟨h, h1, h2⟩ := ih
      refine ⟨List.replicate G false ++ (List.replicate L true ++ h), ?_, ?_⟩
      · rw [List.count_append, List.count_append, h1, List.count_replicate_self, List.count_eq_zero.2 (by simp [List.mem_replicate])]; ring
      · rw [histLaw_append, histLaw_append, histLaw_global, histLaw_local, h2, Function.iterate_succ_apply' _ n]
  obtain ⟨h, h1, h2⟩ := key n
  have := (histLaw_rate (local_nonexpand kr hk t data ht hg hfin) (flow_contract t data ht lnf hl q hq hfin C hC hcov) h μ inferInstance).2 A hA
  rwa [h1, h2] at this

theorem count_loopsSteps {R : Type} (c : BundleCfg R D d M O) (l : ℕ) : (loopsSteps c l).count false = l * ((rowsPerCall c false - 1) * c.globalThin + 1) := by
  induction l with
  | zero => simp [loopsSteps]
  | succ l ih =>
    rw [loopsSteps, loopSteps, List.count_append, List.count_append, ih, List.count_replicate_self, List.count_eq_zero.2 (by simp [List.mem_replicate])]; ring

variable [BufNum ℝ]
variable {past : MeasurableSpace Ω} {sig : Key → MeasurableSpace Ω} [mΩ : MeasurableSpace Ω] {P : Measure Ω} [IsProbabilityMeasure P] {env : Ω → Env ℝ D d M O} {T : Key → Prop}

/-- **C71 (production phase).** A run of `RQSpline_MALA_Bundle` in an ideal random world.  Suppose that when training is over (`w ω`) the random key is `k`, the flow in the global sampler is `m`, whose
density is everywhere at least `1/C` times the density of the target, and the positions of the chains are anything determined by what happened before.  Then row `j` of the production
position buffer has the target distribution up to `(1 - 1/C)^(G * loops)`, where `loops` is the number of production loops completed before row `j` and `G` the number of flow proposals up to the last recorded
one of a loop. -/
theorem C71_production (k : Key) (h : IdealOn (Desc k) past sig P env) (c : BundleCfg ℝ D d M O) (data : Data D) (m : M) (q : Measure (Pos ℝ d)) (lnf : Pos ℝ d → ℝ)
    (hE : MixingBundle (Desc k) P sig env c data m q lnf) (C : ℝ) (hC : 1 ≤ C) (hcov : ∀ x, density (fun x => c.logpdf.val x data) x ≤ C * density lnf x)
    (key : Ω → Key) (xs : Ω → List (Pos ℝ d)) (hx : ∀ ω, (xs ω).length = c.nChains) (w w' : Ω → World ℝ D d M O)
    (htrain : ∀ ω, Completes (env ω) (malaBundle c).strategies.lookup data (repeatPhase c.nTrainLoops trainingPhase ++ ["reset_steppers", "update_state"])
      ⟨key ω, xs ω, ⟨(malaBundle c).resources, fun _ => 0⟩⟩ (w ω))
    (hkey : ∀ ω, (w ω).key = k) (hflow : ∀ ω, (w ω).heap.res "global_sampler" = some (.kernel (.nf m c.nfBatch)))
    (hstart : ∀ i < c.nChains, ∃ X : Ω → Pos ℝ d, (∀ ω, (w ω).xs[i]? = some (X ω)) ∧ Measurable[past] X)
    (hprod : ∀ ω, Completes (env ω) (malaBundle c).strategies.lookup data (repeatPhase c.nProdLoops productionPhase) (w ω) (w' ω)) :
    ∀ i < c.nChains, ∀ j < c.nProdSteps, ∃ Y : Ω → Pos ℝ d, Measurable Y ∧
      CloseInLaw P Y (normalised (targetMeasure fun x => c.logpdf.val x data))
        ((1 - 1 / C) ^ (((c.nGlobal / c.globalThin - 1) * c.globalThin + 1) * (j / (c.nLocal / c.localThin + c.nGlobal / c.globalThin)))) ∧
      ∀ ω, ∃ b, (w' ω).heap.res "positions_production" = some (.buffer b) ∧ ∀ a : Fin d, b.data.get [i, j, a] = Y ω a := by
  haveI := hE.prob
  haveI := normalised_isProb _ hE.meas hE.finite
  have hX : ∀ i, ∃ ρ : Measure (Pos ℝ d), IsProbabilityMeasure ρ ∧ (i < c.nChains → ∃ X : Ω → Pos ℝ d, (∀ ω, (w ω).xs[i]? = some (X ω)) ∧ Measurable[past] X ∧ P.map X = ρ) := by
    intro i
    by_cases hi : i < c.nChains
    · obtain ⟨X, h1, h2⟩ := hstart i hi
      have hX' : Measurable[mΩ] X := h2.mono (le_trans (past_le_info (past := past) (sig := sig) (S := {none}) (by simp)) (h.info_le _)) le_rfl
      exact ⟨P.map X, Measure.isProbabilityMeasure_map hX'.aemeasurable, fun _ => ⟨X, h1, h2, rfl⟩⟩
    · exact ⟨normalised (targetMeasure fun x => c.logpdf.val x data), inferInstance, fun h => absurd h hi⟩
  choose μ hμ hs using hX
  intro i hi j hj
  obtain ⟨Y, hm, ⟨i', hi', pre, hl⟩, hc⟩ := production_hist k h c data m q lnf hE μ key xs hx w w' htrain hkey hflow (fun i hi => hs i hi) hprod i hi j hj
  refine ⟨Y, hm, closeInLaw_of_near hm ?_, hc⟩
  rw [hl]
  have h0 : 0 ≤ 1 - 1 / C := by rw [sub_nonneg, div_le_one (by linarith)]; exact hC
  have h1 : 1 - 1 / C ≤ 1 := by have : 0 < 1 / C := by positivity
                                linarith
  refine (histLaw_rate (local_nonexpand (.mala c.stepSize : KernelRes ℝ d M) hE.step c.logpdf data hE.meas hE.gradMeas hE.finite)
    (flow_contract c.logpdf data hE.meas lnf hE.lnfMeas q hE.flow.density hE.finite C hC hcov) _ (μ i') (hμ i')).2.mono ?_
  refine pow_le_pow_of_le_one h0 h1 ?_
  rw [List.count_append, count_loopsSteps, mul_comm]
  exact Nat.le_add_left _ _

/-- **C71 (given the training phase).** A whole run — training and production — in an ideal random world, given any event `E` of positive probability, decided before production, on which training
ended with the flow `m` in the global sampler. -/
theorem C71_given_training (h : IdealDraws past sig P env) (c : BundleCfg ℝ D d M O) (data : Data D) (m : M) (q : Measure (Pos ℝ d)) (lnf : Pos ℝ d → ℝ)
    (hB : MixingBundle (fun _ => True) P sig env c data m q lnf) (C : ℝ) (hC : 1 ≤ C) (hcov : ∀ x, density (fun x => c.logpdf.val x data) x ≤ C * density lnf x)
    (key : Key) (xs : Ω → List (Pos ℝ d)) (hx : ∀ ω, (xs ω).length = c.nChains) (w w' : Ω → World ℝ D d M O) (k : Key) (E : Set Ω) (hE : MeasurableSet[before past sig k] E) (hP : P E ≠ 0)
    (htrain : ∀ ω ∈ E, Completes (env ω) (malaBundle c).strategies.lookup data (repeatPhase c.nTrainLoops trainingPhase ++ ["reset_steppers", "update_state"])
      ⟨key, xs ω, ⟨(malaBundle c).resources, fun _ => 0⟩⟩ (w ω))
    (hkey : ∀ ω ∈ E, (w ω).key = k) (hflow : ∀ ω ∈ E, (w ω).heap.res "global_sampler" = some (.kernel (.nf m c.nfBatch)))
    (hstart : ∀ i < c.nChains, ∃ X : Ω → Pos ℝ d, (∀ ω ∈ E, (w ω).xs[i]? = some (X ω)) ∧ Measurable[before past sig k] X)
    (hprod : ∀ ω ∈ E, Completes (env ω) (malaBundle c).strategies.lookup data (repeatPhase c.nProdLoops productionPhase) (w ω) (w' ω)) :
    ∀ i < c.nChains, ∀ j < c.nProdSteps, ∃ Y : E → Pos ℝ d, Measurable Y ∧
      CloseInLaw (condOn P E) Y (normalised (targetMeasure fun x => c.logpdf.val x data))
        ((1 - 1 / C) ^ (((c.nGlobal / c.globalThin - 1) * c.globalThin + 1) * (j / (c.nLocal / c.localThin + c.nGlobal / c.globalThin)))) ∧
      ∀ ω : E, ∃ b, (w' ω).heap.res "positions_production" = some (.buffer b) ∧ ∀ a : Fin d, b.data.get [i, j, a] = Y ω a := by
  have hE' : MeasurableSet E := before_le h k E hE
  have hI := idealOn_cond h k (fun _ _ => trivial) hE hP
  haveI : IsProbabilityMeasure (condOn P E) := by
    constructor
    have := condOn_apply (P := P) hE' MeasurableSet.univ
    rw [Set.preimage_univ] at this
    rw [this]
    exact (cond_isProbabilityMeasure hP).measure_univ
  have hEB : MixingBundle (Desc k) (condOn P E) (fun a => (after sig k a).comap Subtype.val) (fun ω : E => env ω) c data m q lnf :=
    ⟨hB.good, hB.step, hB.meas, hB.gradMeas, hB.ignores, hB.finite, hB.prob, hB.lnfMeas, idealFlow_cond h k (fun _ _ => trivial) hE hP m q lnf hB.flow⟩
  refine C71_production k hI c data m q lnf hEB C hC hcov (fun _ => key) (fun ω : E => xs ω) (fun ω => hx ω) (fun ω : E => w ω) (fun ω : E => w' ω)
    (fun ω => htrain ω ω.2) (fun ω => hkey ω ω.2) (fun ω => hflow ω ω.2) ?_ (fun ω => hprod ω ω.2)
  intro i hi
  obtain ⟨X, h1, h2⟩ := hstart i hi
  exact ⟨fun ω : E => X ω, fun ω => h1 ω ω.2, h2.comp (comap_measurable _)⟩

end FlowMC
