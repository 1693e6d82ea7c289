import Verif.Props.Doeblin
import Verif.Lemmas.ErrorBars
/-
Distributions that contain a multiple of the target.
-/
open MeasureTheory ProbabilityTheory
open scoped ENNReal
set_option linter.unusedSectionVars false
namespace FlowMC
open Spec

section
variable {X N : Type} [MeasurableSpace X] [MeasurableSpace N] {ν : Measure N} [IsProbabilityMeasure ν] {step : N → X → X}

/-- `μ` gives every region at least `a` times the probability it has under `π`. -/
def Covered (μ π : Measure X) (a : ℝ) : Prop := ∀ A, MeasurableSet A → a * π.real A ≤ μ.real A

theorem Covered.integral {μ π : Measure X} [IsProbabilityMeasure μ] [IsProbabilityMeasure π] {a : ℝ} (h : Covered μ π a) (ha : 0 ≤ a) {g : X → ℝ} (hg : Measurable g) (h0 : ∀ x, 0 ≤ g x) {K : ℝ}
    (hK : ∀ x, g x ≤ K) : a * ∫ x, g x ∂π ≤ ∫ x, g x ∂μ := by
  have hle : ENNReal.ofReal a • π ≤ μ := by
    rw [Measure.le_iff]
    intro s hs
    rw [Measure.smul_apply, smul_eq_mul, ← ofReal_measureReal (μ := π) (s := s), ← ofReal_measureReal (μ := μ) (s := s), ← ENNReal.ofReal_mul ha]
    exact ENNReal.ofReal_le_ofReal (h s hs)
  have hi : Integrable g μ := integrable_bdd hg (B := K) fun x => by rw [abs_of_nonneg (h0 x)]; exact hK x
  have := integral_mono_measure hle (ae_of_all _ h0) hi
  rwa [integral_smul_measure, ENNReal.toReal_ofReal ha, smul_eq_mul] at this

theorem stepLaw_real {μ : Measure X} [IsProbabilityMeasure μ] (hm : Measurable fun p : X × N => step p.2 p.1) {A : Set X} (hA : MeasurableSet A) :
    (stepLaw ν step μ).real A = ∫ x, moveProb ν step A x ∂μ := by
  rw [measureReal_def, stepLaw_moveProb hm hA, integral_eq_lintegral_of_nonneg_ae (f := moveProb ν step A) (ae_of_all _ fun x => measureReal_nonneg) (moveProb_measurable hm hA).aestronglyMeasurable]

theorem moveProb_mem (A : Set X) (x : X) : 0 ≤ moveProb ν step A x ∧ moveProb ν step A x ≤ 1 := ⟨measureReal_nonneg, measureReal_le_one⟩

/-- A step that leaves `π` invariant keeps what is covered, and one that moves into every region with at least `β` times its probability covers more. -/
theorem covered_step {μ π : Measure X} [IsProbabilityMeasure μ] [IsProbabilityMeasure π] {a β : ℝ} (h : Covered μ π a) (ha : 0 ≤ a)
    (hm : Measurable fun p : X × N => step p.2 p.1) (hπ : stepLaw ν step π = π) (hmin : ∀ x A, MeasurableSet A → β * π.real A ≤ moveProb ν step A x) :
    Covered (stepLaw ν step μ) π (a + (1 - a) * β) := by
  intro A hA
  have hg := moveProb_measurable (ν := ν) hm hA
  have hi : ∀ (ρ : Measure X) [IsProbabilityMeasure ρ], Integrable (moveProb ν step A) ρ := fun ρ _ => integrable_bdd hg (B := 1) fun x => by
    rw [abs_of_nonneg (moveProb_mem A x).1]; exact (moveProb_mem A x).2
  have key := h.integral ha (hg.sub_const (β * π.real A)) (fun x => by have := hmin x A hA; linarith) (K := 1 - β * π.real A) (fun x => by
    have := (moveProb_mem (ν := ν) (step := step) A x).2; linarith)
  rw [integral_sub (hi π) (integrable_const _), integral_sub (hi μ) (integrable_const _), ← stepLaw_real hm hA, ← stepLaw_real hm hA, hπ] at key
  simp only [integral_const, probReal_univ, smul_eq_mul, one_mul] at key
  nlinarith

/-- Along a history, what is covered depends on the number of flow proposals. -/
theorem histLaw_covered {loc glob : Measure X → Measure X} {π : Measure X} [IsProbabilityMeasure π] {β : ℝ} (hβ0 : 0 ≤ β) (hβ1 : β ≤ 1)
    (hl : ∀ μ a, 0 ≤ a → IsProbabilityMeasure μ → IsProbabilityMeasure (loc μ) ∧ (Covered μ π a → Covered (loc μ) π a))
    (hg : ∀ μ a, 0 ≤ a → IsProbabilityMeasure μ → IsProbabilityMeasure (glob μ) ∧ (Covered μ π a → Covered (glob μ) π (a + (1 - a) * β))) (h : List Bool) (μ : Measure X)
    (hμ : IsProbabilityMeasure μ) : IsProbabilityMeasure (histLaw loc glob h μ) ∧ Covered (histLaw loc glob h μ) π (1 - (1 - β) ^ h.count false) := by
  induction h with
  | nil => exact ⟨hμ, fun A _ => by simp [histLaw, measureReal_nonneg]⟩
  | cons b h ih =>
    have h0 : 0 ≤ 1 - (1 - β) ^ h.count false := sub_nonneg.2 (pow_le_one₀ (by linarith) (by linarith))
    cases b
    · refine ⟨(hg _ _ h0 ih.1).1, ?_⟩
      have := (hg _ _ h0 ih.1).2 ih.2
      rw [List.count_cons_self, pow_succ]
      have e : 1 - (1 - β) ^ h.count false * (1 - β) = 1 - (1 - β) ^ h.count false + (1 - (1 - (1 - β) ^ h.count false)) * β := by ring
      rw [e]; exact this
    · refine ⟨(hl _ _ h0 ih.1).1, ?_⟩
      rw [List.count_cons_of_ne (by decide)]
      exact (hl _ _ h0 ih.1).2 ih.2

end

variable {Ω D M O V Z W : Type} {d : ℕ}

theorem flow_covers (t : Target ℝ D d) (data : Data D) (ht : Measurable (fun x => t.val x data)) (lnf : Pos ℝ d → ℝ) (hl : Measurable lnf)
    (q : Measure (Pos ℝ d)) [IsProbabilityMeasure q] (hq : SamplesFrom q lnf) (hfin : targetMeasure (fun x => t.val x data) Set.univ ≠ ∞) (C : ℝ) (hC : 1 ≤ C)
    (hcov : ∀ x, density (fun x => t.val x data) x ≤ C * density lnf x) (μ : Measure (Pos ℝ d)) (a : ℝ) (ha : 0 ≤ a) (hμ : IsProbabilityMeasure μ) :
    IsProbabilityMeasure (stepLaw (q.prod unif) (flowStep t data lnf) μ) ∧
    (Covered μ (normalised (targetMeasure fun x => t.val x data)) a →
      Covered (stepLaw (q.prod unif) (flowStep t data lnf) μ) (normalised (targetMeasure fun x => t.val x data)) (a + (1 - a) * (1 / C))) := by
  haveI := normalised_isProb _ ht hfin
  have hf := flow_mhData t data ht lnf hl q hq
  refine ⟨Measure.isProbabilityMeasure_map hf.meas.aemeasurable, fun h => ?_⟩
  exact covered_step h ha hf.meas (hf.reversible.invariant hf.meas) (fun x A hA => flow_minorise t data ht lnf hl q hq hfin C (by linarith) hcov x A hA)

theorem local_covers (kr : KernelRes ℝ d M) (hk : ExactSettings kr) (t : Target ℝ D d) (data : Data D) (ht : Measurable (fun x => t.val x data)) (hg : Measurable (fun x => t.grad x data))
    (hfin : targetMeasure (fun x => t.val x data) Set.univ ≠ ∞) (μ : Measure (Pos ℝ d)) (a : ℝ) (ha : 0 ≤ a) (hμ : IsProbabilityMeasure μ) :
    IsProbabilityMeasure (stepLaw (noise d) (localStep kr t data) μ) ∧
    (Covered μ (normalised (targetMeasure fun x => t.val x data)) a → Covered (stepLaw (noise d) (localStep kr t data) μ) (normalised (targetMeasure fun x => t.val x data)) a) := by
  haveI := normalised_isProb _ ht hfin
  haveI : IsProbabilityMeasure (noise d) := by unfold noise; infer_instance
  haveI : SFinite (targetMeasure fun x => t.val x data) := by unfold targetMeasure; infer_instance
  have hm := localStep_measurable kr t data ht hg
  have hr : Reversible (normalised (targetMeasure fun x => t.val x data)) (noise d) (localStep kr t data) := (localStep_reversible kr hk t data ht hg).smul _
  refine ⟨Measure.isProbabilityMeasure_map hm.aemeasurable, fun h => ?_⟩
  have := covered_step (β := 0) h ha hm (hr.invariant hm) (fun x A _ => by rw [zero_mul]; exact (moveProb_mem A x).1)
  rwa [mul_zero, add_zero] at this

variable {past : MeasurableSpace Ω} {sig : Key → MeasurableSpace Ω} [mΩ : MeasurableSpace Ω] {P : Measure Ω} [IsProbabilityMeasure P] {env : Ω → Env ℝ D d M O} {T : Key → Prop}
  [MeasurableSpace M] [MeasurableSpace Z] [MeasurableSpace W] {ν : Measure Z} {push : M → Z → Pos ℝ d} {lnf : M → Pos ℝ d → ℝ} {G : Set M} [BufNum ℝ]

/-- After the steps `hist`, from any start, a region has at least `1 - (1 - 1/C)^(flow proposals)` times its probability. -/
theorem rowsAvg_hits {c : BundleCfg ℝ D d M O} {data : Data D} (hE : AdaptiveBundle T P sig env c data ν push lnf G) {C : ℝ} (hC : 1 ≤ C)
    (hcov : ∀ m ∈ G, ∀ x, density (fun x => c.logpdf.val x data) x ≤ C * density (lnf m) x) {A : Set (Pos ℝ d)} (hA : MeasurableSet A) (hist : List Bool) {m : M} (hm : m ∈ G) (x : Pos ℝ d) :
    (1 - (1 - 1 / C) ^ hist.count false) * (normalised (targetMeasure fun x => c.logpdf.val x data)).real A ≤ rowsAvg c data ν push lnf (A.indicator fun _ => 1) hist m x := by
  haveI := hE.flows.prob
  haveI := normalised_isProb _ hE.meas hE.finite
  have hp : Measurable (push m) := hE.flows.pushMeas.comp (measurable_const.prodMk measurable_id)
  have hl : Measurable (lnf m) := hE.flows.lnfMeas.comp (measurable_const.prodMk measurable_id)
  haveI : IsProbabilityMeasure (ν.map (push m)) := Measure.isProbabilityMeasure_map hp.aemeasurable
  have hC0 : 0 < C := by linarith
  obtain ⟨hpr, hn⟩ := histLaw_covered (β := 1 / C) (by positivity) (by rw [div_le_one hC0]; exact hC)
    (local_covers (.mala c.stepSize : KernelRes ℝ d M) hE.step c.logpdf data hE.meas hE.gradMeas hE.finite)
    (flow_covers c.logpdf data hE.meas (lnf m) hl (ν.map (push m)) (hE.flows.density m hm) hE.finite C hC (hcov m hm)) hist (Measure.dirac x) inferInstance
  rw [rowsAvg, integral_indicator_const _ hA, smul_eq_mul, mul_one]
  exact hn A hA

end FlowMC
