import Verif.Spec.Markov
/-
General facts about Metropolis–Hastings steps.  No code of /repo is modelled here.
-/
open MeasureTheory ProbabilityTheory ENNReal
namespace FlowMC
open Spec

instance : IsProbabilityMeasure unif := ⟨by simp [unif]⟩
instance (n : ℕ) : IsProbabilityMeasure (stdNormal n) := by unfold stdNormal; infer_instance
instance (n : ℕ) : IsProbabilityMeasure (noise n) := by unfold noise; infer_instance

/-- A uniform number passes the test `log u < r` with probability `min(1, e^r)`. -/
theorem unif_accept (r : ℝ) : unif {u | Real.log u < r} = ENNReal.ofReal (min 1 (Real.exp r)) := by
  have hm : MeasurableSet {u : ℝ | Real.log u < r} := measurableSet_lt Real.measurable_log measurable_const
  have h0 : unif {u | Real.log u < r} = volume (Set.Ioo (0:ℝ) (min 1 (Real.exp r))) := by
    rw [unif, Measure.restrict_apply hm]
    refine measure_congr ?_
    have : (volume : Measure ℝ) {0} = 0 := by simp
    refine Filter.EventuallyEq.symm ?_
    rw [Filter.eventuallyEq_set]
    have h1 : ∀ᵐ x : ℝ, x ≠ 0 := by simp [ae_iff]
    filter_upwards [h1] with x hx
    simp only [Set.mem_Ioo, Set.mem_inter_iff, Set.mem_setOf_eq, Set.mem_Ico, lt_min_iff]
    constructor
    · rintro ⟨a, b, c⟩; exact ⟨(Real.log_lt_iff_lt_exp a).2 c, a.le, b⟩
    · rintro ⟨a, b, c⟩
      have : 0 < x := lt_of_le_of_ne b (Ne.symm hx)
      exact ⟨this, c, (Real.log_lt_iff_lt_exp this).1 a⟩
  rw [h0, Real.volume_Ioo, sub_zero]

variable {X N : Type} [MeasurableSpace X] [MeasurableSpace N]

/-- Reversible implies invariant. -/
theorem Spec.Reversible.invariant {π : Measure X} [SFinite π] {Ω : Type} [MeasurableSpace Ω] {ν : Measure Ω} [IsProbabilityMeasure ν] {step : Ω → X → X}
    (hm : Measurable (fun p : X × Ω => step p.2 p.1)) (h : Reversible π ν step) : Invariant π ν step := by
  have h2 := congrArg (Measure.map Prod.fst) h
  rw [Measure.map_map measurable_fst (measurable_fst.prodMk hm), Measure.map_map measurable_fst (hm.prodMk measurable_fst)] at h2
  have h3 : Measure.map (Prod.fst ∘ fun p : X × Ω => (p.1, step p.2 p.1)) (π.prod ν) = π := by
    have : (Prod.fst ∘ fun p : X × Ω => (p.1, step p.2 p.1)) = Prod.fst := rfl
    rw [this, Measure.map_fst_prod]; simp
  rw [h3] at h2
  exact h2.symm

/-- Reversibility as exchangeability is detailed balance as equality of flows. -/
theorem Spec.Reversible.detailedBalance {π : Measure X} [SFinite π] {Ω : Type} [MeasurableSpace Ω] {ν : Measure Ω} [SFinite ν] {step : Ω → X → X}
    (hm : Measurable (fun p : X × Ω => step p.2 p.1)) (h : Reversible π ν step) : DetailedBalance π ν step := by
  have key : ∀ A B, MeasurableSet A → MeasurableSet B → (π.prod ν).map (fun p => (p.1, step p.2 p.1)) (A ×ˢ B) = ∫⁻ x in A, ν {ω | step ω x ∈ B} ∂π := by
    intro A B hA hB
    rw [Measure.map_apply (measurable_fst.prodMk hm) (hA.prod hB), Measure.prod_apply ((measurable_fst.prodMk hm) (hA.prod hB)),
      ← lintegral_indicator hA]
    refine lintegral_congr fun x => ?_
    by_cases hx : x ∈ A <;> simp [Set.indicator, hx, Set.preimage]
  intro A B hA hB
  rw [← key A B hA hB, ← key B A hB hA]
  conv_lhs => rw [show (π.prod ν).map (fun p => (p.1, step p.2 p.1)) = _ from h]
  have hs : (fun p : X × Ω => (step p.2 p.1, p.1)) = Prod.swap ∘ (fun p : X × Ω => (p.1, step p.2 p.1)) := rfl
  rw [hs, ← Measure.map_map measurable_swap (measurable_fst.prodMk hm), Measure.map_apply measurable_swap (hA.prod hB), Set.preimage_swap_prod]

/-- Invariance only depends on the distribution up to a factor. -/
theorem Spec.Invariant.smul {π : Measure X} [SFinite π] {Ω : Type} [MeasurableSpace Ω] {ν : Measure Ω} [SFinite ν] {step : Ω → X → X} (c : ℝ≥0∞)
    (h : Invariant π ν step) : Invariant (c • π) ν step := by
  unfold Invariant at *
  rw [Measure.prod_smul_left, Measure.map_smul, h]

/-- The Metropolis–Hastings lemma: a proposal `g x ξ`, accepted with probability `α (x, ξ)`.  If the accepted moves have an exchangeable (old, new) pair,
the step is reversible. -/
theorem metropolis (π : Measure X) [SFinite π] (ν₀ : Measure N) [SFinite ν₀] (g : X × N → X) (hg : Measurable g)
    (acc : (X × N) × ℝ → Prop) [DecidablePred acc] (hacc : MeasurableSet {q | acc q}) (α : X × N → ℝ≥0∞) (hα : Measurable α)
    (hprob : ∀ z, unif {u | acc (z, u)} = α z)
    (hsym : ((π.prod ν₀).withDensity α).map (fun z => (z.1, g z)) = ((π.prod ν₀).withDensity α).map (fun z => (g z, z.1))) :
    Reversible π (ν₀.prod unif) (fun ω x => if acc ((x, ω.1), ω.2) then g (x, ω.1) else x) := by
  have hstep : Measurable (fun p : X × (N × ℝ) => if acc ((p.1, p.2.1), p.2.2) then g (p.1, p.2.1) else p.1) := by
    refine Measurable.ite ?_ (by fun_prop) measurable_fst
    exact (by fun_prop : Measurable fun p : X × (N × ℝ) => ((p.1, p.2.1), p.2.2)) hacc
  have main : ∀ (h : X × X → ℝ≥0∞), Measurable h →
      ∫⁻ p, h (p.1, if acc ((p.1, p.2.1), p.2.2) then g (p.1, p.2.1) else p.1) ∂(π.prod (ν₀.prod unif)) =
        ∫⁻ z, h (z.1, g z) * α z ∂(π.prod ν₀) + ∫⁻ z, h (z.1, z.1) * unif {u | ¬ acc (z, u)} ∂(π.prod ν₀) := by
    intro h hh
    rw [← Measure.prodAssoc_prod, lintegral_map (by fun_prop) (by fun_prop), lintegral_prod]
    swap
    · refine Measurable.aemeasurable ?_
      exact (by fun_prop : Measurable fun p : X × (N × ℝ) => h (p.1, if acc ((p.1, p.2.1), p.2.2) then g (p.1, p.2.1) else p.1)).comp
        (MeasurableEquiv.measurable _)
    rw [← lintegral_add_left (by fun_prop)]
    refine lintegral_congr fun z => ?_
    have hz : MeasurableSet {u | acc (z, u)} := (by fun_prop : Measurable fun u : ℝ => (z, u)) hacc
    simp only [MeasurableEquiv.prodAssoc, MeasurableEquiv.coe_mk, Equiv.prodAssoc_apply, Prod.mk.eta]
    rw [← lintegral_add_compl _ hz, setLIntegral_congr_fun (g := fun _ => h (z.1, g z)) hz, setLIntegral_congr_fun (g := fun _ => h (z.1, z.1)) hz.compl]
    · simp only [lintegral_const, MeasurableSet.univ, Measure.restrict_apply, Set.univ_inter, hprob]
      rfl
    · intro u hu
      have : ¬ acc (z, u) := hu
      simp [this]
    · intro u hu
      have : acc (z, u) := hu
      simp [this]
  refine Measure.ext_of_lintegral _ fun h hh => ?_
  rw [lintegral_map hh (by fun_prop), lintegral_map hh (by fun_prop)]
  have e1 := main h hh
  have e2 := main (fun p => h p.swap) (by fun_prop)
  simp only [Prod.swap_prod_mk] at e2
  refine e1.trans (Eq.trans ?_ e2.symm)
  congr 1
  have e3 := congrArg (fun μ => ∫⁻ p, h p ∂μ) hsym
  beta_reduce at e3
  rw [lintegral_map hh (by fun_prop), lintegral_map hh (by fun_prop), lintegral_withDensity_eq_lintegral_mul _ hα (by fun_prop),
    lintegral_withDensity_eq_lintegral_mul _ hα (by fun_prop)] at e3
  simpa [mul_comm] using e3

/-- A sufficient condition for the hypothesis of `metropolis`: the accepted mass is carried to itself by an involution that exchanges old and new position. -/
theorem metropolis_involution {Z : Type} [MeasurableSpace Z] (μ : Measure Z) (T : Z → Z) (hT : MeasurePreserving T μ μ) (α : Z → ℝ≥0∞) (hα : Measurable α)
    (hαT : ∀ z, α (T z) = α z) (x y : Z → X) (hx : Measurable x) (hy : Measurable y) (h1 : ∀ z, x (T z) = y z) (h2 : ∀ z, y (T z) = x z) :
    (μ.withDensity α).map (fun z => (x z, y z)) = (μ.withDensity α).map (fun z => (y z, x z)) := by
  refine Measure.ext_of_lintegral _ fun h hh => ?_
  rw [lintegral_map hh (by fun_prop), lintegral_map hh (by fun_prop), lintegral_withDensity_eq_lintegral_mul _ hα (by fun_prop),
    lintegral_withDensity_eq_lintegral_mul _ hα (by fun_prop)]
  rw [← hT.lintegral_comp (by fun_prop)]
  simp [hαT, h1, h2]

end FlowMC
