import Verif.Lemmas.ConvergeMH
/-
Convergence in any order: transformations that keep `π`, some of which forget where they started.  Only overlap of densities is used (no reversibility, no periodicity of the order).
-/
open MeasureTheory Filter
open scoped ENNReal Topology
namespace FlowMC
open Spec

variable {X : Type} [MeasurableSpace X] {π : Measure X} [IsProbabilityMeasure π]

/-- A transformation of distributions that keeps `π` and everything dominated by a multiple of it. -/
structure ExactMap (π : Measure X) (Q : Measure X → Measure X) : Prop where
  mass : MassMap Q
  fix : Q π = π
  bound : ∀ (C : ℝ≥0∞) (u : Measure X), IsFiniteMeasure u → u ≤ C • π → Q u ≤ C • π

theorem ExactMap.id : ExactMap π (fun μ => μ) := ⟨MassMap.id, rfl, fun _ _ _ h => h⟩

theorem ExactMap.comp {Q R : Measure X → Measure X} (hQ : ExactMap π Q) (hR : ExactMap π R) : ExactMap π (fun μ => Q (R μ)) :=
  ⟨hQ.mass.comp hR.mass, by simp only [hR.fix, hQ.fix], fun C u hu h => hQ.bound C _ (hR.mass.finite hu) (hR.bound C u hu h)⟩

theorem ExactMap.iterate {Q : Measure X → Measure X} (h : ExactMap π Q) (n : ℕ) : ExactMap π (Q^[n]) := by
  induction n with
  | zero => exact ExactMap.id
  | succ n ih => rw [Function.iterate_succ]; exact ih.comp h

theorem stepLaw_exact {N : Type} [MeasurableSpace N] (ν : Measure N) [IsProbabilityMeasure ν] (step : N → X → X) (hm : Measurable fun p : X × N => step p.2 p.1) (hi : stepLaw ν step π = π) :
    ExactMap π (stepLaw ν step) where
  mass := stepLaw_massMap ν step hm
  fix := hi
  bound C u hu h := by
    refine Measure.le_iff.2 fun A hA => ?_
    have hA' : MeasurableSet ((fun p : X × N => step p.2 p.1) ⁻¹' A) := hm hA
    have e : ∀ μ : Measure X, SFinite μ → stepLaw ν step μ A = ∫⁻ x, ν (Prod.mk x ⁻¹' ((fun p : X × N => step p.2 p.1) ⁻¹' A)) ∂μ := fun μ _ => by
      rw [stepLaw, Measure.map_apply hm hA, Measure.prod_apply hA']
    rw [e u inferInstance, Measure.smul_apply]
    conv_rhs => rw [← hi, e π inferInstance]
    rw [← lintegral_smul_measure]
    exact lintegral_mono' h le_rfl

/-- Whatever (not too concentrated) distribution it is applied to, a certain part of the outcome is the same. -/
def Overlaps (π : Measure X) (Q : Measure X → Measure X) : Prop :=
  ∀ (C τ : ℝ≥0∞), C ≠ ∞ → τ ≠ 0 → ∃ w : Measure X, IsFiniteMeasure w ∧ w Set.univ ≠ 0 ∧ ∀ u : Measure X, IsFiniteMeasure u → u ≤ C • π → τ ≤ u Set.univ → w ≤ Q u

theorem Overlaps.comp {Q R : Measure X → Measure X} (hQ : Overlaps π Q) (hR : ExactMap π R) : Overlaps π (fun μ => Q (R μ)) := fun C τ hC hτ => by
  obtain ⟨w, h1, h2, h3⟩ := hQ C τ hC hτ
  exact ⟨w, h1, h2, fun u hu hb ht => h3 _ (hR.mass.finite hu) (hR.bound C u hu hb) (by rw [hR.mass.mass u hu]; exact ht)⟩

theorem Overlaps.iterate {Q : Measure X → Measure X} (hQ : Overlaps π Q) (hE : ExactMap π Q) (n : ℕ) : Overlaps π (Q^[n + 1]) := by
  have := hQ.comp (hE.iterate n)
  have e : Q^[n + 1] = fun μ => Q (Q^[n] μ) := by rw [Function.iterate_succ']; rfl
  rw [e]; exact this

/-- A step that can move from anywhere to anywhere overlaps. -/
theorem stepLaw_overlaps {N : Type} [MeasurableSpace N] (ν : Measure N) [IsProbabilityMeasure ν] (step : N → X → X) (hm : Measurable fun p : X × N => step p.2 p.1)
    (hac : π.prod π ≪ pairLaw π ν step) : Overlaps π (stepLaw ν step) := by
  intro C τ hC hτ
  have hps : Measurable fun p : X × N => (p.1, step p.2 p.1) := measurable_fst.prodMk hm
  haveI : IsProbabilityMeasure (pairLaw π ν step) := by unfold pairLaw; exact Measure.isProbabilityMeasure_map hps.aemeasurable
  set J := pairLaw π ν step with hJ
  set k := J.rnDeriv (π.prod π) with hk
  have hkm : Measurable k := Measure.measurable_rnDeriv _ _
  have hkpos : ∀ᵐ p ∂(π.prod π), 0 < k p := Measure.rnDeriv_pos' hac
  by_cases hτtop : τ = ∞
  · exact ⟨π, inferInstance, by simp, fun u hu _ ht => absurd (hτtop ▸ ht) (not_le.2 (measure_lt_top u _))⟩
  -- a level below which the density of pairs rarely falls
  set D : ℝ≥0∞ := τ / (4 * (C + 1)) with hD
  have hC1 : C + 1 ≠ ∞ := by simp [hC]
  have hC0 : C + 1 ≠ 0 := by simp
  have hDpos : D ≠ 0 := by
    rw [hD]; exact (ENNReal.div_pos hτ (ENNReal.mul_ne_top (by simp) hC1)).ne'
  obtain ⟨n, hn⟩ : ∃ n : ℕ, (π.prod π) {p | k p < ((n : ℝ≥0∞) + 1)⁻¹} ≤ D := by
    have hms : ∀ n : ℕ, MeasurableSet {p | k p < ((n : ℝ≥0∞) + 1)⁻¹} := fun n => measurableSet_lt hkm measurable_const
    have hanti : Antitone fun n : ℕ => {p | k p < ((n : ℝ≥0∞) + 1)⁻¹} := fun a b hab p hp => by
      have h1 : k p < ((b : ℝ≥0∞) + 1)⁻¹ := hp
      have h2 : ((b : ℝ≥0∞) + 1)⁻¹ ≤ ((a : ℝ≥0∞) + 1)⁻¹ := ENNReal.inv_le_inv.2 (by gcongr)
      exact (lt_of_lt_of_le h1 h2 : k p < ((a : ℝ≥0∞) + 1)⁻¹)
    have hlim := tendsto_measure_iInter_atTop (μ := π.prod π) (fun n => (hms n).nullMeasurableSet) hanti ⟨0, measure_ne_top _ _⟩
    have hzero : (π.prod π) (⋂ n : ℕ, {p | k p < ((n : ℝ≥0∞) + 1)⁻¹}) = 0 := by
      refine measure_mono_null (fun p hp => ?_) (ae_iff.1 hkpos)
      simp only [Set.mem_iInter, Set.mem_setOf_eq] at hp
      simp only [Set.mem_setOf_eq, not_lt, nonpos_iff_eq_zero]
      by_contra h0
      obtain ⟨a, ha⟩ := ENNReal.exists_inv_nat_lt h0
      refine absurd (hp a) (not_lt.2 (le_trans ?_ ha.le))
      exact ENNReal.inv_le_inv.2 le_self_add
    rw [hzero] at hlim
    obtain ⟨n, hn⟩ := (ENNReal.tendsto_nhds_zero.1 hlim D (pos_iff_ne_zero.2 hDpos)).exists
    exact ⟨n, hn⟩
  set η : ℝ≥0∞ := ((n : ℝ≥0∞) + 1)⁻¹ with hη
  have hη0 : η ≠ 0 := by rw [hη]; exact ENNReal.inv_ne_zero.2 (by simp)
  have hη1 : η ≠ ∞ := by rw [hη]; exact ENNReal.inv_ne_top.2 (by simp)
  set B := {p | k p < η} with hB
  have hBm : MeasurableSet B := measurableSet_lt hkm measurable_const
  have hbad : Measurable fun y => π {x | (x, y) ∈ B} := measurable_measure_prodMk_right hBm
  set S := {y | π {x | (x, y) ∈ B} ≤ τ / (2 * (C + 1))} with hS
  have hSm : MeasurableSet S := measurableSet_le hbad measurable_const
  have hthr : τ / (2 * (C + 1)) ≠ 0 := (ENNReal.div_pos hτ (ENNReal.mul_ne_top (by simp) hC1)).ne'
  have hSc : π Sᶜ ≤ 1 / 2 := by
    have h1 : τ / (2 * (C + 1)) * π Sᶜ ≤ D := by
      calc τ / (2 * (C + 1)) * π Sᶜ ≤ τ / (2 * (C + 1)) * π {y | τ / (2 * (C + 1)) ≤ π {x | (x, y) ∈ B}} := by
            refine mul_le_mul_right (measure_mono fun y hy => ?_) _
            simp only [hS, Set.mem_compl_iff, Set.mem_setOf_eq, not_le] at hy
            exact hy.le
        _ ≤ ∫⁻ y, π {x | (x, y) ∈ B} ∂π := mul_meas_ge_le_lintegral hbad _
        _ = (π.prod π) B := (Measure.prod_apply_symm hBm).symm
        _ ≤ D := hn
    have h2 : D = τ / (2 * (C + 1)) * (1 / 2) := by
      rw [hD, one_div, ENNReal.div_eq_inv_mul, ENNReal.div_eq_inv_mul, show (4 : ℝ≥0∞) * (C + 1) = (2 * (C + 1)) * 2 by ring, ENNReal.mul_inv (Or.inr (by simp)) (Or.inr (by simp))]
      ring
    rw [h2] at h1
    exact (ENNReal.mul_le_mul_iff_right hthr (ENNReal.div_ne_top hτtop (by simp))).1 h1
  have hS0 : π S ≠ 0 := by
    intro h0
    have := measure_add_measure_compl (μ := π) hSm
    rw [h0, zero_add, measure_univ] at this
    rw [this] at hSc
    norm_num at hSc
  refine ⟨(η * (τ / 2)) • π.restrict S, ?_, ?_, fun u hu hub hut => ?_⟩
  · exact Measure.smul_finite _ (ENNReal.mul_ne_top hη1 (ENNReal.div_ne_top hτtop (by simp)))
  · rw [Measure.smul_apply, smul_eq_mul, Measure.restrict_apply_univ]
    exact mul_ne_zero (mul_ne_zero hη0 (ENNReal.div_pos hτ (by simp)).ne') hS0
  -- the common part
  have huac : u ≪ π := Measure.absolutelyContinuous_of_le_smul hub
  set f := u.rnDeriv π with hf
  have hfm : Measurable f := Measure.measurable_rnDeriv _ _
  have hfu : π.withDensity f = u := Measure.withDensity_rnDeriv_eq u π huac
  refine Measure.le_iff.2 fun A hA => ?_
  have hgood : ∀ y ∈ S, τ / 2 ≤ u {x | (x, y) ∉ B} := by
    intro y hy
    have hsec : MeasurableSet {x | (x, y) ∈ B} := measurable_prodMk_right hBm
    have h1 : u {x | (x, y) ∈ B} ≤ τ / 2 := by
      calc u {x | (x, y) ∈ B} ≤ C * π {x | (x, y) ∈ B} := hub _
        _ ≤ (C + 1) * (τ / (2 * (C + 1))) := mul_le_mul' le_self_add hy
        _ = τ / 2 := by
          rw [ENNReal.div_eq_inv_mul, ENNReal.mul_inv (Or.inl (by simp)) (Or.inl (by simp)), ENNReal.div_eq_inv_mul]
          calc (C + 1) * (2⁻¹ * (C + 1)⁻¹ * τ) = ((C + 1) * (C + 1)⁻¹) * (2⁻¹ * τ) := by ring
            _ = _ := by rw [ENNReal.mul_inv_cancel hC0 hC1, one_mul]
    have h2 : τ ≤ u {x | (x, y) ∈ B} + u {x | (x, y) ∉ B} := by
      have := measure_add_measure_compl (μ := u) hsec
      rw [← this] at hut
      exact hut
    have h3 : τ / 2 + τ / 2 ≤ τ / 2 + u {x | (x, y) ∉ B} := by
      rw [ENNReal.add_halves]
      exact h2.trans (add_le_add_left h1 _)
    exact (ENNReal.add_le_add_iff_left (ENNReal.div_ne_top hτtop (by simp))).1 h3
  have hJk : (π.prod π).withDensity k ≤ J := Measure.withDensity_rnDeriv_le J (π.prod π)
  have hstep : stepLaw ν step u A = ∫⁻ p, (Prod.snd ⁻¹' A).indicator (fun p => f p.1) p ∂J := by
    rw [← hfu, stepLaw_withDensity ν step hm f hfm, Measure.map_apply measurable_snd hA, withDensity_apply _ (measurable_snd hA), lintegral_indicator (measurable_snd hA)]
  rw [hstep, Measure.smul_apply, smul_eq_mul, Measure.restrict_apply hA]
  have hind : Measurable ((Prod.snd ⁻¹' A).indicator fun p : X × X => f p.1) := (hfm.comp measurable_fst).indicator (measurable_snd hA)
  calc η * (τ / 2) * π (A ∩ S) = ∫⁻ y in A ∩ S, η * (τ / 2) ∂π := by rw [setLIntegral_const]
    _ ≤ ∫⁻ y in A ∩ S, η * u {x | (x, y) ∉ B} ∂π := setLIntegral_mono (measurable_const.mul (measurable_measure_prodMk_right hBm.compl)) fun y hy => mul_le_mul_right (hgood y hy.2) _
    _ ≤ ∫⁻ y in A, η * u {x | (x, y) ∉ B} ∂π := lintegral_mono_set Set.inter_subset_left
    _ = ∫⁻ y in A, ∫⁻ x, f x * Bᶜ.indicator (fun _ => η) (x, y) ∂π ∂π := by
        refine lintegral_congr fun y => ?_
        have hsec : MeasurableSet {x | (x, y) ∉ B} := measurable_prodMk_right hBm.compl
        rw [← hfu, withDensity_apply _ hsec, ← lintegral_const_mul _ hfm, ← lintegral_indicator hsec]
        refine lintegral_congr fun x => ?_
        by_cases hx : (x, y) ∈ B
        · simp [Set.indicator, hx]
        · simp [Set.indicator, hx, mul_comm]
    _ ≤ ∫⁻ y in A, ∫⁻ x, f x * k (x, y) ∂π ∂π := by
        refine lintegral_mono fun y => lintegral_mono fun x => mul_le_mul_right ?_ _
        by_cases hx : (x, y) ∈ B
        · simp [Set.indicator, hx]
        · simp only [Set.indicator, Set.mem_compl_iff, hx, not_false_eq_true, if_true]
          exact not_lt.1 hx
    _ = ∫⁻ p, (Prod.snd ⁻¹' A).indicator (fun p => f p.1) p * k p ∂(π.prod π) := by
        rw [lintegral_prod_symm (fun p => (Prod.snd ⁻¹' A).indicator (fun p : X × X => f p.1) p * k p) (hind.mul hkm).aemeasurable, ← lintegral_indicator hA]
        refine lintegral_congr fun y => ?_
        by_cases hy : y ∈ A
        · simp [Set.indicator, hy]
        · simp [Set.indicator, hy]
    _ = ∫⁻ p, (Prod.snd ⁻¹' A).indicator (fun p => f p.1) p ∂((π.prod π).withDensity k) := by
        rw [lintegral_withDensity_eq_lintegral_mul _ hkm hind]
        refine lintegral_congr fun p => by rw [Pi.mul_apply, mul_comm]
    _ ≤ _ := lintegral_mono' hJk le_rfl

/-! ### one chain, compared with `π` -/

/-- `μ` and `π` have a common part `w`; what remains of `π` has mass at most `m`, what remains of `μ` is dominated by `C π` except for a part of mass at most `σ`. -/
def Common (π : Measure X) (C σ m : ℝ≥0∞) (μ : Measure X) : Prop :=
  ∃ u v w s : Measure X, IsFiniteMeasure u ∧ IsFiniteMeasure v ∧ IsFiniteMeasure w ∧ IsFiniteMeasure s ∧ μ = u + w + s ∧ π = v + w ∧ u ≤ C • π ∧ v ≤ C • π ∧ s Set.univ ≤ σ ∧ v Set.univ ≤ m

theorem common_start {C σ : ℝ≥0∞} {μ u s : Measure X} (hu : IsFiniteMeasure u) (hs : IsFiniteMeasure s) (e : μ = u + s) (hC : 1 ≤ C) (hb : u ≤ C • π) (hσ : s Set.univ ≤ σ) : Common π C σ 1 μ :=
  ⟨u, π, 0, s, hu, inferInstance, inferInstance, hs, by rw [e, add_zero], by rw [add_zero], hb, by
    refine Measure.le_iff.2 fun A _ => ?_
    rw [Measure.smul_apply, smul_eq_mul]
    exact le_mul_of_one_le_left' hC, hσ, by simp⟩

theorem Common.mono {C σ m m' : ℝ≥0∞} {μ : Measure X} (h : Common π C σ m μ) (hm : m ≤ m') : Common π C σ m' μ := by
  obtain ⟨u, v, w, s, h1, h2, h3, h4, h5, h6, h7, h8, h9, h10⟩ := h
  exact ⟨u, v, w, s, h1, h2, h3, h4, h5, h6, h7, h8, h9, h10.trans hm⟩

/-- The rest of `μ` and the rest of `π` have the same mass. -/
theorem rest_mass {μ u v w s : Measure X} [IsProbabilityMeasure μ] (h3 : IsFiniteMeasure w) (e1 : μ = u + w + s) (e2 : π = v + w) : u Set.univ + s Set.univ = v Set.univ := by
  have h1 : μ Set.univ = π Set.univ := by simp
  rw [e1, e2] at h1
  simp only [Measure.add_apply] at h1
  rw [add_right_comm] at h1
  exact (ENNReal.add_left_inj (measure_ne_top w _)).1 h1

theorem common_near {C σ m : ℝ≥0∞} {μ : Measure X} [IsProbabilityMeasure μ] (h : Common π C σ m μ) (hm : m ≠ ∞) (A : Set X) : |μ.real A - π.real A| ≤ m.toReal := by
  obtain ⟨u, v, w, s, h1, h2, h3, h4, e1, e2, -, -, -, h5⟩ := h
  have hr := rest_mass h3 e1 e2
  have e3 : μ.real A = u.real A + w.real A + s.real A := by rw [e1, measureReal_add_apply, measureReal_add_apply]
  have e4 : π.real A = v.real A + w.real A := by
    have : π.real A = (v + w).real A := congrArg (fun t => t.real A) e2
    rw [this, measureReal_add_apply]
  have hv : v.real Set.univ ≤ m.toReal := ENNReal.toReal_mono hm h5
  have hus : u.real Set.univ + s.real Set.univ = v.real Set.univ := by
    simp only [measureReal_def]
    rw [← hr, ENNReal.toReal_add (measure_ne_top _ _) (measure_ne_top _ _)]
  have b1 : u.real A ≤ u.real Set.univ := measureReal_mono (Set.subset_univ A)
  have b2 : s.real A ≤ s.real Set.univ := measureReal_mono (Set.subset_univ A)
  have b3 : v.real A ≤ v.real Set.univ := measureReal_mono (Set.subset_univ A)
  have c1 : 0 ≤ u.real A := measureReal_nonneg
  have c2 : 0 ≤ s.real A := measureReal_nonneg
  have c3 : 0 ≤ v.real A := measureReal_nonneg
  rw [e3, e4, abs_le]
  constructor <;> linarith

theorem common_keep {C σ m : ℝ≥0∞} {μ : Measure X} (h : Common π C σ m μ) {Q : Measure X → Measure X} (hQ : ExactMap π Q) : Common π C σ m (Q μ) := by
  obtain ⟨u, v, w, s, h1, h2, h3, h4, e1, e2, b1, b2, b3, b4⟩ := h
  refine ⟨Q u, Q v, Q w, Q s, hQ.mass.finite h1, hQ.mass.finite h2, hQ.mass.finite h3, hQ.mass.finite h4, ?_, ?_, hQ.bound C u h1 b1, hQ.bound C v h2 b2, by rw [hQ.mass.mass s h4]; exact b3,
    by rw [hQ.mass.mass v h2]; exact b4⟩
  · rw [e1, hQ.mass.add _ _ inferInstance h4, hQ.mass.add _ _ h1 h3]
  · have := hQ.fix
    conv_lhs => rw [← this, e2]
    exact hQ.mass.add _ _ h2 h3

/-- Each application of an overlapping transformation increases the common part, until the rest is small. -/
theorem common_step {C σ m τ κ : ℝ≥0∞} {μ : Measure X} [IsProbabilityMeasure μ] (h : Common π C σ m μ) {Q : Measure X → Measure X} (hQ : ExactMap π Q) {w0 : Measure X} (hw0 : IsFiniteMeasure w0)
    (hκ : κ ≤ w0 Set.univ) (hov : ∀ u : Measure X, IsFiniteMeasure u → u ≤ C • π → τ ≤ u Set.univ → w0 ≤ Q u) : Common π C σ (max (τ + σ) (m - κ)) (Q μ) := by
  obtain ⟨u, v, w, s, h1, h2, h3, h4, e1, e2, b1, b2, b3, b4⟩ := h
  by_cases hv : v Set.univ ≤ τ + σ
  · exact common_keep ⟨u, v, w, s, h1, h2, h3, h4, e1, e2, b1, b2, b3, hv.trans (le_max_left _ _)⟩ hQ
  have hr := rest_mass h3 e1 e2
  have hu : τ ≤ u Set.univ := by
    by_contra hlt
    refine hv ?_
    rw [← hr]
    exact add_le_add (not_le.1 hlt).le b3
  have hvτ : τ ≤ v Set.univ := hu.trans (by rw [← hr]; exact le_self_add)
  have ou := hov u h1 b1 hu
  have ov := hov v h2 b2 hvτ
  have f1 := hQ.mass.finite h1
  have f2 := hQ.mass.finite h2
  have f3 := hQ.mass.finite h3
  have f4 := hQ.mass.finite h4
  refine ⟨Q u - w0, Q v - w0, w0 + Q w, Q s, Measure.isFiniteMeasure_sub, Measure.isFiniteMeasure_sub, inferInstance, f4, ?_, ?_, Measure.sub_le.trans (hQ.bound C u h1 b1),
    Measure.sub_le.trans (hQ.bound C v h2 b2), by rw [hQ.mass.mass s h4]; exact b3, ?_⟩
  · rw [← add_assoc, Measure.sub_add_cancel_of_le ou, e1, hQ.mass.add _ _ inferInstance h4, hQ.mass.add _ _ h1 h3]
  · rw [← add_assoc, Measure.sub_add_cancel_of_le ov, ← hQ.mass.add _ _ h2 h3, ← e2, hQ.fix]
  · rw [Measure.sub_apply MeasurableSet.univ ov, hQ.mass.mass v h2]
    exact (tsub_le_tsub b4 hκ).trans (le_max_right _ _)

/-- Any order. -/
theorem common_order {ι : Type} {C σ τ κ : ℝ≥0∞} (Ψ : ι → Measure X → Measure X) (mix : ι → Bool) (names : List ι) (hex : ∀ n ∈ names, ExactMap π (Ψ n))
    (hov : ∀ n ∈ names, mix n = true → ∃ w0 : Measure X, IsFiniteMeasure w0 ∧ κ ≤ w0 Set.univ ∧ ∀ u : Measure X, IsFiniteMeasure u → u ≤ C • π → τ ≤ u Set.univ → w0 ≤ Ψ n u)
    (m : ℝ≥0∞) (μ : Measure X) (hμ : IsProbabilityMeasure μ) (h : Common π C σ m μ) :
    IsProbabilityMeasure (names.foldl (fun ν n => Ψ n ν) μ) ∧ Common π C σ (max (τ + σ) (m - names.countP mix * κ)) (names.foldl (fun ν n => Ψ n ν) μ) := by
  induction names generalizing m μ with
  | nil => exact ⟨hμ, h.mono (by simp)⟩
  | cons a as ih =>
    have hQ := hex a List.mem_cons_self
    have hμ' : IsProbabilityMeasure (Ψ a μ) := ⟨by rw [hQ.mass.mass μ inferInstance]; exact measure_univ⟩
    rw [List.foldl_cons]
    have ih' := ih (fun n hn => hex n (List.mem_cons_of_mem _ hn)) (fun n hn => hov n (List.mem_cons_of_mem _ hn))
    cases hmix : mix a with
    | false =>
      obtain ⟨i1, i2⟩ := ih' m _ hμ' (common_keep h hQ)
      exact ⟨i1, i2.mono (by rw [List.countP_cons_of_neg (by simp [hmix])])⟩
    | true =>
      obtain ⟨w0, g1, g2, g3⟩ := hov a List.mem_cons_self hmix
      obtain ⟨i1, i2⟩ := ih' _ _ hμ' (common_step h hQ g1 g2 g3)
      refine ⟨i1, i2.mono ?_⟩
      rw [List.countP_cons_of_pos hmix]
      refine max_le (le_max_left _ _) ?_
      rw [tsub_le_iff_right]
      refine max_le (le_trans (le_max_left _ _) le_self_add) ?_
      rw [tsub_le_iff_right]
      calc m ≤ (m - (as.countP mix + 1 : ℕ) * κ) + (as.countP mix + 1 : ℕ) * κ := le_tsub_add
        _ ≤ _ := by
          push_cast
          rw [add_mul, one_mul, ← add_assoc]
          exact add_le_add_left (add_le_add_left (le_max_right _ _) _) _

/-- What has a density is, up to a small part, dominated by a multiple of `π`. -/
theorem truncate (a : Measure X) (ha : IsFiniteMeasure a) (hac : a ≪ π) {δ : ℝ≥0∞} (hδ : δ ≠ 0) : ∃ (C : ℝ≥0∞) (u s : Measure X), C ≠ ∞ ∧ 1 ≤ C ∧ IsFiniteMeasure u ∧ IsFiniteMeasure s ∧ a = u + s ∧
    u ≤ C • π ∧ s Set.univ ≤ δ := by
  set f := a.rnDeriv π with hf
  have hfm : Measurable f := Measure.measurable_rnDeriv _ _
  have hfa : π.withDensity f = a := Measure.withDensity_rnDeriv_eq a π hac
  have hms : ∀ n : ℕ, MeasurableSet {x | (n : ℝ≥0∞) < f x} := fun n => measurableSet_lt measurable_const hfm
  have hanti : Antitone fun n : ℕ => {x | (n : ℝ≥0∞) < f x} := fun k l hkl x hx => by
    have h1 : (l : ℝ≥0∞) < f x := hx
    exact (lt_of_le_of_lt (by exact_mod_cast hkl) h1 : (k : ℝ≥0∞) < f x)
  have hlim := tendsto_measure_iInter_atTop (μ := a) (fun n => (hms n).nullMeasurableSet) hanti ⟨0, measure_ne_top _ _⟩
  have hzero : a (⋂ n : ℕ, {x | (n : ℝ≥0∞) < f x}) = 0 := by
    refine hac (measure_mono_null (fun x hx => ?_) (ae_iff.1 (Measure.rnDeriv_lt_top a π)))
    simp only [Set.mem_iInter, Set.mem_setOf_eq] at hx
    simp only [Set.mem_setOf_eq, not_lt, top_le_iff]
    by_contra h0
    obtain ⟨k, hk⟩ := ENNReal.exists_nat_gt h0
    exact lt_asymm hk (hx k)
  rw [hzero] at hlim
  obtain ⟨n, hn⟩ := (ENNReal.tendsto_nhds_zero.1 hlim δ (pos_iff_ne_zero.2 hδ)).exists
  refine ⟨n + 1, a.restrict {x | (n : ℝ≥0∞) < f x}ᶜ, a.restrict {x | (n : ℝ≥0∞) < f x}, by simp, le_add_self, inferInstance, inferInstance, ?_, ?_, by rw [Measure.restrict_apply_univ]; exact hn⟩
  · rw [add_comm, Measure.restrict_add_restrict_compl (hms n)]
  · refine Measure.le_iff.2 fun A hA => ?_
    rw [Measure.restrict_apply hA]
    conv_lhs => rw [← hfa]
    rw [withDensity_apply _ (hA.inter (hms n).compl), Measure.smul_apply, smul_eq_mul]
    calc ∫⁻ x in A ∩ {x | (n : ℝ≥0∞) < f x}ᶜ, f x ∂π ≤ ∫⁻ x in A ∩ {x | (n : ℝ≥0∞) < f x}ᶜ, ((n : ℝ≥0∞) + 1) ∂π :=
          setLIntegral_mono measurable_const fun x hx => (not_lt.1 (show ¬ (n : ℝ≥0∞) < f x from hx.2)).trans le_self_add
      _ = ((n : ℝ≥0∞) + 1) * π (A ∩ {x | (n : ℝ≥0∞) < f x}ᶜ) := setLIntegral_const _ _
      _ ≤ _ := mul_le_mul_right (measure_mono Set.inter_subset_left) _

/-- In any order, from a start that has a density up to a small part. -/
theorem order_splits {ι : Type} [DecidableEq ι] (dict : List ι) (Ψ : ι → Measure X → Measure X) (mix : ι → Bool) (hex : ∀ n ∈ dict, ExactMap π (Ψ n)) (hov : ∀ n ∈ dict, mix n = true → Overlaps π (Ψ n))
    (μ a s : Measure X) [IsProbabilityMeasure μ] (ha : IsFiniteMeasure a) (hs : IsFiniteMeasure s) (e : μ = a + s) (hac : a ≪ π) (ε : ℝ) (hε : 0 < ε) (hsε : s Set.univ ≤ ENNReal.ofReal (ε / 4)) :
    ∃ N, ∀ names : List ι, (∀ n ∈ names, n ∈ dict) → N ≤ names.countP mix →
      ∀ A, |(names.foldl (fun ν n => Ψ n ν) μ).real A - π.real A| ≤ ε := by
  have hδ : ENNReal.ofReal (ε / 4) ≠ 0 := (ENNReal.ofReal_pos.2 (by linarith)).ne'
  obtain ⟨C, u, s', hC, hC1, hu, hs', ea, hub, hs'ε⟩ := truncate a ha hac hδ
  set τ := ENNReal.ofReal (ε / 2) with hτd
  have hτ : τ ≠ 0 := (ENNReal.ofReal_pos.2 (by linarith)).ne'
  have hw : ∀ n, ∃ w0 : Measure X, IsFiniteMeasure w0 ∧ w0 Set.univ ≠ 0 ∧ (n ∈ dict → mix n = true → ∀ u : Measure X, IsFiniteMeasure u → u ≤ C • π → τ ≤ u Set.univ → w0 ≤ Ψ n u) := by
    intro n
    by_cases hn : n ∈ dict
    · by_cases hm : mix n = true
      · obtain ⟨w0, h1, h2, h3⟩ := hov n hn hm C τ hC hτ
        exact ⟨w0, h1, h2, fun _ _ => h3⟩
      · exact ⟨π, inferInstance, by simp, fun _ h => absurd h hm⟩
    · exact ⟨π, inferInstance, by simp, fun h => absurd h hn⟩
  choose W w1 w2 w3 using hw
  obtain ⟨κ, hκ0, hκ⟩ : ∃ κ : ℝ≥0∞, κ ≠ 0 ∧ ∀ n ∈ dict, κ ≤ W n Set.univ := by
    clear hex hov w3
    induction dict with
    | nil => exact ⟨1, one_ne_zero, by simp⟩
    | cons b bs ih =>
      obtain ⟨κ, k0, k1⟩ := ih
      refine ⟨min κ (W b Set.univ), ?_, fun n hn => ?_⟩
      · exact (lt_min (pos_iff_ne_zero.2 k0) (pos_iff_ne_zero.2 (w2 b))).ne'
      · rcases List.mem_cons.1 hn with rfl | hn
        · exact min_le_right _ _
        · exact (min_le_left _ _).trans (k1 n hn)
  obtain ⟨N, hN⟩ : ∃ N : ℕ, 1 ≤ N * κ := by
    obtain ⟨N, hN⟩ := ENNReal.exists_nat_mul_gt hκ0 ENNReal.one_ne_top
    exact ⟨N, hN.le⟩
  refine ⟨N, fun names hsub hcount A => ?_⟩
  have hstart : Common π C (ENNReal.ofReal (ε / 2)) 1 μ := common_start (s := s' + s) hu inferInstance (by rw [e, ea, add_assoc]) hC1 hub (by
    rw [Measure.add_apply]
    refine (add_le_add hs'ε hsε).trans (le_of_eq ?_)
    rw [← ENNReal.ofReal_add (by linarith) (by linarith)]; congr 1; ring)
  obtain ⟨p1, p2⟩ := common_order (κ := κ) Ψ mix names (fun n hn => hex n (hsub n hn)) (fun n hn hm => ⟨W n, w1 n, hκ n (hsub n hn), w3 n (hsub n hn) hm⟩) 1 μ inferInstance hstart
  have hzero : (1 : ℝ≥0∞) - names.countP mix * κ = 0 := tsub_eq_zero_of_le (hN.trans (mul_le_mul_left (by exact_mod_cast hcount) _))
  rw [hzero] at p2
  have e2 : max (τ + ENNReal.ofReal (ε / 2)) 0 = ENNReal.ofReal ε := by
    rw [hτd, ← ENNReal.ofReal_add (by linarith) (by linarith)]; simp
  rw [e2] at p2
  have := common_near p2 ENNReal.ofReal_ne_top A
  rwa [ENNReal.toReal_ofReal hε.le] at this

/-- In any order of steps that stay or move somewhere with a density, from every start. -/
theorem order_all {ι : Type} [DecidableEq ι] (dict : List ι) (Ψ : ι → Measure X → Measure X) (mix : ι → Bool) (hex : ∀ n ∈ dict, ExactMap π (Ψ n)) (hov : ∀ n ∈ dict, mix n = true → Overlaps π (Ψ n))
    (hid : ∀ n ∈ dict, mix n = false → Ψ n = fun μ => μ) (r : ι → X → ℝ≥0∞) (hr : ∀ n, Measurable (r n)) (hr1 : ∀ n x, r n x < 1) (hst : ∀ n ∈ dict, mix n = true → StayOrMove π (Ψ n) (r n))
    (hQac : ∀ n ∈ dict, ∀ μ, IsFiniteMeasure μ → μ ≪ π → Ψ n μ ≪ π)
    (μ : Measure X) [IsProbabilityMeasure μ] (ε : ℝ) (hε : 0 < ε) :
    ∃ N, ∀ names : List ι, (∀ n ∈ names, n ∈ dict) → N ≤ names.countP mix →
      ∀ A, |(names.foldl (fun ν n => Ψ n ν) μ).real A - π.real A| ≤ ε := by
  obtain ⟨R, hRm, hR1, hR⟩ : ∃ R : X → ℝ≥0∞, Measurable R ∧ (∀ x, R x < 1) ∧ ∀ n ∈ dict, ∀ x, r n x ≤ R x := by
    clear hex hov hid hst hQac
    induction dict with
    | nil => exact ⟨fun _ => 0, measurable_const, fun _ => one_pos, by simp⟩
    | cons b bs ih =>
      obtain ⟨R, h1, h2, h3⟩ := ih
      refine ⟨fun x => max (r b x) (R x), (hr b).max h1, fun x => max_lt (hr1 b x) (h2 x), fun n hn x => ?_⟩
      rcases List.mem_cons.1 hn with rfl | hn
      · exact le_max_left _ _
      · exact (h3 n hn x).trans (le_max_right _ _)
  have htend : Tendsto (fun n : ℕ => ∫⁻ x, R x ^ n ∂μ) atTop (𝓝 (∫⁻ _, 0 ∂μ)) := by
    refine tendsto_lintegral_of_dominated_convergence (fun _ => 1) (fun n => hRm.pow_const n) (fun n => ae_of_all _ fun x => pow_le_one₀ zero_le (hR1 x).le) (by simp) ?_
    exact ae_of_all _ fun x => ENNReal.tendsto_pow_atTop_nhds_zero_of_lt_one (hR1 x)
  rw [lintegral_zero] at htend
  obtain ⟨K, hK⟩ := ((ENNReal.tendsto_nhds_zero.1 htend) (ENNReal.ofReal (ε / 4)) (ENNReal.ofReal_pos.2 (by linarith))).exists
  -- after `j` steps, the part that never moved is at most `R ^ j`
  have main : ∀ i j : ℕ, i + j = K → ∀ ρ : Measure X, IsProbabilityMeasure ρ → (∃ a s : Measure X, IsFiniteMeasure a ∧ a ≪ π ∧ s ≤ μ.withDensity (fun x => R x ^ j) ∧ ρ = a + s) →
      ∃ N, ∀ names : List ι, (∀ n ∈ names, n ∈ dict) → N ≤ names.countP mix → ∀ A, |(names.foldl (fun ν n => Ψ n ν) ρ).real A - π.real A| ≤ ε := by
    intro i
    induction i with
    | zero =>
      rintro j hj ρ hρ ⟨a, s, ha, hac, hs, e⟩
      rw [Nat.zero_add] at hj
      subst hj
      have hsε : s Set.univ ≤ ENNReal.ofReal (ε / 4) := (hs _).trans (by rw [withDensity_apply _ MeasurableSet.univ, setLIntegral_univ]; exact hK)
      exact order_splits dict Ψ mix hex hov ρ a s ha ⟨lt_of_le_of_lt hsε ENNReal.ofReal_lt_top⟩ e hac ε hε hsε
    | succ i ih =>
      rintro j hj ρ hρ ⟨a, s, ha, hac, hs, e⟩
      have hfin : IsFiniteMeasure (μ.withDensity fun x => R x ^ j) :=
        isFiniteMeasure_withDensity (ne_top_of_le_ne_top (by simp : (∫⁻ _ : X, 1 ∂μ) ≠ ∞) (lintegral_mono fun x => pow_le_one₀ zero_le (hR1 x).le))
      have hsf : IsFiniteMeasure s := isFiniteMeasure_of_le _ hs
      have hnext : ∀ n, ∃ N, n ∈ dict → mix n = true → ∀ names : List ι, (∀ n ∈ names, n ∈ dict) → N ≤ names.countP mix → ∀ A, |(names.foldl (fun ν n => Ψ n ν) (Ψ n ρ)).real A - π.real A| ≤ ε := by
        intro n
        by_cases hn : n ∈ dict
        swap
        · exact ⟨0, fun h => absurd h hn⟩
        by_cases hm : mix n = true
        swap
        · exact ⟨0, fun _ h => absurd h hm⟩
        have hQ := hex n hn
        obtain ⟨κ, k1, k2, k3⟩ := hst n hn hm s hsf
        obtain ⟨N, hN⟩ := ih (j + 1) (by omega) (Ψ n ρ) ⟨by rw [hQ.mass.mass ρ inferInstance]; exact measure_univ⟩
          ⟨Ψ n a + κ, s.withDensity (r n), by haveI := hQ.mass.finite ha; infer_instance, fun A hA => by simp [hQac n hn a ha hac hA, k2 hA], by
            calc s.withDensity (r n) ≤ (μ.withDensity fun x => R x ^ j).withDensity (r n) := by
                  refine Measure.le_iff.2 fun A hA => ?_
                  rw [withDensity_apply _ hA, withDensity_apply _ hA]
                  exact lintegral_mono' (Measure.restrict_mono le_rfl hs) le_rfl
              _ ≤ (μ.withDensity fun x => R x ^ j).withDensity R := withDensity_mono (ae_of_all _ fun x => hR n hn x)
              _ = _ := by rw [← withDensity_mul _ (hRm.pow_const j) hRm]; congr 1; funext x; exact (pow_succ (R x) j).symm, by
            rw [e, hQ.mass.add a s ha hsf, k3, add_assoc, add_comm κ]⟩
        exact ⟨N, fun _ _ => hN⟩
      choose Nn hNn using hnext
      obtain ⟨N, hN⟩ : ∃ N, ∀ n ∈ dict, Nn n ≤ N := by
        refine ⟨(dict.map Nn).sum, fun n hn => List.le_sum_of_mem (List.mem_map_of_mem hn)⟩
      refine ⟨N + 1, fun names => ?_⟩
      induction names with
      | nil => intro _ hc; simp at hc
      | cons n names ihn =>
        intro hsub hcount
        have hn := hsub n List.mem_cons_self
        have hsub' : ∀ m ∈ names, m ∈ dict := fun m hm => hsub m (List.mem_cons_of_mem _ hm)
        cases hm : mix n with
        | false =>
          rw [List.foldl_cons, hid n hn hm]
          rw [List.countP_cons_of_neg (by simp [hm])] at hcount
          exact ihn hsub' hcount
        | true =>
          rw [List.foldl_cons]
          rw [List.countP_cons_of_pos hm] at hcount
          exact hNn n hn hm names hsub' (le_trans (hN n hn) (by omega))
  exact main K 0 (by omega) μ inferInstance ⟨0, μ, inferInstance, Measure.AbsolutelyContinuous.zero π, by simp, by simp⟩

end FlowMC
