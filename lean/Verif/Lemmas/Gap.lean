import Verif.Lemmas.Positive
/-
Geometric decay of autocovariances of a positive reversible step that forgets with a fixed probability.  No code of /repo is modelled here.
-/
open MeasureTheory ProbabilityTheory ENNReal
set_option linter.unusedSectionVars false
namespace FlowMC
open Spec

/-- From every point, one step is at least `ε` times a fresh draw. -/
def Refreshes {X N : Type} [MeasurableSpace X] [MeasurableSpace N] (ε : ℝ) (μ : Measure X) (ν : Measure N) (step : N → X → X) : Prop :=
  ∀ x (h : X → ℝ≥0∞), Measurable h → ENNReal.ofReal ε * ∫⁻ y, h y ∂μ ≤ stepOp ν step h x

section
variable {X N : Type} [MeasurableSpace X] [MeasurableSpace N] {ν : Measure N} [IsProbabilityMeasure ν] {step : N → X → X} (hm : Measurable fun p : X × N => step p.2 p.1) {μ : Measure X} [IsProbabilityMeasure μ]
include hm

/-- One step from equilibrium is a trajectory. -/
theorem pair_isPath : IsPath (μ.prod ν) ν step μ 1 (fun j p => if j = 0 then p.1 else step p.2 p.1) where
  meas j _ := by
    rcases eq_or_ne j 0 with rfl | h
    · simpa using measurable_fst
    · simpa [h] using hm
  law f hf := by
    have mm : Measurable fun p : X × N => f 0 p.1 * f 1 (step p.2 p.1) := ((hf 0).comp measurable_fst).mul ((hf 1).comp hm)
    simp only [Finset.prod_range_succ, Finset.prod_range_zero, one_mul, if_true, one_ne_zero, if_false, pathWeight]
    rw [lintegral_prod _ mm.aemeasurable]
    refine lintegral_congr fun x => ?_
    have mx : Measurable fun w => f 1 (step w x) := (hf 1).comp (hm.comp measurable_prodMk_left)
    show ∫⁻ w, f 0 x * f 1 (step w x) ∂ν = f 0 x * ∫⁻ w, f 1 (step w x) ∂ν
    exact lintegral_const_mul (f 0 x) mx

variable (hinv : stepLaw ν step μ = μ) (hrev : Reversible μ ν step)
include hinv hrev

/-- Lag zero is the second moment. -/
theorem lagReal_zero {D : X → ℝ} (hD : Measurable D) (hD2 : Integrable (fun x => D x * D x) μ) : lagReal μ ν step D 0 = ∫ x, D x * D x ∂μ := by
  obtain ⟨-, e00⟩ := (pair_isPath (ν := ν) (μ := μ) hm).autocov hm hinv hrev hD hD2 0 0 (by omega)
  simp only [add_zero, if_true] at e00
  change _ = lagReal μ ν step D 0 at e00
  rw [← e00]
  have := integral_fun_fst (μ := μ) (ν := ν) fun x => D x * D x
  simpa using this

/-- Functions without mean lose at least the refreshed part in one step. -/
theorem lagReal_gap {ε : ℝ} (hε : 0 ≤ ε) (hmin : Refreshes ε μ ν step) {D : X → ℝ} (hD : Measurable D) (hD2 : Integrable (fun x => D x * D x) μ) (h0 : ∫ x, D x ∂μ = 0) :
    lagReal μ ν step D 1 ≤ (1 - ε) * lagReal μ ν step D 0 := by
  have hZ := pair_isPath (ν := ν) (μ := μ) hm
  obtain ⟨i01, e01⟩ := hZ.autocov hm hinv hrev hD hD2 0 1 (by omega)
  obtain ⟨i00, e00⟩ := hZ.autocov hm hinv hrev hD hD2 0 0 (by omega)
  obtain ⟨i11, e11⟩ := hZ.autocov hm hinv hrev hD hD2 1 0 (by omega)
  simp only [zero_add, add_zero, if_true, one_ne_zero, if_false] at i01 e01 i00 e00 i11 e11
  change _ = lagReal μ ν step D 1 at e01
  change _ = lagReal μ ν step D 0 at e00 e11
  have hD1 : Integrable D μ := ((memLp_two_iff_integrable_sq hD.aestronglyMeasurable).2 (by simpa [sq] using hD2)).integrable (by norm_num)
  -- the variance
  have v0 : ∫ x, D x * D x ∂μ = lagReal μ ν step D 0 := by
    rw [← e00]
    have := integral_fun_fst (μ := μ) (ν := ν) fun x => D x * D x
    simpa using this.symm
  -- the expected square of the change in one step
  have s1 : ∫ p : X × N, (D p.1 - D (step p.2 p.1)) ^ 2 ∂(μ.prod ν) = 2 * lagReal μ ν step D 0 - 2 * lagReal μ ν step D 1 := by
    have e : ∀ p : X × N, (D p.1 - D (step p.2 p.1)) ^ 2 = D p.1 * D p.1 + D (step p.2 p.1) * D (step p.2 p.1) - 2 * (D p.1 * D (step p.2 p.1)) := fun p => by ring
    simp only [e]
    rw [integral_sub (Integrable.fun_add i00 i11) (i01.const_mul 2), integral_add i00 i11, integral_const_mul, e00, e01, e11]
    ring
  -- the expected square of the difference of independent points
  have s2 : ∫ p : X × X, (D p.1 - D p.2) ^ 2 ∂(μ.prod μ) = 2 * lagReal μ ν step D 0 := by
    have e : ∀ p : X × X, (D p.1 - D p.2) ^ 2 = D p.1 * D p.1 + D p.2 * D p.2 - 2 * (D p.1 * D p.2) := fun p => by ring
    simp only [e]
    have j1 : Integrable (fun p : X × X => D p.1 * D p.1) (μ.prod μ) := hD2.comp_fst μ
    have j2 : Integrable (fun p : X × X => D p.2 * D p.2) (μ.prod μ) := hD2.comp_snd μ
    have j3 : Integrable (fun p : X × X => D p.1 * D p.2) (μ.prod μ) := hD1.mul_prod hD1
    have f1 := integral_fun_fst (μ := μ) (ν := μ) fun x => D x * D x
    have f2 := integral_fun_snd (μ := μ) (ν := μ) fun x => D x * D x
    have f3 := integral_prod_mul (μ := μ) (ν := μ) D D
    simp only [probReal_univ, one_smul] at f1 f2
    rw [integral_sub (Integrable.fun_add j1 j2) (j3.const_mul 2), integral_add j1 j2, integral_const_mul, f1, f2, f3, h0, v0]
    ring
  -- comparison
  have mQ : Measurable fun p : X × X => ENNReal.ofReal ((D p.1 - D p.2) ^ 2) := (((hD.comp measurable_fst).sub (hD.comp measurable_snd)).pow_const 2).ennreal_ofReal
  have mQ' : Measurable fun p : X × N => ENNReal.ofReal ((D p.1 - D (step p.2 p.1)) ^ 2) := mQ.comp (measurable_fst.prodMk hm)
  have cmp : ENNReal.ofReal ε * ∫⁻ p, ENNReal.ofReal ((D p.1 - D p.2) ^ 2) ∂(μ.prod μ) ≤ ∫⁻ p : X × N, ENNReal.ofReal ((D p.1 - D (step p.2 p.1)) ^ 2) ∂(μ.prod ν) := by
    rw [lintegral_prod _ mQ.aemeasurable, lintegral_prod _ mQ'.aemeasurable, ← lintegral_const_mul _ (Measurable.lintegral_prod_right' mQ)]
    exact lintegral_mono fun x => hmin x (fun y => ENNReal.ofReal ((D x - D y) ^ 2)) (mQ.comp measurable_prodMk_left)
  have q1 : Integrable (fun p : X × N => (D p.1 - D (step p.2 p.1)) ^ 2) (μ.prod ν) := by
    have e : (fun p : X × N => (D p.1 - D (step p.2 p.1)) ^ 2) = fun p => D p.1 * D p.1 + D (step p.2 p.1) * D (step p.2 p.1) - 2 * (D p.1 * D (step p.2 p.1)) := by funext p; ring
    rw [e]
    exact Integrable.sub (Integrable.fun_add i00 i11) (i01.const_mul 2)
  have r1 := ofReal_integral_eq_lintegral_ofReal q1 (Filter.Eventually.of_forall fun _ => sq_nonneg _)
  have q2 : Integrable (fun p : X × X => (D p.1 - D p.2) ^ 2) (μ.prod μ) := by
    have e : (fun p : X × X => (D p.1 - D p.2) ^ 2) = fun p => D p.1 * D p.1 + D p.2 * D p.2 - 2 * (D p.1 * D p.2) := by funext p; ring
    rw [e]
    exact Integrable.sub (Integrable.fun_add (hD2.comp_fst μ) (hD2.comp_snd μ)) ((hD1.mul_prod hD1).const_mul 2)
  have r2 := ofReal_integral_eq_lintegral_ofReal q2 (Filter.Eventually.of_forall fun _ => sq_nonneg _)
  rw [← r1, ← r2, ← ENNReal.ofReal_mul hε, ENNReal.ofReal_le_ofReal_iff (integral_nonneg fun _ => sq_nonneg _), s1, s2] at cmp
  linarith

/-- The expected value of a real function several steps later. -/
theorem lagReal_later {g : X → ℝ} (hg : Measurable g) (hg2 : Integrable (fun x => g x * g x) μ) (h0 : ∫ x, g x ∂μ = 0) (a : ℕ) :
    ∃ D : X → ℝ, Measurable D ∧ Integrable (fun x => D x * D x) μ ∧ ∫ x, D x ∂μ = 0 ∧ ∀ l ≤ 1, lagReal μ ν step D l = lagReal μ ν step g (2 * a + l) := by
  have hp := hg.ennreal_ofReal
  have hq : Measurable fun x => ENNReal.ofReal (-g x) := hg.neg.ennreal_ofReal
  obtain ⟨fp, fq⟩ := square_parts hg2
  have hg1 : Integrable g μ := ((memLp_two_iff_integrable_sq hg.aestronglyMeasurable).2 (by simpa [sq] using hg2)).integrable (by norm_num)
  have hZ := pair_isPath (ν := ν) (μ := μ) hm
  set A := (stepOp ν step)^[a] fun x => ENNReal.ofReal (g x) with hA
  set B := (stepOp ν step)^[a] fun x => ENNReal.ofReal (-g x) with hB
  have mA : Measurable A := stepOp_iterate_measurable (ν := ν) hm hp a
  have mB : Measurable B := stepOp_iterate_measurable (ν := ν) hm hq a
  have mD : Measurable fun x => (A x).toReal - (B x).toReal := mA.ennreal_toReal.sub mB.ennreal_toReal
  -- products
  have prod : ∀ l ≤ 1, ∀ i, i + l ≤ 1 → Integrable (fun p : X × N => ((A (if i = 0 then p.1 else step p.2 p.1)).toReal - (B (if i = 0 then p.1 else step p.2 p.1)).toReal) *
      ((A (if i + l = 0 then p.1 else step p.2 p.1)).toReal - (B (if i + l = 0 then p.1 else step p.2 p.1)).toReal)) (μ.prod ν) ∧
      ∫ p : X × N, ((A (if i = 0 then p.1 else step p.2 p.1)).toReal - (B (if i = 0 then p.1 else step p.2 p.1)).toReal) *
      ((A (if i + l = 0 then p.1 else step p.2 p.1)).toReal - (B (if i + l = 0 then p.1 else step p.2 p.1)).toReal) ∂(μ.prod ν) = lagReal μ ν step g (2 * a + l) := by
    intro l _ i hil
    set U := fun p : X × N => if i = 0 then p.1 else step p.2 p.1 with hU
    set V := fun p : X × N => if i + l = 0 then p.1 else step p.2 p.1 with hV
    have mU : Measurable U := hZ.meas i (by omega)
    have mV : Measurable V := hZ.meas (i + l) hil
    have L : ∀ {f h : X → ℝ≥0∞}, Measurable f → Measurable h → ∫⁻ p, (stepOp ν step)^[a] f (U p) * (stepOp ν step)^[a] h (V p) ∂(μ.prod ν) = lagInt μ ν step (2 * a + l) f h := fun hf hh =>
      (hZ.lag hm hinv i l hil (stepOp_iterate_measurable (ν := ν) hm hf a) (stepOp_iterate_measurable (ν := ν) hm hh a)).trans (lagInt_apart hm hrev hf hh a l)
    have l1 := L hp hp; have l2 := L hq hq; have l3 := L hp hq; have l4 := (L hq hp).trans (lagInt_symm hm hrev hq hp _)
    rw [← hA] at l1 l3 l4
    rw [← hB] at l2 l3 l4
    have n1 : ∫⁻ p, A (U p) * A (V p) ∂(μ.prod ν) ≠ ⊤ := l1.trans_ne (lagInt_finite hm hinv _ hp hp fp fp)
    have n2 : ∫⁻ p, B (U p) * B (V p) ∂(μ.prod ν) ≠ ⊤ := l2.trans_ne (lagInt_finite hm hinv _ hq hq fq fq)
    have n3 : ∫⁻ p, A (U p) * B (V p) ∂(μ.prod ν) ≠ ⊤ := l3.trans_ne (lagInt_finite hm hinv _ hp hq fp fq)
    have n4 : ∫⁻ p, B (U p) * A (V p) ∂(μ.prod ν) ≠ ⊤ := l4.trans_ne (lagInt_finite hm hinv _ hp hq fp fq)
    have m1 : Measurable fun p => A (U p) * A (V p) := (mA.comp mU).mul (mA.comp mV)
    have m2 : Measurable fun p => B (U p) * B (V p) := (mB.comp mU).mul (mB.comp mV)
    have m3 : Measurable fun p => A (U p) * B (V p) := (mA.comp mU).mul (mB.comp mV)
    have m4 : Measurable fun p => B (U p) * A (V p) := (mB.comp mU).mul (mA.comp mV)
    have i1 := integrable_toReal_of_lintegral_ne_top m1.aemeasurable n1
    have i2 := integrable_toReal_of_lintegral_ne_top m2.aemeasurable n2
    have i3 := integrable_toReal_of_lintegral_ne_top m3.aemeasurable n3
    have i4 := integrable_toReal_of_lintegral_ne_top m4.aemeasurable n4
    have e : (fun p => ((A (U p)).toReal - (B (U p)).toReal) * ((A (V p)).toReal - (B (V p)).toReal)) = fun p => (A (U p) * A (V p)).toReal + (B (U p) * B (V p)).toReal - (A (U p) * B (V p)).toReal - (B (U p) * A (V p)).toReal := by
      funext p
      simp only [ENNReal.toReal_mul]
      ring
    have j1 := Integrable.fun_add i1 i2
    have j2 := Integrable.sub j1 i3
    show Integrable (fun p => ((A (U p)).toReal - (B (U p)).toReal) * ((A (V p)).toReal - (B (V p)).toReal)) _ ∧ ∫ p, ((A (U p)).toReal - (B (U p)).toReal) * ((A (V p)).toReal - (B (V p)).toReal) ∂(μ.prod ν) = _
    rw [e]
    refine ⟨Integrable.sub j2 i4, ?_⟩
    rw [integral_sub (by exact j2) i4, integral_sub j1 i3, integral_add i1 i2, integral_toReal m1.aemeasurable (ae_lt_top m1 n1), integral_toReal m2.aemeasurable (ae_lt_top m2 n2),
      integral_toReal m3.aemeasurable (ae_lt_top m3 n3), integral_toReal m4.aemeasurable (ae_lt_top m4 n4), l1, l2, l3, l4, lagReal]
    ring
  have hD2 : Integrable (fun x => ((A x).toReal - (B x).toReal) * ((A x).toReal - (B x).toReal)) μ := by
    have := (prod 0 (by omega) 0 (by omega)).1
    simp only [add_zero, if_true] at this
    have hp1 : (μ.prod ν).map Prod.fst = μ := by simp
    rw [← hp1]
    exact (integrable_map_measure (by rw [hp1]; exact (mD.mul mD).aestronglyMeasurable) measurable_fst.aemeasurable).2 this
  refine ⟨fun x => (A x).toReal - (B x).toReal, mD, hD2, ?_, fun l hl => ?_⟩
  · -- the mean
    have lp : ∀ {f : X → ℝ≥0∞}, Measurable f → ∫⁻ x, (stepOp ν step)^[a] f x ∂μ = ∫⁻ x, f x ∂μ := by
      intro f hf
      have h1 := stepOp_adjoint hm hrev (measurable_const (a := (1 : ℝ≥0∞))) hf a
      have h2 : ∀ c, (stepOp ν step)^[c] (fun _ : X => (1 : ℝ≥0∞)) = fun _ => 1 := by
        intro c
        induction c with
        | zero => rfl
        | succ c ih =>
          have h3 : stepOp ν step (fun _ : X => (1 : ℝ≥0∞)) = fun _ => 1 := by funext x; simp [stepOp]
          rw [Function.iterate_succ_apply, h3, ih]
      simpa [h2] using h1
    have nA : ∫⁻ x, A x ∂μ ≠ ⊤ := (lp hp).trans_ne hg1.lintegral_lt_top.ne
    have nB : ∫⁻ x, B x ∂μ ≠ ⊤ := (lp hq).trans_ne (by have := hg1.neg.lintegral_lt_top.ne; simpa using this)
    rw [integral_sub (integrable_toReal_of_lintegral_ne_top mA.aemeasurable nA) (integrable_toReal_of_lintegral_ne_top mB.aemeasurable nB), integral_toReal mA.aemeasurable (ae_lt_top mA nA),
      integral_toReal mB.aemeasurable (ae_lt_top mB nB), lp hp, lp hq, ← integral_eq_lintegral_pos_part_sub_lintegral_neg_part hg1, h0]
  · exact ((hZ.autocov hm hinv hrev mD hD2 0 l (by omega)).2.symm).trans (prod l hl 0 (by omega)).2

variable (hpos : PositiveStep μ ν step)
include hpos

theorem lagReal_scaled {g : X → ℝ} (hg : Measurable g) (hg2 : Integrable (fun x => g x * g x) μ) (c : NNReal) (l : ℕ) :
    2 * c * lagReal μ ν step g (l + 1) ≤ c ^ 2 * lagReal μ ν step g l + lagReal μ ν step g (l + 1 + 1) := by
  have hp := hg.ennreal_ofReal
  have hq : Measurable fun x => ENNReal.ofReal (-g x) := hg.neg.ennreal_ofReal
  obtain ⟨fp, fq⟩ := square_parts hg2
  have sp : Measurable fun x => (c : ℝ≥0∞) * ENNReal.ofReal (g x) := hp.const_mul _
  have sq' : Measurable fun x => (c : ℝ≥0∞) * ENNReal.ofReal (-g x) := hq.const_mul _
  have key := lag_positive hm hrev hpos (sp.add (stepOp_iterate_measurable (ν := ν) hm hq 1)) (sq'.add (stepOp_iterate_measurable (ν := ν) hm hp 1)) l
  have cl : ∀ {f h : X → ℝ≥0∞}, Measurable f → Measurable h → ∀ l, lagInt μ ν step l (fun x => (c : ℝ≥0∞) * f x) h = c * lagInt μ ν step l f h := by
    intro f h hf hh l
    have mm : Measurable fun x => f x * (stepOp ν step)^[l] h x := hf.mul (stepOp_iterate_measurable (ν := ν) hm hh l)
    rw [lagInt, lagInt, ← lintegral_const_mul _ mm]
    exact lintegral_congr fun x => mul_assoc _ _ _
  have cr : ∀ {f h : X → ℝ≥0∞}, Measurable f → Measurable h → ∀ l, lagInt μ ν step l f (fun x => (c : ℝ≥0∞) * h x) = c * lagInt μ ν step l f h := by
    intro f h hf hh l
    rw [lagInt_symm hm hrev hf (hh.const_mul _), cl hh hf, lagInt_symm hm hrev hh hf]
  have ms := fun l => lagInt_symm hm hrev hq hp l
  rw [lagInt_cross hm hrev sp hq sp hq, lagInt_cross hm hrev sp hq sq' hp, lagInt_cross hm hrev sq' hp sq' hp] at key
  simp only [cl hp hp, cl hp hq, cl hq hp, cl hq hq, cr hp hp, cr hp hq, cr hq hp, cr hq hq, cl hp sp, cl hp sq', cl hq sq', ms] at key
  have F1 := fun l => lagInt_finite hm hinv l hp hp fp fp
  have F2 := fun l => lagInt_finite hm hinv l hq hq fq fq
  have F3 := fun l => lagInt_finite hm hinv l hp hq fp fq
  rw [← ENNReal.coe_toNNReal (F1 l), ← ENNReal.coe_toNNReal (F2 l), ← ENNReal.coe_toNNReal (F3 l), ← ENNReal.coe_toNNReal (F1 (l + 1)), ← ENNReal.coe_toNNReal (F2 (l + 1)), ← ENNReal.coe_toNNReal (F3 (l + 1)),
    ← ENNReal.coe_toNNReal (F1 (l + 1 + 1)), ← ENNReal.coe_toNNReal (F2 (l + 1 + 1)), ← ENNReal.coe_toNNReal (F3 (l + 1 + 1))] at key
  have key2 : ((_ : NNReal) : ℝ) ≤ ((_ : NNReal) : ℝ) := NNReal.coe_le_coe.2 (ENNReal.coe_le_coe.1 (by push_cast; exact key))
  push_cast [ENNReal.coe_toNNReal_eq_toReal] at key2
  simp only [lagReal]
  linarith

/-- Autocovariances decay geometrically. -/
theorem lagReal_geometric {ε : ℝ} (hε : 0 ≤ ε) (hε1 : ε ≤ 1) (hmin : Refreshes ε μ ν step) {g : X → ℝ} (hg : Measurable g) (hg2 : Integrable (fun x => g x * g x) μ) (h0 : ∫ x, g x ∂μ = 0) (l : ℕ) :
    lagReal μ ν step g l ≤ (1 - ε) ^ l * lagReal μ ν step g 0 := by
  have even : ∀ a, lagReal μ ν step g (2 * a + 1) ≤ (1 - ε) * lagReal μ ν step g (2 * a) := by
    intro a
    obtain ⟨D, mD, hD2, hD0, hD⟩ := lagReal_later hm hinv hrev hg hg2 h0 a
    have := lagReal_gap hm hinv hrev hε hmin mD hD2 hD0
    rwa [hD 1 le_rfl, hD 0 (by omega)] at this
  have nn := lagReal_nonneg hm hinv hrev hpos hg hg2
  have one : ∀ l, lagReal μ ν step g (l + 1) ≤ (1 - ε) * lagReal μ ν step g l := by
    intro l
    rcases Nat.even_or_odd' l with ⟨a, rfl | rfl⟩
    · exact even a
    · have h2 := even (a + 1)
      rw [show 2 * (a + 1) + 1 = 2 * a + 1 + 1 + 1 by ring, show 2 * (a + 1) = 2 * a + 1 + 1 by ring] at h2
      rcases eq_or_lt_of_le hε1 with rfl | hlt
      · have h1 := even a
        have h3 := lagReal_succ hm hinv hrev hpos hg hg2 (pair_isPath (ν := ν) (μ := μ) hm) one_pos (2 * a + 1)
        have h4 := nn (2 * a + 1)
        linarith
      · have h1 := lagReal_scaled hm hinv hrev hpos hg hg2 ⟨1 - ε, by linarith⟩ (2 * a + 1)
        change 2 * (1 - ε) * _ ≤ (1 - ε) ^ 2 * _ + _ at h1
        have h5 : (1 - ε) * lagReal μ ν step g (2 * a + 1 + 1) ≤ (1 - ε) * ((1 - ε) * lagReal μ ν step g (2 * a + 1)) := by nlinarith
        exact le_of_mul_le_mul_left h5 (by linarith)
  induction l with
  | zero => simp
  | succ l ih =>
    calc _ ≤ _ := one l
      _ ≤ (1 - ε) * ((1 - ε) ^ l * lagReal μ ν step g 0) := mul_le_mul_of_nonneg_left ih (by linarith)
      _ = _ := by ring
end

/-- Sums of powers of distances. -/
theorem sum_distances {ρ : ℝ} (h0 : 0 ≤ ρ) (h1 : ρ < 1) (C i : ℕ) (hi : i < C) : ∑ j ∈ Finset.range C, ρ ^ (max i j - min i j) ≤ (1 + ρ) / (1 - ρ) := by
  have geo : ∀ n, ∑ k ∈ Finset.range n, ρ ^ k ≤ (1 - ρ)⁻¹ := fun n => by
    rw [← tsum_geometric_of_lt_one h0 h1]
    exact (summable_geometric_of_lt_one h0 h1).sum_le_tsum _ fun _ _ => pow_nonneg h0 _
  obtain ⟨e, rfl⟩ : ∃ e, C = (i + 1) + e := ⟨C - (i + 1), by omega⟩
  rw [Finset.sum_range_add]
  have s1 : ∑ j ∈ Finset.range (i + 1), ρ ^ (max i j - min i j) = ∑ k ∈ Finset.range (i + 1), ρ ^ k := by
    rw [← Finset.sum_range_reflect]
    refine Finset.sum_congr rfl fun j hj => ?_
    have := Finset.mem_range.1 hj
    congr 1
    omega
  have s2 : ∑ j ∈ Finset.range e, ρ ^ (max i (i + 1 + j) - min i (i + 1 + j)) = ρ * ∑ k ∈ Finset.range e, ρ ^ k := by
    rw [Finset.mul_sum]
    refine Finset.sum_congr rfl fun j _ => ?_
    rw [show max i (i + 1 + j) - min i (i + 1 + j) = j + 1 by omega, pow_succ']
  rw [s1, s2]
  have hpos : 0 < 1 - ρ := by linarith
  calc _ ≤ (1 - ρ)⁻¹ + ρ * (1 - ρ)⁻¹ := add_le_add (geo _) (mul_le_mul_of_nonneg_left (geo _) h0)
    _ = _ := by field_simp

end FlowMC
