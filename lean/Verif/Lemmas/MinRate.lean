import Mathlib.MeasureTheory.Integral.Prod
import Mathlib.MeasureTheory.Measure.WithDensity
import Mathlib.MeasureTheory.Function.L1Space.Integrable
import Mathlib.MeasureTheory.Integral.Bochner.Set
import Mathlib.MeasureTheory.Measure.WithDensityFinite
/-
The mean of `min (w x) (w y)` over two independent points of `q`, where `w` is the density of `μ` with respect to `q`.
-/
open MeasureTheory
open scoped ENNReal
namespace FlowMC

variable {X : Type} [MeasurableSpace X]

/-- `w` is the density of the probability measure `μ` with respect to the probability measure `q`. -/
structure DensityOf (μ q : Measure X) (w : X → ℝ) : Prop where
  meas : Measurable w
  nonneg : ∀ x, 0 ≤ w x
  eq : μ = q.withDensity fun x => ENNReal.ofReal (w x)

variable {μ q : Measure X} [IsProbabilityMeasure μ] [IsProbabilityMeasure q] {w : X → ℝ}

theorem DensityOf.integrable (h : DensityOf μ q w) : Integrable w q := by
  refine ⟨h.meas.aestronglyMeasurable, ?_⟩
  rw [hasFiniteIntegral_iff_ofReal (ae_of_all _ h.nonneg)]
  have : ∫⁻ x, ENNReal.ofReal (w x) ∂q = 1 := by
    have e : μ Set.univ = 1 := measure_univ
    rwa [h.eq, withDensity_apply _ MeasurableSet.univ, Measure.restrict_univ] at e
  rw [this]; exact ENNReal.one_lt_top

theorem DensityOf.integral (h : DensityOf μ q w) (f : X → ℝ) : ∫ x, f x ∂μ = ∫ x, w x * f x ∂q := by
  rw [h.eq, integral_withDensity_eq_integral_toReal_smul h.meas.ennreal_ofReal (ae_of_all _ fun x => ENNReal.ofReal_lt_top)]
  refine integral_congr_ae (ae_of_all _ fun x => ?_)
  simp [ENNReal.toReal_ofReal (h.nonneg x)]

theorem DensityOf.integral_one (h : DensityOf μ q w) : ∫ x, w x ∂q = 1 := by
  have := h.integral fun _ => 1
  simpa using this.symm

theorem DensityOf.real (h : DensityOf μ q w) {A : Set X} (hA : MeasurableSet A) : μ.real A = ∫ x, w x * A.indicator 1 x ∂q := by
  rw [← integral_indicator_one hA, h.integral]

theorem DensityOf.min_integrable (h : DensityOf μ q w) : Integrable (fun p : X × X => min (w p.1) (w p.2)) (q.prod q) := by
  refine (h.integrable.comp_fst q).mono ((h.meas.comp measurable_fst).min (h.meas.comp measurable_snd)).aestronglyMeasurable (ae_of_all _ fun p => ?_)
  rw [Real.norm_of_nonneg (le_min (h.nonneg _) (h.nonneg _)), Real.norm_of_nonneg (h.nonneg _)]
  exact min_le_left _ _

/-- The mean of `min (w x) (w y)`. -/
noncomputable def minRate (q : Measure X) (w : X → ℝ) : ℝ := ∫ x, ∫ y, min (w x) (w y) ∂q ∂q

theorem DensityOf.minRate_prod (h : DensityOf μ q w) : minRate q w = ∫ p, min (w p.1) (w p.2) ∂(q.prod q) := (integral_prod _ h.min_integrable).symm

theorem ind_le (A : Set X) (x : X) : |A.indicator (1 : X → ℝ) x| ≤ 1 := by
  by_cases hx : x ∈ A <;> simp [hx]

/-- The two measures differ by at most one minus the mean of the minimum. -/
theorem DensityOf.tv_le (h : DensityOf μ q w) {A : Set X} (hA : MeasurableSet A) : |μ.real A - q.real A| ≤ 1 - minRate q w := by
  set I : X → ℝ := A.indicator 1 with hI
  have hIm : Measurable I := measurable_const.indicator hA
  have hIb : ∀ x, I x = 0 ∨ I x = 1 := fun x => by by_cases hx : x ∈ A <;> simp [hI, hx]
  have hDm : Measurable fun p : X × X => I p.1 - I p.2 := (hIm.comp measurable_fst).sub (hIm.comp measurable_snd)
  have hDb : ∀ p : X × X, |I p.1 - I p.2| ≤ 1 := fun p => by rcases hIb p.1 with a | a <;> rcases hIb p.2 with b | b <;> rw [a, b] <;> norm_num
  have hw : Integrable (fun p : X × X => w p.1) (q.prod q) := h.integrable.comp_fst q
  have hm := h.min_integrable
  have mulD : ∀ {f : X × X → ℝ}, Integrable f (q.prod q) → Integrable (fun p => (I p.1 - I p.2) * f p) (q.prod q) := fun hf =>
    hf.bdd_mul hDm.aestronglyMeasurable (ae_of_all _ fun p => (Real.norm_eq_abs _).trans_le (hDb p))
  have e1 : ∫ p, (I p.1 - I p.2) * w p.1 ∂(q.prod q) = μ.real A - q.real A := by
    rw [integral_prod _ (mulD hw), h.real hA]
    have hIi : Integrable I q := (integrable_const (1 : ℝ)).mono hIm.aestronglyMeasurable (ae_of_all _ fun x => by rcases hIb x with a | a <;> simp [a])
    have : ∀ x, ∫ y, (I x - I y) * w x ∂q = w x * I x - q.real A * w x := by
      intro x
      rw [integral_mul_const, integral_sub (integrable_const _) hIi, hI, integral_indicator_one hA]
      simp; ring
    simp only [this]
    rw [integral_sub ?_ (h.integrable.const_mul _), integral_const_mul, h.integral_one, mul_one]
    exact (h.integrable.bdd_mul (f := I) hIm.aestronglyMeasurable (c := 1) (ae_of_all _ fun x => by rcases hIb x with a | a <;> simp [a])).congr (ae_of_all _ fun x => mul_comm _ _)
  have e2 : ∫ p, (I p.1 - I p.2) * min (w p.1) (w p.2) ∂(q.prod q) = 0 := by
    have := integral_prod_swap (μ := q) (ν := q) (fun p : X × X => (I p.1 - I p.2) * min (w p.1) (w p.2))
    have e : ∫ p : X × X, (I p.swap.1 - I p.swap.2) * min (w p.swap.1) (w p.swap.2) ∂(q.prod q) = -∫ p, (I p.1 - I p.2) * min (w p.1) (w p.2) ∂(q.prod q) := by
      rw [← integral_neg]
      refine integral_congr_ae (ae_of_all _ fun p => ?_)
      simp only [Prod.fst_swap, Prod.snd_swap, min_comm (w p.2)]
      ring
    rw [e] at this
    linarith
  have e3 : ∫ p, (I p.1 - I p.2) * (w p.1 - min (w p.1) (w p.2)) ∂(q.prod q) = μ.real A - q.real A := by
    have : ∀ p : X × X, (I p.1 - I p.2) * (w p.1 - min (w p.1) (w p.2)) = (I p.1 - I p.2) * w p.1 - (I p.1 - I p.2) * min (w p.1) (w p.2) := fun p => mul_sub _ _ _
    simp only [this]
    rw [integral_sub (mulD hw) (mulD hm), e1, e2, sub_zero]
  rw [← e3, h.minRate_prod]
  refine (abs_integral_le_integral_abs).trans ?_
  have e4 : ∫ p, (w p.1 - min (w p.1) (w p.2)) ∂(q.prod q) = 1 - ∫ p, min (w p.1) (w p.2) ∂(q.prod q) := by
    rw [integral_sub hw hm, integral_prod _ hw]
    simp [h.integral_one]
  rw [← e4]
  refine integral_mono_of_nonneg (ae_of_all _ fun p => abs_nonneg _) (hw.sub hm) (ae_of_all _ fun p => ?_)
  simp only [abs_mul]
  have : 0 ≤ w p.1 - min (w p.1) (w p.2) := sub_nonneg.2 (min_le_left _ _)
  rw [abs_of_nonneg this]
  exact mul_le_of_le_one_left this (hDb p)

/-- If no probability differs by more than `ε`, the mean of the minimum is at least `(1 - ε)²`. -/
theorem DensityOf.le_minRate (h : DensityOf μ q w) (ε : ℝ) (hε : ε ≤ 1) (htv : ∀ A, MeasurableSet A → q.real A - μ.real A ≤ ε) : (1 - ε) ^ 2 ≤ minRate q w := by
  have hm1 : Integrable (fun x => min (w x) 1) q := by
    refine h.integrable.mono (h.meas.min measurable_const).aestronglyMeasurable (ae_of_all _ fun x => ?_)
    rw [Real.norm_of_nonneg (le_min (h.nonneg _) zero_le_one), Real.norm_of_nonneg (h.nonneg _)]
    exact min_le_left _ _
  have hA : MeasurableSet {x | w x < 1} := measurableSet_lt h.meas measurable_const
  have k1 : ∫ x, min (w x) 1 ∂q = 1 - (q.real {x | w x < 1} - μ.real {x | w x < 1}) := by
    rw [h.real hA, ← integral_indicator_one (μ := q) hA]
    have hIi : Integrable ({x | w x < 1}.indicator (1 : X → ℝ)) q := (integrable_const (1 : ℝ)).indicator hA
    have hwI : Integrable (fun x => w x * {x | w x < 1}.indicator (1 : X → ℝ) x) q := by
      refine (h.integrable.indicator hA).congr (ae_of_all _ fun x => ?_)
      by_cases hx : w x < 1 <;> simp [Set.indicator, hx]
    have : ∀ x, min (w x) 1 = 1 - ({x | w x < 1}.indicator (1 : X → ℝ) x - w x * {x | w x < 1}.indicator (1 : X → ℝ) x) := by
      intro x
      by_cases hx : w x < 1
      · simp [Set.indicator, hx, min_eq_left hx.le]
      · simp [Set.indicator, hx, min_eq_right (not_lt.1 hx)]
    simp only [this]
    have hd : Integrable (fun x => {x | w x < 1}.indicator (1 : X → ℝ) x - w x * {x | w x < 1}.indicator (1 : X → ℝ) x) q := hIi.sub hwI
    rw [integral_sub (integrable_const _) hd, integral_sub hIi hwI]
    simp
  have k2 : 1 - ε ≤ ∫ x, min (w x) 1 ∂q := by rw [k1]; linarith [htv _ hA]
  have k3 : (∫ x, min (w x) 1 ∂q) ^ 2 ≤ minRate q w := by
    rw [h.minRate_prod, sq, ← integral_prod_mul]
    refine integral_mono (hm1.mul_prod hm1) h.min_integrable fun p => ?_
    have a := h.nonneg p.1
    have b := h.nonneg p.2
    refine le_min ?_ ?_
    · calc min (w p.1) 1 * min (w p.2) 1 ≤ w p.1 * 1 := mul_le_mul (min_le_left _ _) (min_le_right _ _) (le_min b zero_le_one) a
        _ = w p.1 := mul_one _
    · calc min (w p.1) 1 * min (w p.2) 1 ≤ 1 * w p.2 := mul_le_mul (min_le_right _ _) (min_le_left _ _) (le_min b zero_le_one) zero_le_one
        _ = w p.2 := one_mul _
  exact (pow_le_pow_left₀ (by linarith) k2 2).trans k3

end FlowMC
