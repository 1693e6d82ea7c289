import Mathlib.LinearAlgebra.Matrix.Determinant.Basic
import Mathlib.LinearAlgebra.Matrix.Trace
import Mathlib.Analysis.Calculus.Deriv.Mul
import Mathlib.Analysis.Calculus.Deriv.Add
import Mathlib.Analysis.Calculus.MeanValue
import Mathlib.MeasureTheory.Integral.IntervalIntegral.FundThmCalculus
import Mathlib.Analysis.SpecialFunctions.ExpDeriv
/-
Liouville's formula: if `J' = A J` and `J(0) = I` then `det J(1) = exp ∫₀¹ tr A`.
-/
open scoped BigOperators
open MeasureTheory
namespace FlowMC

theorem hasDerivWithinAt_det {n : ℕ} {J J' : ℝ → Matrix (Fin n) (Fin n) ℝ} {s : Set ℝ} {t : ℝ} (h : ∀ i j, HasDerivWithinAt (fun t => J t i j) (J' t i j) s t) :
    HasDerivWithinAt (fun t => (J t).det) (∑ i, ((J t).updateRow i (J' t i)).det) s t := by
  have e : (fun t => (J t).det) = fun t => ∑ σ : Equiv.Perm (Fin n), (Equiv.Perm.sign σ : ℤ) • ∏ i, J t i (σ i) := by
    funext t
    rw [← Matrix.det_transpose, Matrix.det_apply]
    rfl
  have hsum := HasDerivWithinAt.fun_sum (u := Finset.univ) (A := fun (σ : Equiv.Perm (Fin n)) t => ((Equiv.Perm.sign σ : ℤ) : ℝ) * ∏ i, J t i (σ i))
    (A' := fun σ => ((Equiv.Perm.sign σ : ℤ) : ℝ) * ∑ i, (∏ j ∈ Finset.univ.erase i, J t j (σ j)) • J' t i (σ i)) (s := s) (x := t)
    (fun σ _ => (HasDerivWithinAt.fun_finset_prod (u := Finset.univ) fun i _ => h i (σ i)).const_mul _)
  rw [e]
  simp only [zsmul_eq_mul]
  refine hsum.congr_deriv ?_
  have e2 : ∀ i, ((J t).updateRow i (J' t i)).det = ∑ σ : Equiv.Perm (Fin n), ((Equiv.Perm.sign σ : ℤ) : ℝ) * ((∏ j ∈ Finset.univ.erase i, J t j (σ j)) * J' t i (σ i)) := by
    intro i
    rw [← Matrix.det_transpose, Matrix.det_apply]
    refine Finset.sum_congr rfl fun σ _ => ?_
    rw [Units.smul_def, zsmul_eq_mul]
    congr 1
    rw [← Finset.mul_prod_erase Finset.univ _ (Finset.mem_univ i), mul_comm]
    congr 1
    · refine Finset.prod_congr rfl fun j hj => ?_
      rw [Matrix.transpose_apply, Matrix.updateRow_ne (Finset.ne_of_mem_erase hj)]
    · rw [Matrix.transpose_apply, Matrix.updateRow_self]
  simp only [e2]
  rw [Finset.sum_comm]
  refine Finset.sum_congr rfl fun σ _ => ?_
  rw [Finset.mul_sum]
  rfl

/-- Liouville's formula on `[0, 1]`. -/
theorem liouville {n : ℕ} {A J : ℝ → Matrix (Fin n) (Fin n) ℝ} (h0 : J 0 = 1)
    (hJ : ∀ t ∈ Set.Icc (0 : ℝ) 1, ∀ i j, HasDerivWithinAt (fun t => J t i j) ((A t * J t) i j) (Set.Icc 0 1) t)
    (hA : ContinuousOn (fun t => (A t).trace) (Set.Icc 0 1)) : (J 1).det = Real.exp (∫ t in (0 : ℝ)..1, (A t).trace) := by
  let a : ℝ → ℝ := Set.IccExtend (zero_le_one' ℝ) (Set.restrict (Set.Icc 0 1) fun t => (A t).trace)
  have ha : Continuous a := (continuousOn_iff_continuous_restrict.1 hA).Icc_extend'
  have hae : ∀ t ∈ Set.Icc (0 : ℝ) 1, a t = (A t).trace := fun t ht => by
    rw [show a t = _ from Set.IccExtend_of_mem _ _ ht]; rfl
  have hint : ∫ t in (0 : ℝ)..1, (A t).trace = ∫ t in (0 : ℝ)..1, a t := by
    refine intervalIntegral.integral_congr fun t ht => ?_
    rw [Set.uIcc_of_le zero_le_one] at ht
    exact (hae t ht).symm
  have hI : ∀ t, HasDerivAt (fun t => ∫ s in (0 : ℝ)..t, a s) (a t) t := fun t => ha.integral_hasStrictDerivAt 0 t |>.hasDerivAt
  have hdet : ∀ t ∈ Set.Icc (0 : ℝ) 1, HasDerivWithinAt (fun t => (J t).det) (a t * (J t).det) (Set.Icc 0 1) t := by
    intro t ht
    refine (hasDerivWithinAt_det (J' := fun t => A t * J t) (hJ t ht)).congr_deriv ?_
    have : ∀ i, ((J t).updateRow i ((A t * J t) i)).det = A t i i * (J t).det := by
      intro i
      have : (A t * J t) i = ∑ k, A t i k • J t k := by
        funext j; simp [Matrix.mul_apply, Finset.sum_apply]
      rw [this]
      exact Matrix.det_updateRow_sum (J t) i (A t i)
    simp only [this]
    rw [← Finset.sum_mul, hae t ht]
    rfl
  have hE : ∀ t ∈ Set.Icc (0 : ℝ) 1, HasDerivWithinAt (fun t => (J t).det * Real.exp (-∫ s in (0 : ℝ)..t, a s)) 0 (Set.Icc 0 1) t := by
    intro t ht
    have h2 : HasDerivWithinAt (fun t => Real.exp (-∫ s in (0 : ℝ)..t, a s)) (Real.exp (-∫ s in (0 : ℝ)..t, a s) * -a t) (Set.Icc 0 1) t :=
      ((hI t).neg.exp).hasDerivWithinAt
    refine ((hdet t ht).mul h2).congr_deriv ?_
    ring
  have hconst : ∀ t ∈ Set.Icc (0 : ℝ) 1, (J t).det * Real.exp (-∫ s in (0 : ℝ)..t, a s) = (J 0).det * Real.exp (-∫ s in (0 : ℝ)..0, a s) :=
    constant_of_has_deriv_right_zero (fun t ht => (hE t ht).continuousWithinAt) fun t ht =>
      ((hE t (Set.Ico_subset_Icc_self ht)).mono_of_mem_nhdsWithin (Icc_mem_nhdsGE_of_mem ht))
  have h1 := hconst 1 (by simp)
  rw [h0, Matrix.det_one, intervalIntegral.integral_same, neg_zero, Real.exp_zero, mul_one, Real.exp_neg] at h1
  rw [hint]
  have := Real.exp_ne_zero (∫ s in (0 : ℝ)..1, a s)
  field_simp at h1
  exact h1

end FlowMC
