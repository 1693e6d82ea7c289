import Verif.Spec.Flow
import Verif.Spec.Ideal
import Mathlib.MeasureTheory.Function.Jacobian
import Mathlib.MeasureTheory.Measure.Lebesgue.EqHaar
import Mathlib.LinearAlgebra.Matrix.Determinant.Basic
import Mathlib.LinearAlgebra.Determinant
import Mathlib.Analysis.Calculus.FDeriv.Pi
/-
Change of variables for maps that act on every coordinate separately, given the other coordinates they are conditioned on.
-/
set_option linter.unusedSectionVars false
open MeasureTheory
open scoped ENNReal
namespace FlowMC
open Spec

/-- Diagonal maps: `∫ F(g(v)) ∏ g_i'(v_i) dv = ∫ F(v) dv`. -/
theorem lintegral_diagonal {ι : Type} [Fintype ι] [DecidableEq ι] (g ld : ι → ℝ → ℝ) (hd : ∀ i x, HasDerivAt (g i) (Real.exp (ld i x)) x)
    (hs : ∀ i, Function.Surjective (g i)) (hi : ∀ i, Function.Injective (g i)) (F : (ι → ℝ) → ℝ≥0∞) :
    ∫⁻ v : ι → ℝ, ENNReal.ofReal (Real.exp (∑ i, ld i (v i))) * F (fun i => g i (v i)) = ∫⁻ v, F v := by
  let T : (ι → ℝ) → (ι → ℝ) := fun v i => g i (v i)
  let T' : (ι → ℝ) → ((ι → ℝ) →L[ℝ] (ι → ℝ)) := fun v => ContinuousLinearMap.pi fun i => Real.exp (ld i (v i)) • ContinuousLinearMap.proj i
  have hT : ∀ v ∈ Set.univ, HasFDerivWithinAt T (T' v) Set.univ v := by
    intro v _
    refine HasFDerivAt.hasFDerivWithinAt ?_
    refine hasFDerivAt_pi.2 fun i => ?_
    have h1 : HasFDerivAt (fun w : ι → ℝ => w i) (ContinuousLinearMap.proj i : (ι → ℝ) →L[ℝ] ℝ) v := (ContinuousLinearMap.proj i : (ι → ℝ) →L[ℝ] ℝ).hasFDerivAt
    exact (hd i (v i)).comp_hasFDerivAt v h1
  have hinj : Set.InjOn T Set.univ := fun v _ w _ h => funext fun i => hi i (congrFun h i)
  have himg : T '' Set.univ = Set.univ := by
    rw [Set.image_univ, Set.range_eq_univ]
    intro w
    choose r hr using fun i => hs i (w i)
    exact ⟨r, funext hr⟩
  have hdet : ∀ v, |(T' v).det| = Real.exp (∑ i, ld i (v i)) := by
    intro v
    have e : (T' v : (ι → ℝ) →ₗ[ℝ] (ι → ℝ)) = Matrix.toLin' (Matrix.diagonal fun i => Real.exp (ld i (v i))) := by
      ext w i
      simp [T', Matrix.toLin'_apply, Matrix.mulVec_diagonal]
    rw [ContinuousLinearMap.det, e, LinearMap.det_toLin', Matrix.det_diagonal, ← Real.exp_sum, abs_of_pos (Real.exp_pos _)]
  have := lintegral_image_eq_lintegral_abs_det_fderiv_mul volume MeasurableSet.univ hT hinj F
  rw [himg, setLIntegral_univ, setLIntegral_univ] at this
  rw [this]
  exact lintegral_congr fun v => by rw [hdet]

/-- `T` with log-determinant `ld` turns integrals into integrals: `∫ F(T x) exp (ld x) dx = ∫ F(y) dy`. -/
structure Transports {d : ℕ} (T : (Fin d → ℝ) → (Fin d → ℝ)) (ld : (Fin d → ℝ) → ℝ) : Prop where
  meas : Measurable T
  ldMeas : Measurable ld
  change : ∀ F : (Fin d → ℝ) → ℝ≥0∞, Measurable F → ∫⁻ x, ENNReal.ofReal (Real.exp (ld x)) * F (T x) = ∫⁻ y, F y

theorem Transports.id {d : ℕ} : Transports (fun x : Fin d → ℝ => x) (fun _ => 0) :=
  ⟨measurable_id, measurable_const, fun F _ => by simp⟩

theorem Transports.comp {d : ℕ} {T₁ T₂ : (Fin d → ℝ) → (Fin d → ℝ)} {l₁ l₂ : (Fin d → ℝ) → ℝ} (h₁ : Transports T₁ l₁) (h₂ : Transports T₂ l₂) :
    Transports (fun x => T₂ (T₁ x)) (fun x => l₁ x + l₂ (T₁ x)) := by
  refine ⟨h₂.meas.comp h₁.meas, h₁.ldMeas.add (h₂.ldMeas.comp h₁.meas), fun F hF => ?_⟩
  have hm : Measurable fun x => ENNReal.ofReal (Real.exp (l₂ x)) * F (T₂ x) := ((h₂.ldMeas.exp).ennreal_ofReal).mul (hF.comp h₂.meas)
  rw [← h₂.change F hF, ← h₁.change _ hm]
  refine lintegral_congr fun x => ?_
  rw [Real.exp_add, ENNReal.ofReal_mul (Real.exp_pos _).le, mul_assoc]

/-- A map that leaves the coordinates in `p` alone and acts on every other coordinate by a one-dimensional bijection chosen by the coordinates in `p`. -/
theorem Transports.conditional {d : ℕ} (p : Fin d → Prop) [DecidablePred p] (g ld : (Fin d → ℝ) → Fin d → ℝ → ℝ)
    (hd : ∀ c i x, HasDerivAt (g c i) (Real.exp (ld c i x)) x) (hs : ∀ c i, Function.Surjective (g c i)) (hi : ∀ c i, Function.Injective (g c i))
    (T : (Fin d → ℝ) → (Fin d → ℝ)) (hT : ∀ x i, T x i = if p i then x i else g (fun j => if p j then x j else 0) i (x i))
    (L : (Fin d → ℝ) → ℝ) (hL : ∀ x, L x = ∑ i, if p i then 0 else ld (fun j => if p j then x j else 0) i (x i))
    (mT : Measurable T) (mL : Measurable L) : Transports T L := by
  refine ⟨mT, mL, fun F hF => ?_⟩
  have hmp := (volume_preserving_piEquivPiSubtypeProd (fun _ : Fin d => ℝ) p).symm
  have hmeas : Measurable fun x => ENNReal.ofReal (Real.exp (L x)) * F (T x) := (mL.exp.ennreal_ofReal).mul (hF.comp mT)
  rw [← hmp.lintegral_comp hmeas, ← hmp.lintegral_comp hF]
  set e := (MeasurableEquiv.piEquivPiSubtypeProd (fun _ : Fin d => ℝ) p).symm with he
  have hemeas : Measurable e := e.measurable
  have v1 : (volume : Measure (((i : {i // p i}) → ℝ) × ((i : {i // ¬p i}) → ℝ))) = (volume : Measure ((i : {i // p i}) → ℝ)).prod volume := rfl
  have m1 : Measurable fun a => ENNReal.ofReal (Real.exp (L (e a))) * F (T (e a)) := hmeas.comp hemeas
  have m2 : Measurable fun a => F (e a) := hF.comp hemeas
  rw [v1, lintegral_prod _ m1.aemeasurable, lintegral_prod _ m2.aemeasurable]
  refine lintegral_congr fun u => ?_
  have e1 : ∀ (v : (i : {i // ¬p i}) → ℝ) (i : Fin d) (h : p i), e (u, v) i = u ⟨i, h⟩ := by
    intro v i h
    simp [he, MeasurableEquiv.piEquivPiSubtypeProd, Equiv.piEquivPiSubtypeProd, h]
  have e2 : ∀ (v : (i : {i // ¬p i}) → ℝ) (i : Fin d) (h : ¬ p i), e (u, v) i = v ⟨i, h⟩ := by
    intro v i h
    simp [he, MeasurableEquiv.piEquivPiSubtypeProd, Equiv.piEquivPiSubtypeProd, h]
  let c : Fin d → ℝ := fun i => if h : p i then u ⟨i, h⟩ else 0
  have ec : ∀ v, (fun j => if p j then e (u, v) j else 0) = c := by
    intro v; funext j
    by_cases h : p j
    · simp only [c, if_pos h, dif_pos h, e1 v j h]
    · simp only [c, if_neg h, dif_neg h]
  have hTe : ∀ v, T (e (u, v)) = e (u, fun i => g c i.1 (v i)) := by
    intro v; funext i
    rw [hT, ec]
    by_cases h : p i
    · rw [if_pos h, e1 _ i h, e1 _ i h]
    · rw [if_neg h, e2 _ i h, e2 _ i h]
  have hLe : ∀ v, L (e (u, v)) = ∑ i : {i // ¬ p i}, ld c i.1 (v i) := by
    intro v
    rw [hL, ec]
    rw [← Finset.sum_filter_add_sum_filter_not Finset.univ p]
    rw [Finset.sum_eq_zero (s := Finset.univ.filter p) (fun i hi => if_pos (Finset.mem_filter.1 hi).2), zero_add]
    rw [Finset.sum_subtype (Finset.univ.filter fun i => ¬ p i) (p := fun i => ¬ p i) (by simp)]
    exact Finset.sum_congr rfl fun i _ => by rw [if_neg i.2, e2 v i.1 i.2]
  have := lintegral_diagonal (ι := {i // ¬ p i}) (fun i => g c i.1) (fun i => ld c i.1) (fun i => hd c i.1) (fun i => hs c i.1) (fun i => hi c i.1)
    (fun v => F (e (u, v)))
  rw [← this]
  exact lintegral_congr fun v => by simp only [Function.comp, hTe, hLe]

end FlowMC
