import Verif.Lemmas.HilbertPowers
import Verif.Lemmas.Metropolis
import Mathlib.MeasureTheory.Function.L2Space
import Mathlib.MeasureTheory.Function.LpSpace.Indicator
import Mathlib.MeasureTheory.Function.AEEqOfIntegral
/-
The transition operator on `L²(π)` of a reversible step, given by the joint distribution `J` of (old position, new position).  No code of /repo is modelled here.
-/
open MeasureTheory ProbabilityTheory Filter Topology
open scoped InnerProductSpace ENNReal
namespace FlowMC
open Spec
noncomputable section

variable {X : Type} [MeasurableSpace X] {π : Measure X} {J : Measure (X × X)}

/-- `J` is the joint distribution of two successive positions of a stationary reversible chain with distribution `π`. -/
structure RevPair (π : Measure X) (J : Measure (X × X)) : Prop where
  fst : MeasurePreserving (Prod.fst : X × X → X) J π
  swap : MeasurePreserving (Prod.swap : X × X → X × X) J J

theorem RevPair.snd (h : RevPair π J) : MeasurePreserving (Prod.snd : X × X → X) J π := h.fst.comp h.swap

/-- `f ↦ f (old position)`. -/
def RevPair.V (h : RevPair π J) : Lp ℝ 2 π →ₗᵢ[ℝ] Lp ℝ 2 J := Lp.compMeasurePreservingₗᵢ ℝ Prod.fst h.fst
/-- `f ↦ f (new position)`. -/
def RevPair.U (h : RevPair π J) : Lp ℝ 2 π →ₗᵢ[ℝ] Lp ℝ 2 J := Lp.compMeasurePreservingₗᵢ ℝ Prod.snd h.snd
/-- exchange of old and new position. -/
def RevPair.W (h : RevPair π J) : Lp ℝ 2 J →ₗᵢ[ℝ] Lp ℝ 2 J := Lp.compMeasurePreservingₗᵢ ℝ Prod.swap h.swap

theorem RevPair.W_U (h : RevPair π J) (f : Lp ℝ 2 π) : h.W (h.U f) = h.V f := by
  refine Lp.ext ?_
  have e1 : h.W (h.U f) =ᵐ[J] (h.U f) ∘ Prod.swap := Lp.coeFn_compMeasurePreserving _ h.swap
  have e2 : h.U f =ᵐ[J] f ∘ Prod.snd := Lp.coeFn_compMeasurePreserving _ h.snd
  have e3 : h.V f =ᵐ[J] f ∘ Prod.fst := Lp.coeFn_compMeasurePreserving _ h.fst
  have e4 := h.swap.quasiMeasurePreserving.ae_eq_comp e2
  exact e1.trans (e4.trans e3.symm)

theorem RevPair.W_V (h : RevPair π J) (f : Lp ℝ 2 π) : h.W (h.V f) = h.U f := by
  refine Lp.ext ?_
  have e1 : h.W (h.V f) =ᵐ[J] (h.V f) ∘ Prod.swap := Lp.coeFn_compMeasurePreserving _ h.swap
  have e2 : h.V f =ᵐ[J] f ∘ Prod.fst := Lp.coeFn_compMeasurePreserving _ h.fst
  have e3 : h.U f =ᵐ[J] f ∘ Prod.snd := Lp.coeFn_compMeasurePreserving _ h.snd
  have e4 := h.swap.quasiMeasurePreserving.ae_eq_comp e2
  exact e1.trans (e4.trans e3.symm)

/-- The transition operator `(T f)(x) = E[f (new) | old = x]`. -/
def RevPair.T (h : RevPair π J) : Lp ℝ 2 π →L[ℝ] Lp ℝ 2 π :=
  (ContinuousLinearMap.adjoint h.V.toContinuousLinearMap).comp h.U.toContinuousLinearMap

theorem RevPair.inner_T (h : RevPair π J) (f g : Lp ℝ 2 π) : ⟪h.T f, g⟫_ℝ = ⟪h.U f, h.V g⟫_ℝ := by
  simp only [RevPair.T, ContinuousLinearMap.comp_apply, ContinuousLinearMap.adjoint_inner_left]
  rfl

theorem RevPair.inner_T_integral (h : RevPair π J) (f g : Lp ℝ 2 π) : ⟪h.T f, g⟫_ℝ = ∫ p, f p.2 * g p.1 ∂J := by
  rw [h.inner_T, L2.inner_def]
  refine integral_congr_ae ?_
  have e2 : h.U f =ᵐ[J] f ∘ Prod.snd := Lp.coeFn_compMeasurePreserving _ h.snd
  have e3 : h.V g =ᵐ[J] g ∘ Prod.fst := Lp.coeFn_compMeasurePreserving _ h.fst
  filter_upwards [e2, e3] with p a b
  simp [a, b, mul_comm]

theorem RevPair.symm (h : RevPair π J) (f g : Lp ℝ 2 π) : ⟪h.T f, g⟫_ℝ = ⟪f, h.T g⟫_ℝ := by
  rw [h.inner_T, ← h.W.inner_map_map, h.W_U, h.W_V, real_inner_comm (h.T g) f, h.inner_T, real_inner_comm]

theorem RevPair.norm_le (h : RevPair π J) (f : Lp ℝ 2 π) : ‖h.T f‖ ≤ ‖f‖ := by
  by_cases hz : ‖h.T f‖ = 0
  · rw [hz]; exact norm_nonneg _
  have h1 : ‖h.T f‖ ^ 2 ≤ ‖f‖ * ‖h.T f‖ := by
    rw [← real_inner_self_eq_norm_sq, h.inner_T]
    refine (real_inner_le_norm _ _).trans ?_
    rw [h.U.norm_map, h.V.norm_map]
  have h2 : 0 < ‖h.T f‖ := lt_of_le_of_ne (norm_nonneg _) (Ne.symm hz)
  rw [pow_two] at h1
  exact le_of_mul_le_mul_right h1 h2

/-- Fixed and anti-fixed vectors of the operator are constant, up to the sign, along steps. -/
theorem RevPair.fixed (h : RevPair π J) (s : ℝ) (hs : s * s = 1) (w : Lp ℝ 2 π) (hw : h.T w = s • w) : ∀ᵐ p ∂J, w p.2 = s * w p.1 := by
  have h1 : ‖h.U w - s • h.V w‖ ^ 2 = 0 := by
    rw [norm_sub_sq_real, inner_smul_right, ← h.inner_T, hw, inner_smul_left, real_inner_self_eq_norm_sq, norm_smul, h.U.norm_map, h.V.norm_map, mul_pow,
      Real.norm_eq_abs, sq_abs]
    simp only [conj_trivial]
    rw [pow_two s]
    nlinarith [hs]
  have h2 : h.U w = s • h.V w := sub_eq_zero.1 (norm_eq_zero.1 (pow_eq_zero_iff two_ne_zero |>.1 h1))
  have e1 : h.U w =ᵐ[J] w ∘ Prod.snd := Lp.coeFn_compMeasurePreserving _ h.snd
  have e2 : h.V w =ᵐ[J] w ∘ Prod.fst := Lp.coeFn_compMeasurePreserving _ h.fst
  have e3 := Lp.coeFn_smul s (h.V w)
  rw [← h2] at e3
  filter_upwards [e1, e2, e3] with p a b c
  simp only [Function.comp_apply, Pi.smul_apply, smul_eq_mul] at a b c
  rw [← a, c, b]

variable [IsProbabilityMeasure π]

/-- The constant function 1. -/
def oneL (π : Measure X) [IsProbabilityMeasure π] : Lp ℝ 2 π := indicatorConstLp 2 MeasurableSet.univ (measure_ne_top π _) 1

theorem oneL_ae : oneL π =ᵐ[π] fun _ => 1 := by
  have := indicatorConstLp_coeFn (p := 2) (hs := MeasurableSet.univ) (hμs := measure_ne_top π _) (c := (1 : ℝ))
  simpa [oneL] using this

theorem norm_oneL : ‖oneL π‖ = 1 := by
  rw [oneL, norm_indicatorConstLp two_ne_zero ENNReal.ofNat_ne_top]
  simp

theorem inner_oneL (f : Lp ℝ 2 π) : ⟪oneL π, f⟫_ℝ = ∫ x, f x ∂π := by
  rw [L2.inner_def]
  refine integral_congr_ae ?_
  filter_upwards [oneL_ae (π := π)] with x hx
  simp [hx]

theorem RevPair.T_one (h : RevPair π J) : h.T (oneL π) = oneL π := by
  have hU : h.U (oneL π) = h.V (oneL π) := by
    refine Lp.ext ?_
    have e1 : h.U (oneL π) =ᵐ[J] (oneL π) ∘ Prod.snd := Lp.coeFn_compMeasurePreserving _ h.snd
    have e2 : h.V (oneL π) =ᵐ[J] (oneL π) ∘ Prod.fst := Lp.coeFn_compMeasurePreserving _ h.fst
    have e3 := h.snd.quasiMeasurePreserving.ae_eq_comp (oneL_ae (π := π))
    have e4 := h.fst.quasiMeasurePreserving.ae_eq_comp (oneL_ae (π := π))
    exact (e1.trans e3).trans (e2.trans e4).symm
  refine ext_inner_right ℝ fun g => ?_
  rw [h.inner_T, hU, h.V.inner_map_map]

/-- If the pair charges every product of charged sets (`π ⊗ π ≪ J`), the only fixed vectors are the constants, and there are no anti-fixed ones. -/
theorem RevPair.fixed_const (h : RevPair π J) (hac : π.prod π ≪ J) (w : Lp ℝ 2 π) (hw : h.T w = w) : ∃ c : ℝ, w = c • oneL π := by
  have h1 : ∀ᵐ p ∂(π.prod π), w p.2 = 1 * w p.1 := hac.ae_le (h.fixed 1 (by norm_num) w (by simpa using hw))
  obtain ⟨x, hx⟩ := (Measure.ae_ae_of_ae_prod h1).exists
  refine ⟨w x, Lp.ext ?_⟩
  have e3 := Lp.coeFn_smul (w x) (oneL π)
  filter_upwards [hx, e3, oneL_ae (π := π)] with y a b c
  simp only [Pi.smul_apply, smul_eq_mul] at b
  rw [b, c, mul_one, a, one_mul]

theorem RevPair.no_anti (h : RevPair π J) (hac : π.prod π ≪ J) (w : Lp ℝ 2 π) (hw : h.T w = (-1 : ℝ) • w) : w = 0 := by
  have h1 : ∀ᵐ p ∂(π.prod π), w p.2 = -1 * w p.1 := hac.ae_le (h.fixed (-1) (by norm_num) w hw)
  obtain ⟨x, hx⟩ := (Measure.ae_ae_of_ae_prod h1).exists
  have h2 := Measure.ae_ae_of_ae_prod h1
  have hz : w x = 0 := by
    obtain ⟨y, hy1, hy2⟩ := (hx.and h2).exists
    obtain ⟨z, hz1, hz2⟩ := (hx.and hy2).exists
    simp only at hy1 hz1 hz2
    linarith
  refine Lp.ext ?_
  filter_upwards [hx, Lp.coeFn_zero ℝ 2 π] with y a b
  rw [a, hz, b]; simp

/-- The square of the operator has only constants as fixed vectors. -/
theorem RevPair.fixed_sq (h : RevPair π J) (hac : π.prod π ≪ J) (w : Lp ℝ 2 π) (hw : h.T (h.T w) = w) : ∃ c : ℝ, w = c • oneL π := by
  have h0 : w - h.T w = 0 := h.no_anti hac _ (by rw [map_sub, hw]; simp)
  exact h.fixed_const hac w (sub_eq_zero.1 h0).symm

/-- The indicator of a set in `L²`. -/
def indL (A : Set X) (hA : MeasurableSet A) : Lp ℝ 2 π := indicatorConstLp 2 hA (measure_ne_top π _) 1

theorem norm_indL_le (A : Set X) (hA : MeasurableSet A) : ‖(indL A hA : Lp ℝ 2 π)‖ ≤ 1 := by
  rw [indL, norm_indicatorConstLp two_ne_zero ENNReal.ofNat_ne_top]
  simp only [norm_one, one_mul]
  exact Real.rpow_le_one measureReal_nonneg measureReal_le_one (by norm_num)

theorem inner_indL (A : Set X) (hA : MeasurableSet A) (f : Lp ℝ 2 π) : ⟪indL A hA, f⟫_ℝ = ∫ x in A, f x ∂π := by
  rw [indL, L2.inner_indicatorConstLp_one]

/-- Law of the new position when the old one has density `f` with respect to `π`: its density is `T f`. -/
theorem RevPair.density (h : RevPair π J) (f : Lp ℝ 2 π) (hf : 0 ≤ᵐ[π] f) :
    0 ≤ᵐ[π] h.T f ∧ (J.withDensity fun p => ENNReal.ofReal (f p.1)).map Prod.snd = π.withDensity fun x => ENNReal.ofReal (h.T f x) := by
  haveI : IsProbabilityMeasure J := ⟨by rw [← Set.preimage_univ (f := Prod.fst), h.fst.measure_preimage MeasurableSet.univ.nullMeasurableSet, measure_univ]⟩
  have hf1 : 0 ≤ᵐ[J] fun p => f p.1 := h.fst.quasiMeasurePreserving.ae hf
  have hint : Integrable (fun p : X × X => f p.1) J := h.fst.integrable_comp_of_integrable ((Lp.memLp f).integrable (by norm_num))
  have hTint : Integrable (h.T f) π := (Lp.memLp (h.T f)).integrable (by norm_num)
  have key : ∀ A, MeasurableSet A → ∫ x in A, h.T f x ∂π = ∫ p in Prod.snd ⁻¹' A, f p.1 ∂J := by
    intro A hA
    rw [← inner_indL A hA, ← h.symm, h.inner_T_integral, ← integral_indicator (measurable_snd hA)]
    refine integral_congr_ae ?_
    have e1 : (indL A hA : Lp ℝ 2 π) =ᵐ[π] A.indicator fun _ => 1 := indicatorConstLp_coeFn
    have e2 := h.snd.quasiMeasurePreserving.ae_eq_comp e1
    filter_upwards [e2] with p hp
    simp only [Function.comp_apply] at hp
    rw [hp]
    by_cases hpA : p.2 ∈ A <;> simp [Set.indicator, hpA]
  have hnn : 0 ≤ᵐ[π] h.T f := by
    refine ae_nonneg_of_forall_setIntegral_nonneg hTint fun A hA _ => ?_
    rw [key A hA]
    exact setIntegral_nonneg_of_ae_restrict (ae_restrict_of_ae hf1)
  refine ⟨hnn, ?_⟩
  ext A hA
  rw [Measure.map_apply measurable_snd hA, withDensity_apply _ (measurable_snd hA), withDensity_apply _ hA,
    ← ofReal_integral_eq_lintegral_ofReal hint.integrableOn (ae_restrict_of_ae hf1), ← ofReal_integral_eq_lintegral_ofReal hTint.integrableOn (ae_restrict_of_ae hnn), key A hA]

end
end FlowMC
