import Verif.Lemmas.Metropolis
import Mathlib.MeasureTheory.Integral.Pi
import Mathlib.Algebra.BigOperators.Fin
import Mathlib.Tactic.FieldSimp
import Mathlib.Tactic.Ring
/-
Densities of normal vectors.  No code of /repo is modelled here.
-/
open MeasureTheory ProbabilityTheory ENNReal
namespace FlowMC
open Spec

theorem sumFin_eq {F : Type} [AddCommMonoid F] : ∀ {n : ℕ} (f : Fin n → F), sumFin f = ∑ i, f i
  | 0, f => by simp [sumFin]
  | n + 1, f => by rw [sumFin, sumFin_eq, Fin.sum_univ_succ]

set_option backward.isDefEq.respectTransparency false in
theorem lintegral_pi_prod {X : Type} [MeasurableSpace X] {n : ℕ} {μ : Fin n → Measure X} [∀ i, SigmaFinite (μ i)] (f : Fin n → X → ℝ≥0∞) (hf : ∀ i, Measurable (f i)) :
    ∫⁻ x, ∏ i, f i (x i) ∂(Measure.pi μ) = ∏ i, ∫⁻ x, f i x ∂(μ i) := by
  induction n with
  | zero => simp
  | succ n ih =>
    calc
      _ = ∫⁻ x : X × (Fin n → X), f 0 x.1 * ∏ i : Fin n, f (Fin.succ i) (x.2 i) ∂((μ 0).prod (Measure.pi (fun i => μ i.succ))) := by
        rw [← ((measurePreserving_piFinSuccAbove μ 0).symm).lintegral_comp_emb (MeasurableEquiv.measurableEmbedding _)]
        simp_rw [MeasurableEquiv.piFinSuccAbove_symm_apply, Fin.insertNthEquiv, Fin.prod_univ_succ, Fin.insertNth_zero, Equiv.coe_fn_mk, Fin.cons_succ,
          Fin.zero_succAbove, cast_eq, Fin.cons_zero]
      _ = (∫⁻ x, f 0 x ∂μ 0) * ∏ i : Fin n, ∫⁻ x, f (Fin.succ i) x ∂(μ i.succ) := by
        rw [← ih _ (fun i => hf _)]
        exact lintegral_prod_mul (hf 0).aemeasurable (Finset.measurable_prod _ fun i _ => (hf _).comp (measurable_pi_apply i)).aemeasurable
      _ = _ := by rw [Fin.prod_univ_succ]

/-- A product of measures with densities has the product density. -/
theorem pi_withDensity' {X : Type} [MeasureSpace X] [SigmaFinite (volume : Measure X)] {n : ℕ} (f : Fin n → X → ℝ≥0∞) (hf : ∀ i, Measurable (f i))
    (hp : ∀ i, SigmaFinite ((volume : Measure X).withDensity (f i))) :
    Measure.pi (fun i => (volume : Measure X).withDensity (f i)) = (volume : Measure (Fin n → X)).withDensity (fun x => ∏ i, f i (x i)) := by
  symm
  refine (Measure.pi_eq fun s hs => ?_).symm
  rw [withDensity_apply _ (MeasurableSet.univ_pi hs), ← lintegral_indicator (MeasurableSet.univ_pi hs)]
  have : (fun x : Fin n → X => (Set.univ.pi s).indicator (fun x => ∏ i, f i (x i)) x) = fun x => ∏ i, (s i).indicator (f i) (x i) := by
    funext x
    by_cases hx : x ∈ Set.univ.pi s
    · rw [Set.indicator_of_mem hx]
      exact Finset.prod_congr rfl fun i _ => (Set.indicator_of_mem (hx i (Set.mem_univ i)) _).symm
    · rw [Set.indicator_of_notMem hx]
      simp only [Set.mem_pi, Set.mem_univ, true_imp_iff, not_forall] at hx
      obtain ⟨i, hi⟩ := hx
      exact (Finset.prod_eq_zero (Finset.mem_univ i) (Set.indicator_of_notMem hi _)).symm
  rw [this, volume_pi, lintegral_pi_prod _ fun i => (hf i).indicator (hs i)]
  refine Finset.prod_congr rfl fun i _ => ?_
  rw [lintegral_indicator (hs i), withDensity_apply _ (hs i)]

/-- The density of a normal vector with independent coordinates. -/
theorem isoNorm_density {d : ℕ} (y m : Fin d → ℝ) (c : ℝ) (hc : 0 < c) :
    ENNReal.ofReal (Real.exp (isoNormLogpdf y m c)) = ∏ i, gaussianPDF (m i) c.toNNReal (y i) := by
  have h1 : ∀ i, gaussianPDFReal (m i) c.toNNReal (y i) = Real.exp (-(1/2) * ((y i - m i) * (y i - m i)) / c - 1 / 2 * (Real.log (2 * Real.pi) + Real.log c)) := by
    intro i
    have hpc : 0 < 2 * Real.pi * c := by positivity
    have h2 : (Real.sqrt (2 * Real.pi * c))⁻¹ = Real.exp (- (1 / 2 * (Real.log (2 * Real.pi) + Real.log c))) := by
      rw [Real.exp_neg, ← Real.log_mul (by positivity) hc.ne', mul_comm (1/2 : ℝ), mul_one_div, ← Real.log_sqrt hpc.le, Real.exp_log (Real.sqrt_pos.2 hpc)]
    rw [gaussianPDFReal, Real.coe_toNNReal _ hc.le, h2, ← Real.exp_add]
    congr 1
    field_simp
    ring
  simp only [gaussianPDF, h1]
  rw [← ENNReal.ofReal_prod_of_nonneg (fun i _ => (Real.exp_pos _).le), ← Real.exp_sum]
  congr 2
  rw [Finset.sum_sub_distrib, Finset.sum_const, Finset.card_univ, Fintype.card_fin, nsmul_eq_mul]
  simp only [isoNormLogpdf, sumFin_eq, two, Transc.log, Transc.pi]
  rw [← Finset.sum_div, ← Finset.mul_sum]
  norm_num
  ring

/-- `m + s ξ` with `ξ` standard normal has density `exp (isoNormLogpdf · m s²)`. -/
theorem stdNormal_affine {d : ℕ} (m : Fin d → ℝ) (s : ℝ) (hs : s ≠ 0) :
    (stdNormal d).map (fun ξ i => m i + s * ξ i) = volume.withDensity (fun y => ENNReal.ofReal (Real.exp (isoNormLogpdf y m (s * s)))) := by
  have hc : 0 < s * s := mul_self_pos.2 hs
  have h1 : ∀ i, MeasurePreserving (fun a : ℝ => m i + s * a) (gaussianReal 0 1) (gaussianReal (m i) (s * s).toNNReal) := by
    intro i
    refine ⟨by fun_prop, ?_⟩
    have : (fun a : ℝ => m i + s * a) = (fun a => m i + a) ∘ (fun a => s * a) := rfl
    rw [this, ← Measure.map_map (by fun_prop) (by fun_prop), gaussianReal_map_const_mul, gaussianReal_map_const_add]
    congr 1
    · simp
    · ext; simp [Real.coe_toNNReal _ hc.le, sq, hc.le]
  have hv : (s * s).toNNReal ≠ 0 := by simp [hs]
  rw [stdNormal, (measurePreserving_pi _ _ h1).map_eq]
  simp_rw [gaussianReal_of_var_ne_zero _ hv]
  rw [pi_withDensity' _ (fun i => measurable_gaussianPDF _ _) (fun i => by rw [← gaussianReal_of_var_ne_zero _ hv]; infer_instance)]
  congr 1
  funext y
  rw [isoNorm_density _ _ _ hc]

theorem stdNormal_neg (d : ℕ) : MeasurePreserving (fun (ξ : Fin d → ℝ) i => -ξ i) (stdNormal d) (stdNormal d) :=
  measurePreserving_pi _ _ fun _ => ⟨by fun_prop, by simp [gaussianReal_map_neg]⟩

end FlowMC
