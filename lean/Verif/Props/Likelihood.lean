import Verif.Model.Loss
import Verif.Props.FlowDensity
import Mathlib.InformationTheory.KullbackLeibler.Basic
import Mathlib.MeasureTheory.Measure.Decomposition.RadonNikodym
import Mathlib.Tactic.Positivity
import Verif.Props.IdealWorld
/-
C76: the training loss is minus the average log-likelihood.
-/
set_option linter.unusedSectionVars false
open MeasureTheory ProbabilityTheory
open scoped ENNReal
namespace FlowMC
open Spec InformationTheory

noncomputable section

variable {d K : ℕ}

/-- `q` has, with respect to volume, the density `exp (l x) / c`. -/
def Spec.HasDensity (q : Measure (Fin d → ℝ)) (l : (Fin d → ℝ) → ℝ) (c : ℝ) : Prop := q = volume.withDensity fun x => ENNReal.ofReal (Real.exp (l x) / c)

theorem hasDensity_of_samples {q : Measure (Fin d → ℝ)} [IsProbabilityMeasure q] {l : (Fin d → ℝ) → ℝ} {c : ℝ} (hc : 0 < c) (hm : Measurable l) (h : SamplesFrom q l) (hmass : targetMeasure l Set.univ = ENNReal.ofReal c) :
    HasDensity q l c := by
  obtain ⟨Z, hZ⟩ := h
  have h1 : Z * ENNReal.ofReal c = 1 := by
    have := congrArg (fun μ : Measure (Fin d → ℝ) => μ Set.univ) hZ
    simp only [measure_univ, Measure.smul_apply, smul_eq_mul, hmass] at this
    exact this.symm
  have hc' : ENNReal.ofReal c ≠ 0 := by simpa using hc
  have hZ' : Z = ENNReal.ofReal c⁻¹ := by
    rw [ENNReal.ofReal_inv_of_pos hc]
    exact ENNReal.eq_inv_of_mul_eq_one_left h1
  unfold HasDensity
  have mf : Measurable fun x => ENNReal.ofReal (Real.exp (l x)) := ENNReal.measurable_ofReal.comp (Real.measurable_exp.comp hm)
  rw [hZ, targetMeasure, hZ', ← withDensity_smul _ mf]
  congr 1
  funext x
  rw [Pi.smul_apply, smul_eq_mul, ← ENNReal.ofReal_mul (by positivity)]
  congr 1
  rw [div_eq_mul_inv, mul_comm]

theorem sum_list_map_log {f : (Fin d → ℝ) → ℝ} (hf : ∀ x, 0 < f x) (xs : List (Fin d → ℝ)) : Real.log ((xs.map f).prod) = (xs.map fun x => Real.log (f x)).sum := by
  induction xs with
  | nil => simp
  | cons x xs ih =>
    simp only [List.map_cons, List.prod_cons, List.sum_cons]
    rw [Real.log_mul (hf x).ne' (List.prod_pos (by intro a ha; obtain ⟨y, -, rfl⟩ := List.mem_map.1 ha; exact hf y)).ne', ih]

/-- **C76 (batch).** The loss of a non-empty batch is minus the average log-likelihood of the batch under the density `exp (log_prob) / c`, minus `log c`. -/
theorem C76_batch (l : (Fin d → ℝ) → ℝ) (c : ℝ) (hc : 0 < c) (xs : List (Pos ℝ d)) (hx : xs ≠ []) :
    nfLoss l xs = -(1 / xs.length * Real.log ((xs.map fun x => Real.exp (l x) / c).prod)) - Real.log c := by
  have hlen : (xs.length : ℝ) ≠ 0 := by simpa using hx
  rw [sum_list_map_log (fun x => by positivity)]
  have : (xs.map fun x => Real.log (Real.exp (l x) / c)).sum = (xs.map l).sum - xs.length * Real.log c := by
    clear hx hlen
    induction xs with
    | nil => simp
    | cons x xs ih =>
      simp only [List.map_cons, List.sum_cons, ih, List.length_cons]
      rw [Real.log_div (Real.exp_pos _).ne' hc.ne', Real.log_exp]
      push_cast; ring
  rw [this]
  unfold nfLoss
  field_simp
  ring

/-- **C76 (expected loss).** The expected loss of a batch of `n ≥ 1` independent draws from `p` is the mean of `-log_prob` under `p`. -/
theorem C76_expected (l : (Fin d → ℝ) → ℝ) (p : Measure (Fin d → ℝ)) [IsProbabilityMeasure p] (hl : Integrable l p) (n : ℕ) (hn : 0 < n) :
    ∫ v : Fin n → Fin d → ℝ, nfLoss l (List.ofFn v) ∂(Measure.pi fun _ => p) = -∫ x, l x ∂p := by
  have hi : ∀ i : Fin n, Integrable (fun v : Fin n → Fin d → ℝ => l (v i)) (Measure.pi fun _ => p) := fun i =>
    ((measurePreserving_eval (fun _ : Fin n => p) i).integrable_comp hl.aestronglyMeasurable).2 hl
  have he : ∀ i : Fin n, ∫ v : Fin n → Fin d → ℝ, l (v i) ∂(Measure.pi fun _ => p) = ∫ x, l x ∂p := by
    intro i
    have mp := measurePreserving_eval (fun _ : Fin n => p) i
    conv_rhs => rw [← mp.map_eq, integral_map mp.measurable.aemeasurable (by rw [mp.map_eq]; exact hl.aestronglyMeasurable)]
  have : (fun v : Fin n → Fin d → ℝ => nfLoss l (List.ofFn v)) = fun v => -((∑ i, l (v i)) / n) := by
    funext v
    simp [nfLoss, List.map_ofFn, List.sum_ofFn]
  rw [this, integral_neg, integral_div, integral_finset_sum _ fun i _ => hi i]
  simp only [he, Finset.sum_const, Finset.card_univ, Fintype.card_fin, nsmul_eq_mul]
  have : (n : ℝ) ≠ 0 := by positivity
  field_simp

theorem density_change {q₁ q₂ : Measure (Fin d → ℝ)} {l₁ l₂ : (Fin d → ℝ) → ℝ} {c : ℝ} (h₁ : HasDensity q₁ l₁ c) (h₂ : HasDensity q₂ l₂ c) (m₁ : Measurable l₁) (m₂ : Measurable l₂) (hc : 0 < c) :
    q₂ = q₁.withDensity fun x => ENNReal.ofReal (Real.exp (l₂ x - l₁ x)) := by
  rw [h₁, h₂, ← withDensity_mul]
  · congr 1
    funext x
    rw [Pi.mul_apply, ← ENNReal.ofReal_mul (by positivity)]
    congr 1
    rw [Real.exp_sub]
    field_simp
  · exact ENNReal.measurable_ofReal.comp ((Real.measurable_exp.comp m₁).div_const _)
  · exact ENNReal.measurable_ofReal.comp (Real.measurable_exp.comp (m₂.sub m₁))

/-- **C76 (what training compares).** Two models with the same constant `c` (that is, the same stored statistics): on data distributed like `p` the difference of their expected losses is the
difference of the Kullback-Leibler divergences of `p` from the distributions they sample. -/
theorem C76_divergence (p q₁ q₂ : Measure (Fin d → ℝ)) [IsProbabilityMeasure p] [IsProbabilityMeasure q₁] [IsProbabilityMeasure q₂] (l₁ l₂ : (Fin d → ℝ) → ℝ) (c : ℝ) (hc : 0 < c)
    (m₁ : Measurable l₁) (m₂ : Measurable l₂) (h₁ : HasDensity q₁ l₁ c) (h₂ : HasDensity q₂ l₂ c) (f₁ : klDiv p q₁ ≠ ⊤) (f₂ : klDiv p q₂ ≠ ⊤) (i₁ : Integrable l₁ p) (i₂ : Integrable l₂ p) :
    (-∫ x, l₁ x ∂p) - (-∫ x, l₂ x ∂p) = (klDiv p q₁).toReal - (klDiv p q₂).toReal := by
  obtain ⟨a₁, j₁⟩ := klDiv_ne_top_iff.1 f₁
  obtain ⟨a₂, j₂⟩ := klDiv_ne_top_iff.1 f₂
  have e := density_change h₁ h₂ m₁ m₂ hc
  have mg : Measurable fun x => ENNReal.ofReal (Real.exp (l₂ x - l₁ x)) := ENNReal.measurable_ofReal.comp (Real.measurable_exp.comp (m₂.sub m₁))
  have r1 : q₂.rnDeriv q₁ =ᵐ[q₁] fun x => ENNReal.ofReal (Real.exp (l₂ x - l₁ x)) := by
    conv_lhs => rw [e]
    exact Measure.rnDeriv_withDensity q₁ mg
  have r2 := Measure.rnDeriv_mul_rnDeriv (μ := p) (ν := q₂) (κ := q₁) a₂
  haveI : p.HaveLebesgueDecomposition q₂ := Measure.haveLebesgueDecomposition_of_sigmaFinite p q₂
  have hllr : ∀ᵐ x ∂p, llr p q₁ x = llr p q₂ x + (l₂ x - l₁ x) := by
    filter_upwards [a₁.ae_le r1, a₁.ae_le r2, Measure.rnDeriv_pos a₂, a₂.ae_le (Measure.rnDeriv_lt_top p q₂)] with x h1 h2 h3 h4
    simp only [llr]
    rw [← h2, Pi.mul_apply, ENNReal.toReal_mul, h1, ENNReal.toReal_ofReal (Real.exp_pos _).le, Real.log_mul (ENNReal.toReal_pos h3.ne' h4.ne).ne' (Real.exp_pos _).ne', Real.log_exp]
  have hsub : Integrable (fun x => l₂ x - l₁ x) p := i₂.sub i₁
  rw [toReal_klDiv_of_measure_eq a₁ (by simp), toReal_klDiv_of_measure_eq a₂ (by simp), integral_congr_ae hllr, integral_add j₂ hsub, integral_sub i₂ i₁]
  ring

/-- **C76 (the minimiser).** On data distributed like the samples of a model (`p`, log-density `l₀` up to the constant `c`) no model with the same constant has a smaller expected loss, and a
model attains the minimum exactly if it samples `p`. -/
theorem C76_minimiser (p q : Measure (Fin d → ℝ)) [IsProbabilityMeasure p] [IsProbabilityMeasure q] (l₀ l : (Fin d → ℝ) → ℝ) (c : ℝ) (hc : 0 < c)
    (m₀ : Measurable l₀) (m : Measurable l) (h₀ : HasDensity p l₀ c) (h : HasDensity q l c) (i₀ : Integrable l₀ p) (i : Integrable l p) :
    (-∫ x, l₀ x ∂p) ≤ (-∫ x, l x ∂p) ∧ ((-∫ x, l x ∂p) = (-∫ x, l₀ x ∂p) ↔ q = p) := by
  have e := density_change h h₀ m m₀ hc
  have mg : Measurable fun x => ENNReal.ofReal (Real.exp (l₀ x - l x)) := ENNReal.measurable_ofReal.comp (Real.measurable_exp.comp (m₀.sub m))
  have ac : p ≪ q := by rw [e]; exact withDensity_absolutelyContinuous _ _
  have r1 : p.rnDeriv q =ᵐ[q] fun x => ENNReal.ofReal (Real.exp (l₀ x - l x)) := by
    conv_lhs => rw [e]
    exact Measure.rnDeriv_withDensity q mg
  have hllr : llr p q =ᵐ[p] fun x => l₀ x - l x := by
    filter_upwards [ac.ae_le r1] with x h1
    simp only [llr]
    rw [h1, ENNReal.toReal_ofReal (Real.exp_pos _).le, Real.log_exp]
  have hint : Integrable (llr p q) p := (integrable_congr hllr).2 (i₀.sub i)
  have fin : klDiv p q ≠ ⊤ := klDiv_ne_top ac hint
  have key := C76_divergence p q p l l₀ c hc m m₀ h h₀ fin (by rw [klDiv_self]; simp) i i₀
  rw [klDiv_self] at key
  simp only [ENNReal.toReal_zero, sub_zero] at key
  refine ⟨by have := ENNReal.toReal_nonneg (a := klDiv p q); linarith, ⟨fun h => ?_, fun h => ?_⟩⟩
  · have : (klDiv p q).toReal = 0 := by linarith
    rw [ENNReal.toReal_eq_zero_iff] at this
    rcases this with h0 | h0
    · exact (klDiv_eq_zero_iff.1 h0).symm
    · exact absurd h0 fin
  · subst h
    rw [klDiv_self] at key
    simp at key; linarith

/-! ### The flows of the package -/

variable {Ω D M O : Type} {past : MeasurableSpace Ω} {sig : Key → MeasurableSpace Ω} [mΩ : MeasurableSpace Ω] {P : Measure Ω} [IsProbabilityMeasure P] {env : Ω → Env ℝ D d M O}

/-- **C76 (RealNVP).** With the default base distribution and positive stored variances, trained or not: the loss of a non-empty batch is minus the average log-likelihood of the batch under the
distribution `q` that `sample` draws from, up to the constant `Σ log σᵢ`, which depends on the stored variances only. -/
theorem C76_realNVP (h : IdealDraws past sig P env) (m : RealNVP d) (hm : ∀ l ∈ m.layers, ZeroOne l.mask) (hv : ∀ i, 0 < m.dataVar i) (hb : m.base = stdGaussian d) :
    ∃ (q : Measure (Fin d → ℝ)) (f : Pos ℝ d → ℝ), IsProbabilityMeasure q ∧ IidRows P sig (fun k n ω => m.sample (env ω).rng k n) q ∧ q = volume.withDensity (fun x => ENNReal.ofReal (f x)) ∧ (∀ x, 0 < f x) ∧
      ∀ xs : List (Pos ℝ d), xs ≠ [] → nfLoss m.logProb xs = -(1 / xs.length * Real.log ((xs.map f).prod)) - ∑ i, Real.log (Real.sqrt (m.dataVar i)) := by
  obtain ⟨q, h1, h2, h3⟩ := C44_realNVP h m hm hv hb
  have hc : 0 < ∏ i, Real.sqrt (m.dataVar i) := Finset.prod_pos fun i _ => Real.sqrt_pos.2 (hv i)
  have hmeas : Measurable m.logProb := by
    have hT := nvp_transports m hm
    have mF := hT.meas
    have mW : Measurable (whiten m.dataMean m.dataVar) := measurable_pi_lambda _ fun i => by unfold whiten; fun_prop
    exact (hT.ldMeas.comp mW).add ((measurable_isoNorm _ _).comp (mF.comp mW))
  have hd := hasDensity_of_samples hc hmeas h2 (C45_realNVP_partial m hm hv)
  refine ⟨q, fun x => Real.exp (m.logProb x) / ∏ i, Real.sqrt (m.dataVar i), h1, h3, hd, fun x => by positivity, fun xs hx => ?_⟩
  rw [C76_batch m.logProb _ hc xs hx, Real.log_prod fun i _ => (Real.sqrt_pos.2 (hv i)).ne']

/-- **C76 (spline flow).** The same for the spline flow while its affine parts are trivial, with any consistent base distribution. -/
theorem C76_spline_untrained (h : IdealDraws past sig P env) (tiny : ℝ) (m : SplineFlow d K) (hw : m.Wellformed) (hg : m.GuardOff tiny) (ha : m.AffineTrivial)
    (hv : ∀ i, 0 < m.dataVar i) (hb : ConsistentBase P sig env m.base) :
    ∃ (q : Measure (Fin d → ℝ)) (f : Pos ℝ d → ℝ), IsProbabilityMeasure q ∧ IidRows P sig (fun k n ω => m.sample tiny (env ω).rng k n) q ∧ q = volume.withDensity (fun x => ENNReal.ofReal (f x)) ∧ (∀ x, 0 < f x) ∧
      ∀ xs : List (Pos ℝ d), xs ≠ [] → nfLoss (m.logProb tiny) xs = -(1 / xs.length * Real.log ((xs.map f).prod)) - ∑ i, Real.log (Real.sqrt (m.dataVar i)) := by
  obtain ⟨q, h1, h2, h3⟩ := C44_spline_partial h tiny m hw hg ha hv hb
  have hc : 0 < ∏ i, Real.sqrt (m.dataVar i) := Finset.prod_pos fun i _ => Real.sqrt_pos.2 (hv i)
  have hmeas : Measurable (m.logProb tiny) := by
    have hT := spline_transports tiny m hw hg ha
    have mF := hT.meas
    have mW : Measurable (whiten m.dataMean m.dataVar) := measurable_pi_lambda _ fun i => by unfold whiten; fun_prop
    exact (hT.ldMeas.comp mW).add (hb.logProb_meas.comp (mF.comp mW))
  have hd := hasDensity_of_samples hc hmeas h2 (C45_spline_partial tiny m hw hv hb.logProb_meas hb.normalised.measure_univ)
  refine ⟨q, fun x => Real.exp (m.logProb tiny x) / ∏ i, Real.sqrt (m.dataVar i), h1, h3, hd, fun x => by positivity, fun xs hx => ?_⟩
  rw [C76_batch (m.logProb tiny) _ hc xs hx, Real.log_prod fun i _ => (Real.sqrt_pos.2 (hv i)).ne']

/-! ### The hypotheses can be met -/

theorem isoNorm_integrable (m : Fin d → ℝ) : Integrable (fun x : Fin d → ℝ => isoNormLogpdf x m 1) (stdNormal d) := by
  have h1 : ∀ i : Fin d, Integrable (fun x : Fin d → ℝ => (x i - m i) * (x i - m i)) (stdNormal d) := by
    intro i
    have mp : MeasurePreserving (Function.eval i) (stdNormal d) (gaussianReal 0 1) := measurePreserving_eval (fun _ : Fin d => gaussianReal 0 1) i
    have h2 : MemLp (fun a : ℝ => a - m i) 2 (gaussianReal 0 1) := (memLp_id_gaussianReal 2).sub (memLp_const _)
    have h3 : Integrable (fun a : ℝ => (a - m i) * (a - m i)) (gaussianReal 0 1) := h2.integrable_mul h2
    exact (mp.integrable_comp h3.aestronglyMeasurable).2 h3
  simp only [isoNormLogpdf, sumFin_eq]
  exact (((integrable_finset_sum _ fun i _ => h1 i).const_mul _).div_const _).sub (integrable_const _)

/-- Non-vacuity of `C76_divergence` and `C76_minimiser`: normal vectors with different means, variance 1. -/
example : ∃ (p q : Measure (Fin 2 → ℝ)) (l₀ l : (Fin 2 → ℝ) → ℝ), IsProbabilityMeasure p ∧ IsProbabilityMeasure q ∧ p ≠ q ∧ Measurable l₀ ∧ Measurable l ∧ HasDensity p l₀ 1 ∧ HasDensity q l 1 ∧
    Integrable l₀ p ∧ Integrable l p := by
  have ha := stdNormal_affine (d := 2) (fun _ => 1) 1 one_ne_zero
  have hmap : Measurable fun (ξ : Fin 2 → ℝ) (i : Fin 2) => (1 : ℝ) + 1 * ξ i := by fun_prop
  have hd : ∀ l : (Fin 2 → ℝ) → ℝ, HasDensity (volume.withDensity fun x => ENNReal.ofReal (Real.exp (l x))) l 1 := fun l => by simp [HasDensity]
  refine ⟨stdNormal 2, (stdNormal 2).map (fun ξ i => 1 + 1 * ξ i), fun x => isoNormLogpdf x (fun _ => 0) 1, fun x => isoNormLogpdf x (fun _ => 1) 1, inferInstance,
    Measure.isProbabilityMeasure_map hmap.aemeasurable, ?_, measurable_isoNorm _ _, measurable_isoNorm _ _, ?_, ?_, isoNorm_integrable _, isoNorm_integrable _⟩
  · intro h
    have mp : MeasurePreserving (Function.eval 0) (stdNormal 2) (gaussianReal 0 1) := measurePreserving_eval (fun _ : Fin 2 => gaussianReal 0 1) 0
    have e0 : ∫ x : Fin 2 → ℝ, x 0 ∂(stdNormal 2) = 0 := by
      have := integral_id_gaussianReal (μ := 0) (v := 1)
      rw [← mp.map_eq, integral_map (f := fun x : ℝ => x) mp.measurable.aemeasurable aestronglyMeasurable_id] at this
      exact this
    have e1 : ∫ x : Fin 2 → ℝ, x 0 ∂((stdNormal 2).map (fun ξ i => 1 + 1 * ξ i)) = 1 := by
      rw [integral_map hmap.aemeasurable (measurable_pi_apply 0).aestronglyMeasurable]
      have hi : Integrable (fun x : Fin 2 → ℝ => x 0) (stdNormal 2) := by
        have h3 : Integrable (fun a : ℝ => a) (gaussianReal 0 1) := (memLp_id_gaussianReal 1).integrable le_rfl
        exact (mp.integrable_comp h3.aestronglyMeasurable).2 h3
      simp only [one_mul]
      rw [integral_add (integrable_const _) hi, e0]
      simp
    rw [← h, e0] at e1
    exact zero_ne_one e1
  · rw [stdNormal_density]; exact hd _
  · rw [ha, one_mul]; exact hd _

/-- Non-vacuity of `C76_realNVP`: a constructed RealNVP with stored variance 4 in the ideal world. -/
example (dr : MLPDraws) : ∃ m : RealNVP 1, (∀ l ∈ m.layers, ZeroOne l.mask) ∧ m.layers ≠ [] ∧ (∀ i, 0 < m.dataVar i) ∧ m.base = stdGaussian 1 := by
  refine ⟨RealNVP.init dr 1 3 4 (.root 0) none none (some fun _ => 4), ?_, ?_, ?_, rfl⟩
  · intro l hl
    simp only [RealNVP.init, List.mem_map, List.mem_range] at hl
    obtain ⟨i, _, rfl⟩ := hl
    exact (C38_masks i).1
  · simp [RealNVP.init]
  · intro i; norm_num [RealNVP.init]

end
end FlowMC
