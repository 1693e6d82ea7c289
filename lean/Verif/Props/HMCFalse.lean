import Verif.Props.HMC
import Mathlib.Analysis.Calculus.Deriv.Pow
import Mathlib.Analysis.SpecialFunctions.Gaussian.GaussianIntegral
import Mathlib.Tactic.NormNum
import Mathlib.Tactic.Positivity
/-
C25 is false for correlated condition matrices: a proper (normalisable), continuously differentiable target, with its true gradient, and a symmetric positive
definite matrix for which one HMC step does not leave the target invariant.
-/
open MeasureTheory ProbabilityTheory ENNReal
set_option linter.unusedSectionVars false
namespace FlowMC
open Spec

/-- `t.grad` really is the gradient of `t.val`. -/
def Spec.HasTrueGradient {D : Type} {d : ℕ} (t : Target ℝ D d) (data : Data D) : Prop :=
  ∀ x i, HasDerivAt (fun s => t.val (Function.update x i s) data) (t.grad x data i) (x i)

/-- A distribution that can be normalised. -/
def Spec.Proper {d : ℕ} (logp : (Fin d → ℝ) → ℝ) : Prop := targetMeasure logp Set.univ ≠ 0 ∧ targetMeasure logp Set.univ ≠ ∞

namespace HMCBad

/-- `max(s - R, 0)²`. -/
noncomputable def wall (R s : ℝ) : ℝ := (max (s - R) 0) ^ 2

theorem wall_deriv (R s : ℝ) : HasDerivAt (wall R) (2 * max (s - R) 0) s := by
  have h0 : HasDerivAt (fun r : ℝ => (max r 0) ^ 2) (2 * max (s - R) 0) (s - R) := by
    rcases lt_trichotomy (s - R) 0 with h | h | h
    · rw [max_eq_right h.le, mul_zero]
      refine (hasDerivAt_const (s - R) (0:ℝ)).congr_of_eventuallyEq ?_
      filter_upwards [Iio_mem_nhds h] with r hr
      rw [max_eq_right (le_of_lt hr)]; norm_num
    · rw [h, max_self, mul_zero, hasDerivAt_iff_isLittleO]
      have : (fun r : ℝ => (max r 0) ^ 2 - (max (0:ℝ) 0) ^ 2 - (r - 0) • (0:ℝ)) = fun r => (max r 0) ^ 2 := by funext r; simp
      rw [this]
      refine Asymptotics.IsBigO.trans_isLittleO (g := fun r : ℝ => r ^ 2) ?_ ?_
      · refine Asymptotics.IsBigO.of_bound 1 (.of_forall fun r => ?_)
        rw [one_mul, Real.norm_eq_abs, Real.norm_eq_abs, abs_pow, abs_pow]
        refine pow_le_pow_left₀ (abs_nonneg _) ?_ 2
        rcases le_total r 0 with h | h
        · rw [max_eq_right h]; simp
        · rw [max_eq_left h]
      · simpa using (Asymptotics.isLittleO_pow_id (𝕜 := ℝ) (n := 2) (by norm_num))
    · rw [max_eq_left h.le]
      have : HasDerivAt (fun r : ℝ => r ^ 2) (2 * (s - R)) (s - R) := by simpa using hasDerivAt_pow 2 (s - R)
      refine this.congr_of_eventuallyEq ?_
      filter_upwards [Ioi_mem_nhds h] with r hr
      rw [max_eq_left (le_of_lt hr)]
  have h1 : HasDerivAt (fun s : ℝ => s - R) 1 s := (hasDerivAt_id s).sub_const R
  have := h0.comp s h1
  rw [mul_one] at this
  exact this

/-- log-density `x₀` in the box `[-R, R]²`, with quadratic walls outside, and its gradient. -/
noncomputable def tilt (R : ℝ) : Target ℝ Unit 2 where
  val x _ := x 0 - ∑ i, (wall R (x i) + wall R (-x i))
  grad x _ i := (if i = 0 then 1 else 0) - (2 * max (x i - R) 0 - 2 * max (-x i - R) 0)

def noData : Data Unit := ⟨(), none⟩

theorem tilt_gradient (R : ℝ) : HasTrueGradient (tilt R) noData := by
  intro x i
  have hw : ∀ s : ℝ, HasDerivAt (fun s => wall R s + wall R (-s)) (2 * max (s - R) 0 - 2 * max (-s - R) 0) s := by
    intro s
    have h1 := (wall_deriv R (-s)).comp s (hasDerivAt_neg s)
    have := (wall_deriv R s).add h1
    have h2 : HasDerivAt (fun s => wall R s + wall R (-s)) (2 * max (s - R) 0 + 2 * max (-s - R) 0 * -1) s := this
    convert h2 using 1
    ring
  fin_cases i
  · have e : (fun s => (tilt R).val (Function.update x 0 s) noData) = fun s => s - ((wall R s + wall R (-s)) + (wall R (x 1) + wall R (-x 1))) := by
      funext s; simp [tilt, Fin.sum_univ_two, Function.update]
    show HasDerivAt (fun s => (tilt R).val (Function.update x 0 s) noData) _ _
    rw [e]
    have h2 : HasDerivAt (fun s => s - ((wall R s + wall R (-s)) + (wall R (x 1) + wall R (-x 1)))) (1 - (2 * max (x 0 - R) 0 - 2 * max (-x 0 - R) 0)) (x 0) :=
      (hasDerivAt_id (x 0)).sub ((hw (x 0)).add_const (wall R (x 1) + wall R (-x 1)))
    simpa [tilt] using h2
  · have e : (fun s => (tilt R).val (Function.update x 1 s) noData) = fun s => x 0 - ((wall R (x 0) + wall R (-x 0)) + (wall R s + wall R (-s))) := by
      funext s; simp [tilt, Fin.sum_univ_two, Function.update]
    show HasDerivAt (fun s => (tilt R).val (Function.update x 1 s) noData) _ _
    rw [e]
    have := ((hw (x 1)).const_add (wall R (x 0) + wall R (-x 0))).const_sub (x 0)
    simpa [tilt] using this

theorem wall_zero {R s : ℝ} (h : s ≤ R) : wall R s = 0 := by rw [wall, max_eq_right (by linarith)]; norm_num

theorem tilt_val_box (R : ℝ) (x : Fin 2 → ℝ) (h : ∀ i, |x i| ≤ R) : (tilt R).val x noData = x 0 := by
  have := fun i => abs_le.1 (h i)
  simp only [tilt]
  rw [Finset.sum_eq_zero, sub_zero]
  intro i _
  rw [wall_zero (this i).2, wall_zero (by linarith [(this i).1]), add_zero]

theorem tilt_grad_box (R : ℝ) (x : Fin 2 → ℝ) (h : ∀ i, |x i| ≤ R) (i : Fin 2) : (tilt R).grad x noData i = if i = 0 then 1 else 0 := by
  have := abs_le.1 (h i)
  simp only [tilt]
  rw [max_eq_right (by linarith), max_eq_right (by linarith)]; simp

theorem wall_measurable (R : ℝ) : Measurable (wall R) := by unfold wall; fun_prop

theorem tilt_measurable (R : ℝ) : Measurable (fun x => (tilt R).val x noData) := by
  have := wall_measurable R
  simp only [tilt]; fun_prop

theorem wall_lower (R s : ℝ) (hR : 0 ≤ R) : s ^ 2 / 2 - R ^ 2 ≤ wall R s + wall R (-s) := by
  unfold wall
  have a0 := sq_nonneg (max (s - R) 0)
  have b0 := sq_nonneg (max (-s - R) 0)
  rcases le_total s R with h1 | h1
  · rcases le_total (-s) R with h2 | h2
    · nlinarith
    · rw [max_eq_left (by linarith : (0:ℝ) ≤ -s - R)]
      nlinarith [sq_nonneg (-s - 2 * R)]
  · rw [max_eq_left (by linarith : (0:ℝ) ≤ s - R)]
    nlinarith [sq_nonneg (s - 2 * R)]

theorem tilt_proper (R : ℝ) (hR : 0 ≤ R) : Proper (fun x => (tilt R).val x noData) := by
  have hm := tilt_measurable R
  constructor
  · rw [targetMeasure, withDensity_apply _ MeasurableSet.univ, Measure.restrict_univ]
    intro h
    rw [lintegral_eq_zero_iff (by fun_prop)] at h
    have h2 : ∀ x : Fin 2 → ℝ, ¬ ENNReal.ofReal (Real.exp ((tilt R).val x noData)) = 0 := fun x => by simp [Real.exp_pos]
    rw [Filter.EventuallyEq, ae_iff] at h
    have h3 : {a : Fin 2 → ℝ | ¬ ENNReal.ofReal (Real.exp ((tilt R).val a noData)) = (0 : (Fin 2 → ℝ) → ℝ≥0∞) a} = Set.univ := by ext x; simpa using h2 x
    rw [h3] at h
    simp [volume_pi] at h
  · rw [targetMeasure, withDensity_apply _ MeasurableSet.univ, Measure.restrict_univ]
    set f : Fin 2 → ℝ → ℝ≥0∞ := fun i s => ENNReal.ofReal (Real.exp ((if i = 0 then s else 0) + R ^ 2 - s ^ 2 / 2)) with hf
    have hle : ∀ x : Fin 2 → ℝ, ENNReal.ofReal (Real.exp ((tilt R).val x noData)) ≤ ∏ i, f i (x i) := by
      intro x
      simp only [hf]
      rw [← ENNReal.ofReal_prod_of_nonneg (fun i _ => (Real.exp_pos _).le), ← Real.exp_sum]
      refine ENNReal.ofReal_le_ofReal (Real.exp_le_exp.2 ?_)
      have h0 := wall_lower R (x 0) hR
      have h1 := wall_lower R (x 1) hR
      simp only [tilt, Fin.sum_univ_two]
      simp
      linarith
    refine ne_of_lt (lt_of_le_of_lt (lintegral_mono hle) ?_)
    have hfm : ∀ i, Measurable (f i) := by
      intro i; simp only [hf]
      by_cases h : i = 0 <;> simp only [h, if_true, if_false] <;> fun_prop
    rw [volume_pi, lintegral_pi_prod f hfm]
    refine ENNReal.prod_lt_top fun i _ => ?_
    have hint : ∀ a : ℝ, Integrable (fun s : ℝ => Real.exp (a * s + R ^ 2 - s ^ 2 / 2)) := by
      intro a
      have h := (integrable_exp_neg_mul_sq (by norm_num : (0:ℝ) < 1 / 2)).comp_sub_right a
      have h2 := h.const_mul (Real.exp (R ^ 2 + a ^ 2 / 2))
      refine h2.congr (.of_forall fun s => ?_)
      simp only
      rw [← Real.exp_add]
      congr 1; ring
    have hi : Integrable (fun s : ℝ => Real.exp ((if i = 0 then s else 0) + R ^ 2 - s ^ 2 / 2)) := by
      have := hint (if i = 0 then 1 else 0)
      refine this.congr (.of_forall fun s => ?_)
      by_cases h : i = 0 <;> simp [h]
    have := hi.lintegral_lt_top
    exact this

/-- A correlated matrix. -/
def mat : Mat ℝ 2 := fun i j => if i = j then 2 else 1

/-- `cholesky (inv mat)`. -/
noncomputable def chol : Mat ℝ 2 := fun i j => if i = 0 then (if j = 0 then Real.sqrt (2 / 3) else 0) else (if j = 0 then -Real.sqrt (1 / 6) else Real.sqrt (1 / 2))

theorem sq23 : Real.sqrt (2 / 3) * Real.sqrt (2 / 3) = 2 / 3 := Real.mul_self_sqrt (by norm_num)
theorem sq16 : Real.sqrt (1 / 6) * Real.sqrt (1 / 6) = 1 / 6 := Real.mul_self_sqrt (by norm_num)
theorem sq12 : Real.sqrt (1 / 2) * Real.sqrt (1 / 2) = 1 / 2 := Real.mul_self_sqrt (by norm_num)
theorem sq2316 : Real.sqrt (2 / 3) * Real.sqrt (1 / 6) = 1 / 3 := by
  rw [← Real.sqrt_mul (by norm_num), show (2/3 : ℝ) * (1/6) = (1/3) * (1/3) by norm_num, Real.sqrt_mul_self (by norm_num)]

theorem chol_ok : IsCholeskyInv mat chol := by
  constructor
  · intro i j h
    fin_cases i <;> fin_cases j <;> simp_all [chol]
  · intro i
    fin_cases i
    · show 0 < Real.sqrt (2/3); exact Real.sqrt_pos.2 (by norm_num)
    · show 0 < Real.sqrt (1/2); exact Real.sqrt_pos.2 (by norm_num)
  · have a := sq23
    have b := sq16
    have c := sq12
    have e := sq2316
    have e' : Real.sqrt (1 / 6) * Real.sqrt (2 / 3) = 1 / 3 := by rw [mul_comm]; exact e
    intro i j
    rw [Fin.sum_univ_two, Fin.sum_univ_two, Fin.sum_univ_two]
    fin_cases i <;> fin_cases j <;> simp only [mat, chol, Fin.zero_eta, Fin.mk_one, if_true, Fin.isValue, one_ne_zero, if_false, zero_ne_one] <;> nlinarith

/-- displacement of the position in one step, away from the walls -/
noncomputable def disp (z : Fin 2 → ℝ) : Fin 2 → ℝ := fun i => 3 * (hmcMomentum chol z i + if i = 0 then 1 / 2 else 0)

theorem disp_measurable : Measurable disp := by
  refine measurable_pi_lambda _ fun i => ?_
  have := (measurable_pi_apply i).comp (hmcMomentum_measurable chol)
  simp only [Function.comp_def] at this
  simp only [disp]
  fun_prop

theorem colsum (j : Fin 2) : ∑ i, mat i j = 3 := by fin_cases j <;> simp [mat, Fin.sum_univ_two] <;> norm_num

theorem step_box (R : ℝ) (x z : Fin 2 → ℝ) (u : ℝ) (h0 : 0 < u) (h1 : u < 1) (hx : ∀ i, |x i| ≤ R) (hx' : ∀ i, |x i + disp z i| ≤ R) :
    (hmcStep 1 0 mat chol (tilt R) noData z u x ((tilt R).val x noData)).pos = fun i => x i + disp z i := by
  set p := hmcMomentum chol z with hp
  have hg : ∀ y : Fin 2 → ℝ, (∀ i, |y i| ≤ R) → hmcForce (tilt R) noData y = fun i => -(if i = 0 then (1:ℝ) else 0) := by
    intro y hy; funext i; simp only [hmcForce, tilt_grad_box R y hy]
  have hlf : leapfrogStep 1 0 mat (hmcForce (tilt R) noData) (x, p) = (fun i => x i + disp z i, fun i => p i + if i = 0 then 1 else 0) := by
    rw [C24_verlet]
    simp only [zero_add, Function.iterate_one, colsum]
    unfold verlet
    simp only [hg x hx]
    have e : (fun i => x i + 1 * ((p i - 1 / 2 * -(if i = 0 then (1:ℝ) else 0)) * 3)) = fun i => x i + disp z i := by
      funext i; simp only [disp, hp]; split <;> ring
    rw [e, hg _ hx']
    refine Prod.ext rfl ?_
    funext i
    simp only
    split <;> ring
  rw [hmcStep_pos, ← hp, hlf, if_pos]
  rw [acceptTest_real]
  have hE : hmcEnergy mat (tilt R) noData (x, p) - hmcEnergy mat (tilt R) noData (fun i => x i + disp z i, fun i => p i + if i = 0 then 1 else 0) = 0 := by
    have e1 := tilt_val_box R _ hx'
    simp only [hmcEnergy, tilt_val_box R x hx, hmcKinetic, sumFin_eq, Fin.sum_univ_two, two]
    rw [e1]
    simp only [mat, disp, ← hp]
    simp
    ring
  rw [hE]
  exact Real.log_neg h0 h1

/-- the unit square -/
def square : Set (Fin 2 → ℝ) := {x | ∀ i, 0 ≤ x i ∧ x i ≤ 1}

theorem square_eq : square = Set.univ.pi (fun _ => Set.Icc (0:ℝ) 1) := by
  ext x; simp only [square, Set.mem_pi, Set.mem_Icc, Set.mem_setOf_eq, Set.mem_univ, true_imp_iff]

theorem square_measurable : MeasurableSet square := by rw [square_eq]; exact MeasurableSet.univ_pi fun _ => measurableSet_Icc

theorem mass_shift (R : ℝ) (w : Fin 2 → ℝ) (hR : 1 ≤ R) (hw : ∀ i, |w i| + 1 ≤ R) :
    targetMeasure (fun x => (tilt R).val x noData) {x | (fun i => x i + w i) ∈ square} =
      ENNReal.ofReal (Real.exp (-w 0)) * targetMeasure (fun x => (tilt R).val x noData) square := by
  have hms : MeasurableSet {x : Fin 2 → ℝ | (fun i => x i + w i) ∈ square} :=
    (measurable_pi_lambda _ fun i => by fun_prop : Measurable (fun (x : Fin 2 → ℝ) i => x i + w i)) square_measurable
  have hm := tilt_measurable R
  rw [targetMeasure, withDensity_apply _ hms, withDensity_apply _ square_measurable]
  have e1 : ∫⁻ x in {x : Fin 2 → ℝ | (fun i => x i + w i) ∈ square}, ENNReal.ofReal (Real.exp ((tilt R).val x noData)) =
      ∫⁻ x in {x : Fin 2 → ℝ | (fun i => x i + w i) ∈ square}, ENNReal.ofReal (Real.exp (x 0)) := by
    refine setLIntegral_congr_fun hms fun x hx => ?_
    show ENNReal.ofReal (Real.exp ((tilt R).val x noData)) = _
    rw [tilt_val_box R x]
    intro i
    have h := hx i
    have := hw i
    rw [abs_le]
    have := abs_le.1 (le_refl |w i|)
    constructor <;> linarith [h.1, h.2]
  have e2 : ∫⁻ x in square, ENNReal.ofReal (Real.exp ((tilt R).val x noData)) = ∫⁻ x in square, ENNReal.ofReal (Real.exp (x 0)) := by
    refine setLIntegral_congr_fun square_measurable fun x hx => ?_
    show ENNReal.ofReal (Real.exp ((tilt R).val x noData)) = _
    rw [tilt_val_box R x]
    intro i
    rw [abs_le]
    constructor <;> linarith [(hx i).1, (hx i).2]
  rw [e1, e2, ← lintegral_const_mul _ (by fun_prop), ← lintegral_indicator hms, ← lintegral_indicator square_measurable,
    ← lintegral_add_right_eq_self (square.indicator _) (w : Fin 2 → ℝ)]
  refine lintegral_congr fun x => ?_
  have hiff : (x ∈ {x : Fin 2 → ℝ | (fun i => x i + w i) ∈ square}) ↔ x + w ∈ square := Iff.rfl
  by_cases h : x + w ∈ square
  · rw [Set.indicator_of_mem h, Set.indicator_of_mem (hiff.2 h), ← ENNReal.ofReal_mul (Real.exp_pos _).le, ← Real.exp_add]
    congr 2
    simp
  · rw [Set.indicator_of_notMem h, Set.indicator_of_notMem (fun h' => h (hiff.1 h'))]

/-- `E[exp (-displacement)] = exp (3/2)`, where invariance would need 1. -/
theorem mean_disp : 1 < ∫⁻ z, ENNReal.ofReal (Real.exp (-disp z 0)) ∂(stdNormal 2) := by
  set a : ℝ := -(3 * Real.sqrt (2 / 3)) with ha
  set f : Fin 2 → ℝ → ℝ≥0∞ := fun i s => if i = 0 then ENNReal.ofReal (Real.exp (a * s + (-(3/2)))) else 1 with hf
  have e : ∀ z : Fin 2 → ℝ, ENNReal.ofReal (Real.exp (-disp z 0)) = ∏ i, f i (z i) := by
    intro z
    rw [Fin.prod_univ_two]
    simp only [hf, if_true, Fin.isValue, one_ne_zero, if_false, mul_one]
    congr 2
    simp [disp, hmcMomentum, sumFin_eq, chol, ha, Fin.sum_univ_two]
    ring
  simp_rw [e]
  rw [stdNormal, lintegral_pi_prod f (by intro i; simp only [hf]; split <;> fun_prop), Fin.prod_univ_two]
  simp only [hf, if_true, Fin.isValue, one_ne_zero, if_false, lintegral_const, measure_univ, mul_one]
  have hint : Integrable (fun s : ℝ => Real.exp (a * s + -(3/2))) (gaussianReal 0 1) := by
    have := (integrable_exp_mul_gaussianReal (μ := 0) (v := 1) a).mul_const (Real.exp (-(3/2)))
    refine this.congr (.of_forall fun s => ?_)
    simp only; rw [← Real.exp_add]
  rw [← ofReal_integral_eq_lintegral_ofReal hint (.of_forall fun s => (Real.exp_pos _).le)]
  have hval : ∫ s, Real.exp (a * s + -(3/2)) ∂(gaussianReal 0 1) = Real.exp (3 / 2) := by
    have h := congrFun (mgf_id_gaussianReal (μ := 0) (v := 1)) a
    simp only [mgf, id] at h
    have : ∀ s, Real.exp (a * s + -(3/2)) = Real.exp (a * s) * Real.exp (-(3/2)) := fun s => Real.exp_add _ _
    simp_rw [this]
    rw [integral_mul_const, h, ← Real.exp_add]
    congr 1
    have : a ^ 2 = 6 := by rw [ha, neg_sq, mul_pow, sq (Real.sqrt _), sq23]; norm_num
    rw [this]; norm_num
  rw [hval]
  rw [← ENNReal.ofReal_one]
  exact (ENNReal.ofReal_lt_ofReal_iff (Real.exp_pos _)).2 (by rw [← Real.exp_zero]; exact Real.exp_lt_exp.2 (by norm_num))

def ball (r : ℕ) : Set (Fin 2 → ℝ) := {z | ∀ i, |z i| ≤ r}

theorem ball_measurable (r : ℕ) : MeasurableSet (ball r) := by
  have : ball r = ⋂ i, {z : Fin 2 → ℝ | |z i| ≤ (r : ℝ)} := by ext z; simp [ball]
  rw [this]
  exact MeasurableSet.iInter fun i => measurableSet_le (measurable_pi_apply i).abs measurable_const

theorem truncated : ∃ r : ℕ, 1 < ∫⁻ z in ball r, ENNReal.ofReal (Real.exp (-disp z 0)) ∂(stdNormal 2) := by
  have hm : Measurable (fun z => ENNReal.ofReal (Real.exp (-disp z 0))) := by
    have := (measurable_pi_apply (0 : Fin 2)).comp disp_measurable
    simp only [Function.comp_def] at this
    fun_prop
  set ρ := (stdNormal 2).withDensity (fun z => ENNReal.ofReal (Real.exp (-disp z 0))) with hρ
  have hu : (⋃ r, ball r) = Set.univ := by
    refine Set.eq_univ_of_forall fun z => ?_
    obtain ⟨r, hr⟩ := exists_nat_ge (max |z 0| |z 1|)
    refine Set.mem_iUnion.2 ⟨r, fun i => ?_⟩
    fin_cases i
    · exact le_trans (le_max_left _ _) hr
    · exact le_trans (le_max_right _ _) hr
  have hmono : Monotone ball := fun r s hrs z hz i => le_trans (hz i) (by exact_mod_cast hrs)
  have hlim := tendsto_measure_iUnion_atTop (μ := ρ) hmono
  have h1 : 1 < ρ (⋃ r, ball r) := by
    rw [hu, hρ, withDensity_apply _ MeasurableSet.univ, Measure.restrict_univ]; exact mean_disp
  obtain ⟨r, hr⟩ := ((hlim.eventually (lt_mem_nhds h1))).exists
  refine ⟨r, ?_⟩
  rw [hρ, Function.comp_apply, withDensity_apply _ (ball_measurable r)] at hr
  exact hr

theorem disp_bound (r : ℕ) (z : Fin 2 → ℝ) (hz : z ∈ ball r) (i : Fin 2) : |disp z i| ≤ 6 * r + 3 / 2 := by
  have s1 : Real.sqrt (2 / 3) ≤ 1 := Real.sqrt_le_one.2 (by norm_num)
  have s2 : Real.sqrt (1 / 6) ≤ 1 := Real.sqrt_le_one.2 (by norm_num)
  have s3 : Real.sqrt (1 / 2) ≤ 1 := Real.sqrt_le_one.2 (by norm_num)
  have n1 := Real.sqrt_nonneg (2 / 3)
  have n2 := Real.sqrt_nonneg (1 / 6)
  have n3 := Real.sqrt_nonneg (1 / 2)
  have h0 := hz 0
  have h1 := hz 1
  have m : ∀ c y : ℝ, 0 ≤ c → c ≤ 1 → |y| ≤ r → |y * c| ≤ r := by
    intro c y hc hc1 hy
    rw [abs_mul, abs_of_nonneg hc]
    have := abs_nonneg y
    nlinarith
  fin_cases i
  · have := abs_le.1 (m _ _ n1 s1 h0)
    have hr : (0:ℝ) ≤ r := Nat.cast_nonneg r
    have e : disp z 0 = 3 * (z 0 * Real.sqrt (2 / 3) + 1 / 2) := by simp [disp, hmcMomentum, sumFin_eq, chol, Fin.sum_univ_two]
    show |disp z 0| ≤ _
    rw [e, abs_le]
    constructor <;> linarith [this.1, this.2]
  · have a := abs_le.1 (m _ _ n2 s2 h0)
    have b := abs_le.1 (m _ _ n3 s3 h1)
    have e : disp z 1 = 3 * (-(z 0 * Real.sqrt (1 / 6)) + z 1 * Real.sqrt (1 / 2)) := by simp [disp, hmcMomentum, sumFin_eq, chol, Fin.sum_univ_two]
    show |disp z 1| ≤ _
    rw [e, abs_le]
    constructor <;> linarith [a.1, a.2, b.1, b.2]

theorem mat_posdef (v : Fin 2 → ℝ) (hv : v ≠ 0) : 0 < ∑ i, ∑ j, v i * mat i j * v j := by
  simp only [Fin.sum_univ_two, mat]
  simp
  by_contra h
  have h0 : v 0 = 0 := by nlinarith [sq_nonneg (v 0 + v 1), sq_nonneg (v 0), sq_nonneg (v 1)]
  have h1 : v 1 = 0 := by nlinarith [sq_nonneg (v 0 + v 1), sq_nonneg (v 0), sq_nonneg (v 1)]
  exact hv (by funext i; fin_cases i <;> simp [h0, h1])

end HMCBad

open HMCBad in
/-- **C25 is false.** There are a symmetric positive definite `condition_matrix` `M` (with `L = cholesky (inv M)`), and a proper target with its true
gradient, such that one HMC step does not leave the target invariant. -/
theorem C25_not_invariant : ∃ (M L : Mat ℝ 2) (t : Target ℝ Unit 2) (data : Data Unit),
    (∀ i j, M i j = M j i) ∧ (∀ v : Fin 2 → ℝ, v ≠ 0 → 0 < ∑ i, ∑ j, v i * M i j * v j) ∧ IsCholeskyInv M L ∧ HasTrueGradient t data ∧
    Proper (fun x => t.val x data) ∧
    ¬ Invariant (targetMeasure (fun x => t.val x data)) (noise 2) (fun ω x => (hmcStep 1 0 M L t data ω.1 ω.2 x (t.val x data)).pos) := by
  obtain ⟨r, hr⟩ := truncated
  set R : ℝ := 6 * r + 3 with hRdef
  have hr0 : (0:ℝ) ≤ r := Nat.cast_nonneg r
  refine ⟨mat, chol, tilt R, noData, fun i j => by fin_cases i <;> fin_cases j <;> rfl, mat_posdef, chol_ok, tilt_gradient R, tilt_proper R (by linarith), ?_⟩
  intro hinv
  set π := targetMeasure (fun x => (tilt R).val x noData) with hπ
  haveI : SFinite π := by rw [hπ]; unfold targetMeasure; infer_instance
  have hgm : Measurable (fun x => (tilt R).grad x noData) := by
    refine measurable_pi_lambda _ fun i => ?_
    simp only [tilt]; fun_prop
  have hstep := hmcStep_measurable 1 0 mat chol (tilt R) noData (tilt_measurable R) hgm
  have hB := congrArg (fun μ => μ square) hinv
  simp only at hB
  rw [Measure.map_apply hstep square_measurable] at hB
  -- the part of the mass that moves without touching the walls
  set A : Set ((Fin 2 → ℝ) × ((Fin 2 → ℝ) × ℝ)) := {q | q.2.1 ∈ ball r ∧ (0 < q.2.2 ∧ q.2.2 < 1) ∧ (fun i => q.1 i + disp q.2.1 i) ∈ square} with hA
  have hsub : A ⊆ (fun p : (Fin 2 → ℝ) × ((Fin 2 → ℝ) × ℝ) => (hmcStep 1 0 mat chol (tilt R) noData p.2.1 p.2.2 p.1 ((tilt R).val p.1 noData)).pos) ⁻¹' square := by
    rintro ⟨x, z, u⟩ ⟨hz, hu, hs⟩
    have hb := disp_bound r z hz
    have hs' : ∀ i, 0 ≤ x i + disp z i ∧ x i + disp z i ≤ 1 := hs
    show (hmcStep 1 0 mat chol (tilt R) noData z u x ((tilt R).val x noData)).pos ∈ square
    rw [step_box R x z u hu.1 hu.2]
    · exact hs
    · intro i
      have := abs_le.1 (hb i)
      rw [abs_le]
      constructor <;> linarith [(hs' i).1, (hs' i).2, this.1, this.2]
    · intro i
      rw [abs_le]
      constructor <;> linarith [(hs' i).1, (hs' i).2]
  have hdm : Measurable (fun q : (Fin 2 → ℝ) × ((Fin 2 → ℝ) × ℝ) => (fun i => q.1 i + disp q.2.1 i : Fin 2 → ℝ)) := by
    refine measurable_pi_lambda _ fun i => ?_
    have := (measurable_pi_apply i).comp (disp_measurable.comp (by fun_prop : Measurable fun q : (Fin 2 → ℝ) × ((Fin 2 → ℝ) × ℝ) => q.2.1))
    simp only [Function.comp_def] at this
    fun_prop
  have hAm : MeasurableSet A := by
    refine MeasurableSet.inter ?_ (MeasurableSet.inter (MeasurableSet.inter ?_ ?_) (hdm square_measurable))
    · exact (by fun_prop : Measurable fun q : (Fin 2 → ℝ) × ((Fin 2 → ℝ) × ℝ) => q.2.1) (ball_measurable r)
    · exact measurableSet_lt measurable_const (by fun_prop : Measurable fun q : (Fin 2 → ℝ) × ((Fin 2 → ℝ) × ℝ) => q.2.2)
    · exact measurableSet_lt (by fun_prop : Measurable fun q : (Fin 2 → ℝ) × ((Fin 2 → ℝ) × ℝ) => q.2.2) measurable_const
  have hmass : (π.prod (noise 2)) A = (∫⁻ z in ball r, ENNReal.ofReal (Real.exp (-disp z 0)) ∂(stdNormal 2)) * π square := by
    rw [Measure.prod_apply_symm hAm, noise, lintegral_prod _ (measurable_measure_prodMk_right hAm).aemeasurable, ← lintegral_mul_const'' _ ?_,
      ← lintegral_indicator (ball_measurable r)]
    · refine lintegral_congr fun z => ?_
      by_cases hz : z ∈ ball r
      · rw [Set.indicator_of_mem hz]
        have hb := disp_bound r z hz
        have e : ∀ᵐ u ∂unif, π ((fun x => (x, (z, u))) ⁻¹' A) = ENNReal.ofReal (Real.exp (-disp z 0)) * π square := by
          have h0 : ∀ᵐ u ∂unif, 0 < u ∧ u < 1 := by
            rw [unif]
            have h1 : ∀ᵐ u : ℝ ∂volume, u ≠ 0 := by simp [ae_iff]
            rw [ae_restrict_iff' measurableSet_Ico]
            filter_upwards [h1] with u hu hI
            exact ⟨lt_of_le_of_ne hI.1 (Ne.symm hu), hI.2⟩
          filter_upwards [h0] with u hu
          rw [← mass_shift R (disp z) (by linarith) (fun i => by linarith [hb i])]
          congr 1
          ext x
          simp [hA, hz, hu]
        rw [lintegral_congr_ae e, lintegral_const, measure_univ, mul_one]
      · rw [Set.indicator_of_notMem hz]
        have : ∀ u, π ((fun x => (x, (z, u))) ⁻¹' A) = 0 := by
          intro u
          have : ((fun x => (x, (z, u))) ⁻¹' A) = ∅ := by ext x; simp [hA, hz]
          rw [this]; simp
        simp [this]
    · have := (measurable_pi_apply (0 : Fin 2)).comp disp_measurable
      simp only [Function.comp_def] at this
      fun_prop
  have hle := measure_mono (μ := π.prod (noise 2)) hsub
  rw [hB, hmass] at hle
  -- the square has positive finite mass
  have hfin : π square ≠ ∞ := ne_top_of_le_ne_top (tilt_proper R (by linarith)).2 (measure_mono (Set.subset_univ _))
  have hpos : π square ≠ 0 := by
    rw [hπ, targetMeasure, withDensity_apply _ square_measurable]
    have hm := tilt_measurable R
    have hvol : (volume : Measure (Fin 2 → ℝ)) square = 1 := by
      rw [square_eq, volume_pi, Measure.pi_pi]; simp
    have : 0 < ∫⁻ x in square, ENNReal.ofReal (Real.exp ((tilt R).val x noData)) := by
      rw [setLIntegral_pos_iff (by fun_prop)]
      have hs : (Function.support fun x : Fin 2 → ℝ => ENNReal.ofReal (Real.exp ((tilt R).val x noData))) = Set.univ := by
        ext x; simp [Real.exp_pos]
      rw [hs, Set.univ_inter, hvol]; norm_num
    exact this.ne'
  have := ENNReal.mul_lt_mul_left hpos hfin hr
  rw [one_mul] at this
  exact absurd hle (not_le.2 this)

end FlowMC
