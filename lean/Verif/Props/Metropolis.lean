import Verif.Lemmas.Gaussian
import Verif.Spec.Ideal
import Mathlib.Tactic.Linarith
/-
C21 (acceptance probability), C22 (Gaussian random walk), C23 (MALA), C26 (flow proposals): one step is reversible with respect to `exp (logpdf x) dx`.

Arithmetic is exact and the draws are exact (`noise d`: a standard normal vector and an independent uniform number in `[0, 1)`).
-/
open MeasureTheory ProbabilityTheory ENNReal
set_option linter.unusedSectionVars false
namespace FlowMC
open Spec

variable {D : Type} {d : ℕ}

theorem acceptTest_real (u r : ℝ) : acceptTest u r = true ↔ Real.log u < r := by simp [acceptTest, Transc.log]

/-! ### C21 -/

/-- **C21.** The test every kernel applies to a log ratio `r` (and the replica exchange, too) accepts with probability `min(1, e^r)`. -/
theorem C21_accept_probability (r : ℝ) : unif {u | acceptTest u r = true} = ENNReal.ofReal (min 1 (Real.exp r)) := by
  simp only [acceptTest_real]; exact unif_accept r

/-- **C21.** A move with `r ≥ 0` is accepted for every draw in `(0, 1)`. -/
theorem C21_accept_certain (r u : ℝ) (hr : 0 ≤ r) (h0 : 0 < u) (h1 : u < 1) : acceptTest u r = true := by
  rw [acceptTest_real]; exact lt_of_lt_of_le (Real.log_neg h0 h1) hr

/-- **C21**, Gaussian random walk: the move `x → x + step ξ` is accepted with probability `min(1, π(x + step ξ) / π(x))`. -/
theorem C21_grw (step : ℝ) (t : Target ℝ D d) (data : Data D) (ξ x : Pos ℝ d) :
    unif {u | (grwStep step t data ξ u x (t.val x data)).acc = true} =
      ENNReal.ofReal (min 1 (Real.exp (t.val (fun i => x i + ξ i * step) data) / Real.exp (t.val x data))) := by
  rw [← Real.exp_sub]; exact C21_accept_probability _

/-- The log-density of a normal vector with mean `m` and covariance `c · 1`, written as a product of the one-dimensional densities. -/
noncomputable def Spec.normalDensity (y m : Fin d → ℝ) (c : ℝ) : ℝ := ∏ i, gaussianPDFReal (m i) c.toNNReal (y i)

theorem exp_isoNorm (y m : Fin d → ℝ) (c : ℝ) (hc : 0 < c) : Real.exp (isoNormLogpdf y m c) = normalDensity y m c := by
  have h := isoNorm_density y m c hc
  have h2 : ∏ i, gaussianPDF (m i) c.toNNReal (y i) = ENNReal.ofReal (normalDensity y m c) := by
    rw [normalDensity, ENNReal.ofReal_prod_of_nonneg (fun i _ => gaussianPDFReal_nonneg _ _ _)]; rfl
  rw [h2] at h
  exact (ENNReal.ofReal_eq_ofReal_iff (Real.exp_pos _).le (Finset.prod_nonneg fun i _ => gaussianPDFReal_nonneg _ _ _)).1 h

/-- **C21**, MALA: the move `x → y = x + dt²/2 ∇(x) + dt ξ` is accepted with probability `min(1, π(y) q(x | y) / (π(x) q(y | x)))` where
`q(· | x)` is the normal density with mean `x + dt²/2 ∇(x)` and covariance `dt²`. -/
theorem C21_mala (dt : ℝ) (hdt : dt ≠ 0) (t : Target ℝ D d) (data : Data D) (ξ x y : Pos ℝ d) (lp : ℝ)
    (hy : y = fun i => x i + dt ^ 2 / 2 * t.grad x data i + dt * ξ i) :
    unif {u | (malaStep dt t data ξ u x lp).acc = true} =
      ENNReal.ofReal (min 1 (Real.exp (t.val y data) * normalDensity x (fun i => y i + dt ^ 2 / 2 * t.grad y data i) (dt ^ 2) /
        (Real.exp (t.val x data) * normalDensity y (fun i => x i + dt ^ 2 / 2 * t.grad x data i) (dt ^ 2)))) := by
  have hc : 0 < dt * dt := mul_self_pos.2 hdt
  have hm : ∀ a : Pos ℝ d, malaMean dt a (t.grad a data) = fun i => a i + dt ^ 2 / 2 * t.grad a data i := by
    intro a; funext i; simp only [malaMean, two]; ring
  have hp : malaProposal dt x (t.grad x data) ξ = y := by
    funext i; rw [hy]; simp only [malaProposal, hm]
  have e : (fun u => (malaStep dt t data ξ u x lp).acc = true) = fun u => acceptTest u (malaRatio dt x y (t.grad x data) (t.grad y data) (t.val x data) (t.val y data)) = true := by
    funext u; simp only [malaStep, hp]
  show unif {u | (fun u => (malaStep dt t data ξ u x lp).acc = true) u} = _
  rw [e, C21_accept_probability, malaRatio, ← hm, ← hm, sq, ← exp_isoNorm _ _ _ hc, ← exp_isoNorm _ _ _ hc, ← Real.exp_add, ← Real.exp_add, ← Real.exp_sub]
  congr 3
  ring

/-- **C21**, flow proposals: accepted with probability `min(1, π(y) f(x) / (π(x) f(y)))`, `f` the flow's density. -/
theorem C21_flow (x y : Pos ℝ d) (lpx lpy fx fy : ℝ) :
    unif {u | (nfBody u ⟨x, lpx, fx⟩ (y, lpy, fy)).2.acc = true} =
      ENNReal.ofReal (min 1 (Real.exp lpy * Real.exp fx / (Real.exp lpx * Real.exp fy))) := by
  have : Real.exp lpy * Real.exp fx / (Real.exp lpx * Real.exp fy) = Real.exp ((lpy - lpx) - (fy - fx)) := by
    rw [← Real.exp_add, ← Real.exp_add, ← Real.exp_sub]; congr 1; ring
  rw [this]; exact C21_accept_probability _

/-! ### C22 -/

theorem exp_mul_min (a b : ℝ) : ENNReal.ofReal (Real.exp a) * ENNReal.ofReal (min 1 (Real.exp (b - a))) = ENNReal.ofReal (min (Real.exp a) (Real.exp b)) := by
  rw [← ENNReal.ofReal_mul (Real.exp_pos _).le, mul_min_of_nonneg _ _ (Real.exp_pos _).le, mul_one, ← Real.exp_add]
  congr 3; ring

theorem grwProposal_measurable {step : ℝ} : Measurable (fun z : (Fin d → ℝ) × (Fin d → ℝ) => grwProposal step z.1 z.2) := by
  refine measurable_pi_lambda _ fun i => ?_
  simp only [grwProposal]
  fun_prop

theorem grw_involution (step : ℝ) : MeasurePreserving (fun z : (Fin d → ℝ) × (Fin d → ℝ) => (grwProposal step z.1 z.2, fun i => -z.2 i))
    (volume.prod (stdNormal d)) (volume.prod (stdNormal d)) := by
  have h1 := (stdNormal_neg d).skew_product (μc := (volume : Measure (Fin d → ℝ))) (μd := volume) (g := fun ξ x => grwProposal step x ξ)
    (grwProposal_measurable.comp measurable_swap) (.of_forall fun ξ => by
      have : (fun x : Fin d → ℝ => grwProposal step x ξ) = fun x => x + fun i => ξ i * step := rfl
      show Measure.map (fun x : Fin d → ℝ => grwProposal step x ξ) volume = volume
      rw [this]; exact map_add_right_eq_self _ _)
  exact (Measure.measurePreserving_swap.comp h1).comp Measure.measurePreserving_swap

/-- **C22.** One `GaussianRandomWalk` step is reversible with respect to the density `exp (logpdf)`, for every step size. -/
theorem C22_grw_reversible (step : ℝ) (t : Target ℝ D d) (data : Data D) (ht : Measurable (fun x => t.val x data)) :
    Reversible (targetMeasure (fun x => t.val x data)) (noise d) (fun ω x => (grwStep step t data ω.1 ω.2 x (t.val x data)).pos) := by
  have hgm : Measurable (fun z : (Fin d → ℝ) × (Fin d → ℝ) => grwProposal step z.1 z.2) := grwProposal_measurable
  have hty : Measurable (fun z : (Fin d → ℝ) × (Fin d → ℝ) => t.val (grwProposal step z.1 z.2) data) := ht.comp hgm
  have htx : Measurable (fun z : (Fin d → ℝ) × (Fin d → ℝ) => t.val z.1 data) := ht.comp measurable_fst
  have hα : Measurable (fun z : (Fin d → ℝ) × (Fin d → ℝ) => ENNReal.ofReal (min 1 (Real.exp (t.val (grwProposal step z.1 z.2) data - t.val z.1 data)))) := by
    fun_prop
  have hf : Measurable (fun x : Fin d → ℝ => ENNReal.ofReal (Real.exp (t.val x data))) := by fun_prop
  haveI : SFinite (targetMeasure (fun x => t.val x data)) := by unfold targetMeasure; infer_instance
  refine metropolis (targetMeasure (fun x => t.val x data)) (stdNormal d) (fun z => grwProposal step z.1 z.2) hgm
    (fun q => acceptTest q.2 (t.val (grwProposal step q.1.1 q.1.2) data - t.val q.1.1 data) = true) ?_ _ hα (fun z => C21_accept_probability (t.val (grwProposal step z.1 z.2) data - t.val z.1 data)) ?_
  · simp only [acceptTest_real]
    exact measurableSet_lt (by fun_prop) ((hty.sub htx).comp measurable_fst)
  · have hfx : Measurable (fun z : (Fin d → ℝ) × (Fin d → ℝ) => ENNReal.ofReal (Real.exp (t.val z.1 data))) := hf.comp measurable_fst
    rw [targetMeasure, prod_withDensity_left hf, ← withDensity_mul _ hfx hα]
    refine metropolis_involution _ _ (grw_involution step) _ (hfx.mul hα) ?_ _ _ measurable_fst hgm (fun z => rfl) ?_
    · intro z
      have hinv : grwProposal step (grwProposal step z.1 z.2) (fun i => -z.2 i) = z.1 := by funext i; simp [grwProposal]
      simp only [Pi.mul_apply, hinv, exp_mul_min]
      rw [min_comm]
    · intro z; funext i; simp [grwProposal]

theorem grwStep_measurable (step : ℝ) (t : Target ℝ D d) (data : Data D) (ht : Measurable (fun x => t.val x data)) :
    Measurable (fun p : Pos ℝ d × ((Fin d → ℝ) × ℝ) => (grwStep step t data p.2.1 p.2.2 p.1 (t.val p.1 data)).pos) := by
  have hgm : Measurable (fun z : (Fin d → ℝ) × ((Fin d → ℝ) × ℝ) => grwProposal step z.1 z.2.1) :=
    grwProposal_measurable.comp (by fun_prop : Measurable fun z : (Fin d → ℝ) × ((Fin d → ℝ) × ℝ) => (z.1, z.2.1))
  simp only [grwStep, acceptTest_real]
  refine Measurable.ite (measurableSet_lt (by fun_prop) ?_) hgm measurable_fst
  exact (ht.comp hgm).sub (ht.comp measurable_fst)

/-- **C22.** Hence it leaves the target invariant. -/
theorem C22_grw_invariant (step : ℝ) (t : Target ℝ D d) (data : Data D) (ht : Measurable (fun x => t.val x data)) :
    Invariant (targetMeasure (fun x => t.val x data)) (noise d) (fun ω x => (grwStep step t data ω.1 ω.2 x (t.val x data)).pos) := by
  haveI : SFinite (targetMeasure (fun x => t.val x data)) := by unfold targetMeasure; infer_instance
  exact (C22_grw_reversible step t data ht).invariant (grwStep_measurable step t data ht)

/-- **C22.** The same as equality of probability flows between any two sets. -/
theorem C22_grw_detailedBalance (step : ℝ) (t : Target ℝ D d) (data : Data D) (ht : Measurable (fun x => t.val x data)) :
    DetailedBalance (targetMeasure (fun x => t.val x data)) (noise d) (fun ω x => (grwStep step t data ω.1 ω.2 x (t.val x data)).pos) := by
  haveI : SFinite (targetMeasure (fun x => t.val x data)) := by unfold targetMeasure; infer_instance
  exact (C22_grw_reversible step t data ht).detailedBalance (grwStep_measurable step t data ht)

/-! ### C23 -/

/-- A Metropolis–Hastings step whose proposal has a density: enough that `π(x) q(x, y) α(x, y)` is symmetric. -/
theorem metropolis_density {N : Type} [MeasurableSpace N] (p : (Fin d → ℝ) → ℝ≥0∞) (hp : Measurable p) (ν₀ : Measure N) [IsProbabilityMeasure ν₀]
    (g : (Fin d → ℝ) × N → (Fin d → ℝ)) (hg : Measurable g) (q : (Fin d → ℝ) × (Fin d → ℝ) → ℝ≥0∞) (hq : Measurable q)
    (hlaw : ∀ x, ν₀.map (fun n => g (x, n)) = volume.withDensity (fun y => q (x, y)))
    (α : (Fin d → ℝ) × (Fin d → ℝ) → ℝ≥0∞) (hα : Measurable α) (hsym : ∀ x y, p x * (q (x, y) * α (x, y)) = p y * (q (y, x) * α (y, x))) :
    (((volume.withDensity p).prod ν₀).withDensity (fun z => α (z.1, g z))).map (fun z => (z.1, g z)) =
    (((volume.withDensity p).prod ν₀).withDensity (fun z => α (z.1, g z))).map (fun z => (g z, z.1)) := by
  have main : ∀ h : (Fin d → ℝ) × (Fin d → ℝ) → ℝ≥0∞, Measurable h →
      ∫⁻ z, h (z.1, g z) ∂(((volume.withDensity p).prod ν₀).withDensity (fun z => α (z.1, g z))) =
        ∫⁻ z, h z * (p z.1 * (q z * α z)) ∂((volume : Measure (Fin d → ℝ)).prod (volume : Measure (Fin d → ℝ))) := by
    intro h hh
    rw [lintegral_withDensity_eq_lintegral_mul _ (by fun_prop) (by fun_prop), lintegral_prod _ (by fun_prop),
      lintegral_withDensity_eq_lintegral_mul _ hp (by fun_prop), lintegral_prod _ (by fun_prop)]
    refine lintegral_congr fun x => ?_
    simp only [Pi.mul_apply]
    have e1 : ∫⁻ n, α (x, g (x, n)) * h (x, g (x, n)) ∂ν₀ = ∫⁻ y, α (x, y) * h (x, y) ∂(ν₀.map (fun n => g (x, n))) := by
      rw [lintegral_map (by fun_prop) (by fun_prop)]
    rw [e1, hlaw, lintegral_withDensity_eq_lintegral_mul _ (by fun_prop) (by fun_prop), ← lintegral_const_mul _ (by fun_prop)]
    refine lintegral_congr fun y => ?_
    simp only [Pi.mul_apply]
    ring
  refine Measure.ext_of_lintegral _ fun h hh => ?_
  rw [lintegral_map hh (by fun_prop), lintegral_map hh (by fun_prop)]
  have e2 := main (fun z => h z.swap) (by fun_prop)
  simp only [Prod.swap_prod_mk] at e2
  rw [e2, main h hh, ← lintegral_prod_swap (fun z : (Fin d → ℝ) × (Fin d → ℝ) => h z * (p z.1 * (q z * α z)))]
  refine lintegral_congr fun z => ?_
  exact congrArg (h z.swap * ·) (hsym z.1 z.2).symm

theorem malaMean_measurable (dt : ℝ) (t : Target ℝ D d) (data : Data D) (hg : Measurable (fun x => t.grad x data)) :
    Measurable (fun x => malaMean dt x (t.grad x data)) := by
  refine measurable_pi_lambda _ fun i => ?_
  simp only [malaMean]
  have : Measurable fun x => t.grad x data i := (measurable_pi_apply i).comp hg
  fun_prop

theorem malaProposal_measurable (dt : ℝ) (t : Target ℝ D d) (data : Data D) (hg : Measurable (fun x => t.grad x data)) :
    Measurable (fun z : (Fin d → ℝ) × (Fin d → ℝ) => malaProposal dt z.1 (t.grad z.1 data) z.2) := by
  refine measurable_pi_lambda _ fun i => ?_
  simp only [malaProposal]
  have := (measurable_pi_apply i).comp ((malaMean_measurable dt t data hg).comp (measurable_fst : Measurable (Prod.fst : (Fin d → ℝ) × (Fin d → ℝ) → _)))
  simp only [Function.comp_def] at this
  fun_prop

theorem isoNorm_measurable (c : ℝ) (m : (Fin d → ℝ) → (Fin d → ℝ)) (hm : Measurable m) :
    Measurable (fun z : (Fin d → ℝ) × (Fin d → ℝ) => isoNormLogpdf z.2 (m z.1) c) := by
  simp only [isoNormLogpdf, sumFin_eq]
  have : ∀ i, Measurable fun z : (Fin d → ℝ) × (Fin d → ℝ) => m z.1 i := fun i => (measurable_pi_apply i).comp (hm.comp measurable_fst)
  refine Measurable.sub (Measurable.div_const (Measurable.const_mul (Finset.measurable_sum _ fun i _ => ?_) _) _) measurable_const
  have := this i
  fun_prop

/-- log ratio as a function of the pair of positions. -/
noncomputable def malaLogRatio (dt : ℝ) (t : Target ℝ D d) (data : Data D) (z : (Fin d → ℝ) × (Fin d → ℝ)) : ℝ :=
  malaRatio dt z.1 z.2 (t.grad z.1 data) (t.grad z.2 data) (t.val z.1 data) (t.val z.2 data)

theorem malaLogRatio_measurable (dt : ℝ) (t : Target ℝ D d) (data : Data D) (ht : Measurable (fun x => t.val x data)) (hg : Measurable (fun x => t.grad x data)) :
    Measurable (malaLogRatio dt t data) := by
  have h1 := isoNorm_measurable (dt * dt) _ (malaMean_measurable dt t data hg)
  have h2 := h1.comp (measurable_swap (α := Fin d → ℝ) (β := Fin d → ℝ))
  have h3 := ht.comp (measurable_fst : Measurable (Prod.fst : (Fin d → ℝ) × (Fin d → ℝ) → _))
  have h4 := ht.comp (measurable_snd : Measurable (Prod.snd : (Fin d → ℝ) × (Fin d → ℝ) → _))
  exact ((h4.sub h3).sub h1).add h2

theorem malaStep_measurable (dt : ℝ) (t : Target ℝ D d) (data : Data D) (ht : Measurable (fun x => t.val x data)) (hg : Measurable (fun x => t.grad x data))
    (lp : Pos ℝ d → ℝ) :
    Measurable (fun p : Pos ℝ d × ((Fin d → ℝ) × ℝ) => (malaStep dt t data p.2.1 p.2.2 p.1 (lp p.1)).pos) := by
  have hgm : Measurable (fun p : Pos ℝ d × ((Fin d → ℝ) × ℝ) => malaProposal dt p.1 (t.grad p.1 data) p.2.1) :=
    (malaProposal_measurable dt t data hg).comp (by fun_prop : Measurable fun p : Pos ℝ d × ((Fin d → ℝ) × ℝ) => (p.1, p.2.1))
  simp only [malaStep, acceptTest_real]
  refine Measurable.ite (measurableSet_lt (by fun_prop) ?_) hgm measurable_fst
  exact (malaLogRatio_measurable dt t data ht hg).comp (measurable_fst.prodMk hgm)

/-- **C23.** One `MALA` step is reversible with respect to the density `exp (logpdf)`, for every non-zero step size, whatever function the gradient is
(and whatever log-probability is handed in: MALA recomputes it). -/
theorem C23_mala_reversible (dt : ℝ) (hdt : dt ≠ 0) (t : Target ℝ D d) (data : Data D) (ht : Measurable (fun x => t.val x data))
    (hg : Measurable (fun x => t.grad x data)) (lp : Pos ℝ d → ℝ) :
    Reversible (targetMeasure (fun x => t.val x data)) (noise d) (fun ω x => (malaStep dt t data ω.1 ω.2 x (lp x)).pos) := by
  have hf : Measurable (fun x : Fin d → ℝ => ENNReal.ofReal (Real.exp (t.val x data))) := by fun_prop
  have hgm := malaProposal_measurable dt t data hg
  have hr := malaLogRatio_measurable dt t data ht hg
  have hq : Measurable (fun z : (Fin d → ℝ) × (Fin d → ℝ) => ENNReal.ofReal (Real.exp (isoNormLogpdf z.2 (malaMean dt z.1 (t.grad z.1 data)) (dt * dt)))) := by
    have := isoNorm_measurable (dt * dt) _ (malaMean_measurable dt t data hg)
    fun_prop
  haveI : SFinite (targetMeasure (fun x => t.val x data)) := by unfold targetMeasure; infer_instance
  have hα : Measurable (fun z : (Fin d → ℝ) × (Fin d → ℝ) => ENNReal.ofReal (min 1 (Real.exp (malaLogRatio dt t data z)))) := by fun_prop
  have hzg : Measurable (fun z : (Fin d → ℝ) × (Fin d → ℝ) => (z.1, malaProposal dt z.1 (t.grad z.1 data) z.2)) := measurable_fst.prodMk hgm
  refine metropolis (targetMeasure (fun x => t.val x data)) (stdNormal d) (fun z => malaProposal dt z.1 (t.grad z.1 data) z.2) hgm
    (fun q => acceptTest q.2 (malaLogRatio dt t data (q.1.1, malaProposal dt q.1.1 (t.grad q.1.1 data) q.1.2)) = true) ?_
    (fun z => ENNReal.ofReal (min 1 (Real.exp (malaLogRatio dt t data (z.1, malaProposal dt z.1 (t.grad z.1 data) z.2))))) (hα.comp hzg)
    (fun z => C21_accept_probability (malaLogRatio dt t data (z.1, malaProposal dt z.1 (t.grad z.1 data) z.2))) ?_
  · simp only [acceptTest_real]
    exact measurableSet_lt (by fun_prop) ((hr.comp hzg).comp measurable_fst)
  · refine metropolis_density (fun x => ENNReal.ofReal (Real.exp (t.val x data))) hf (stdNormal d) (fun z => malaProposal dt z.1 (t.grad z.1 data) z.2) hgm
      (fun z => ENNReal.ofReal (Real.exp (isoNormLogpdf z.2 (malaMean dt z.1 (t.grad z.1 data)) (dt * dt)))) hq ?_
      (fun z => ENNReal.ofReal (min 1 (Real.exp (malaLogRatio dt t data z)))) hα ?_
    · intro x
      exact stdNormal_affine (malaMean dt x (t.grad x data)) dt hdt
    · intro x y
      have key : ∀ a b : Fin d → ℝ, ENNReal.ofReal (Real.exp (t.val a data)) *
          (ENNReal.ofReal (Real.exp (isoNormLogpdf b (malaMean dt a (t.grad a data)) (dt * dt))) * ENNReal.ofReal (min 1 (Real.exp (malaLogRatio dt t data (a, b))))) =
          ENNReal.ofReal (min (Real.exp (t.val a data + isoNormLogpdf b (malaMean dt a (t.grad a data)) (dt * dt)))
            (Real.exp (t.val b data + isoNormLogpdf a (malaMean dt b (t.grad b data)) (dt * dt)))) := by
        intro a b
        rw [← mul_assoc, ← ENNReal.ofReal_mul (Real.exp_pos _).le, ← Real.exp_add, ← exp_mul_min]
        congr 5
        simp only [malaLogRatio, malaRatio]
        ring
      rw [key, key, min_comm]

/-- **C23.** Hence it leaves the target invariant. -/
theorem C23_mala_invariant (dt : ℝ) (hdt : dt ≠ 0) (t : Target ℝ D d) (data : Data D) (ht : Measurable (fun x => t.val x data))
    (hg : Measurable (fun x => t.grad x data)) (lp : Pos ℝ d → ℝ) :
    Invariant (targetMeasure (fun x => t.val x data)) (noise d) (fun ω x => (malaStep dt t data ω.1 ω.2 x (lp x)).pos) := by
  haveI : SFinite (targetMeasure (fun x => t.val x data)) := by unfold targetMeasure; infer_instance
  exact (C23_mala_reversible dt hdt t data ht hg lp).invariant (malaStep_measurable dt t data ht hg lp)

/-- **C23.** The same as equality of probability flows between any two sets. -/
theorem C23_mala_detailedBalance (dt : ℝ) (hdt : dt ≠ 0) (t : Target ℝ D d) (data : Data D) (ht : Measurable (fun x => t.val x data))
    (hg : Measurable (fun x => t.grad x data)) (lp : Pos ℝ d → ℝ) :
    DetailedBalance (targetMeasure (fun x => t.val x data)) (noise d) (fun ω x => (malaStep dt t data ω.1 ω.2 x (lp x)).pos) := by
  haveI : SFinite (targetMeasure (fun x => t.val x data)) := by unfold targetMeasure; infer_instance
  exact (C23_mala_reversible dt hdt t data ht hg lp).detailedBalance (malaStep_measurable dt t data ht hg lp)

/-! ### C26 -/

/-- **C26.** One flow proposal and its accept/reject decision are reversible with respect to `exp (logpdf)`, whenever the flow's `log_prob` is, up to an
additive constant, the log-density of the flow's samples. -/
theorem C26_flow_reversible (t : Target ℝ D d) (data : Data D) (ht : Measurable (fun x => t.val x data)) (lnf : Pos ℝ d → ℝ) (hl : Measurable lnf)
    (q : Measure (Pos ℝ d)) [IsProbabilityMeasure q] (hq : SamplesFrom q lnf) :
    Reversible (targetMeasure (fun x => t.val x data)) (q.prod unif)
      (fun ω x => (nfBody ω.2 ⟨x, t.val x data, lnf x⟩ (ω.1, t.val ω.1 data, lnf ω.1)).2.pos) := by
  obtain ⟨Z, hZ⟩ := hq
  have hf : Measurable (fun x : Fin d → ℝ => ENNReal.ofReal (Real.exp (t.val x data))) := by fun_prop
  have hfl : Measurable (fun x : Fin d → ℝ => ENNReal.ofReal (Real.exp (lnf x))) := by fun_prop
  haveI : SFinite (targetMeasure (fun x => t.val x data)) := by unfold targetMeasure; infer_instance
  have h1 := ht.comp (measurable_fst : Measurable (Prod.fst : (Fin d → ℝ) × (Fin d → ℝ) → _))
  have h2 := ht.comp (measurable_snd : Measurable (Prod.snd : (Fin d → ℝ) × (Fin d → ℝ) → _))
  have h3 := hl.comp (measurable_fst : Measurable (Prod.fst : (Fin d → ℝ) × (Fin d → ℝ) → _))
  have h4 := hl.comp (measurable_snd : Measurable (Prod.snd : (Fin d → ℝ) × (Fin d → ℝ) → _))
  have hr : Measurable (fun z : (Fin d → ℝ) × (Fin d → ℝ) => (t.val z.2 data - t.val z.1 data) - (lnf z.2 - lnf z.1)) := (h2.sub h1).sub (h4.sub h3)
  have hα : Measurable (fun z : (Fin d → ℝ) × (Fin d → ℝ) => ENNReal.ofReal (min 1 (Real.exp ((t.val z.2 data - t.val z.1 data) - (lnf z.2 - lnf z.1))))) := by
    fun_prop
  refine metropolis (targetMeasure (fun x => t.val x data)) q (fun z => z.2) measurable_snd
    (fun p => acceptTest p.2 ((t.val p.1.2 data - t.val p.1.1 data) - (lnf p.1.2 - lnf p.1.1)) = true) ?_ _ hα (fun z => C21_accept_probability ((t.val z.2 data - t.val z.1 data) - (lnf z.2 - lnf z.1))) ?_
  · simp only [acceptTest_real]
    exact measurableSet_lt (by fun_prop) (hr.comp measurable_fst)
  · refine metropolis_density (fun x => ENNReal.ofReal (Real.exp (t.val x data))) hf q (fun z => z.2) measurable_snd
      (fun z => Z * ENNReal.ofReal (Real.exp (lnf z.2))) ((hfl.comp measurable_snd).const_mul Z) (fun x => ?_)
      (fun z => ENNReal.ofReal (min 1 (Real.exp ((t.val z.2 data - t.val z.1 data) - (lnf z.2 - lnf z.1))))) hα (fun x y => ?_)
    · simp only [Measure.map_id']
      rw [hZ, targetMeasure]
      exact (withDensity_smul Z hfl).symm
    · have key : ∀ a b : Fin d → ℝ, ENNReal.ofReal (Real.exp (t.val a data)) * (Z * ENNReal.ofReal (Real.exp (lnf b)) *
          ENNReal.ofReal (min 1 (Real.exp ((t.val b data - t.val a data) - (lnf b - lnf a))))) =
          Z * ENNReal.ofReal (min (Real.exp (t.val a data + lnf b)) (Real.exp (t.val b data + lnf a))) := by
        intro a b
        rw [← exp_mul_min, Real.exp_add, ENNReal.ofReal_mul (Real.exp_pos _).le]
        rw [show t.val b data + lnf a - (t.val a data + lnf b) = (t.val b data - t.val a data) - (lnf b - lnf a) by ring]
        ring
      rw [key, key, min_comm]

/-- **C26.** Hence one global step leaves the target invariant. -/
theorem C26_flow_invariant (t : Target ℝ D d) (data : Data D) (ht : Measurable (fun x => t.val x data)) (lnf : Pos ℝ d → ℝ) (hl : Measurable lnf)
    (q : Measure (Pos ℝ d)) [IsProbabilityMeasure q] (hq : SamplesFrom q lnf) :
    Invariant (targetMeasure (fun x => t.val x data)) (q.prod unif)
      (fun ω x => (nfBody ω.2 ⟨x, t.val x data, lnf x⟩ (ω.1, t.val ω.1 data, lnf ω.1)).2.pos) := by
  haveI : SFinite (targetMeasure (fun x => t.val x data)) := by unfold targetMeasure; infer_instance
  refine (C26_flow_reversible t data ht lnf hl q hq).invariant ?_
  simp only [nfBody, acceptTest_real]
  refine Measurable.ite (measurableSet_lt (by fun_prop) ?_) (by fun_prop) measurable_fst
  exact ((ht.comp (by fun_prop)).sub (ht.comp measurable_fst)).sub ((hl.comp (by fun_prop)).sub (hl.comp measurable_fst))

/-! ### non-vacuity -/

/-- A correlated two-dimensional target with its true gradient. -/
noncomputable def Toy.ridge : Target ℝ Unit 2 where
  val x _ := -(x 0 - x 1) ^ 2 - (x 1) ^ 4
  grad x _ := ![-2 * (x 0 - x 1), 2 * (x 0 - x 1) - 4 * (x 1) ^ 3]

theorem Toy.ridge_measurable : Measurable (fun x => Toy.ridge.val x ⟨(), none⟩) := by simp only [Toy.ridge]; fun_prop

theorem Toy.ridge_grad_measurable : Measurable (fun x => Toy.ridge.grad x ⟨(), none⟩) := by
  simp only [Toy.ridge]
  refine measurable_pi_lambda _ fun i => ?_
  fin_cases i <;> simp <;> fun_prop

example : Reversible (targetMeasure (fun x => Toy.ridge.val x ⟨(), none⟩)) (noise 2)
    (fun ω x => (malaStep (1/10) Toy.ridge ⟨(), none⟩ ω.1 ω.2 x 0).pos) :=
  C23_mala_reversible _ (by norm_num) _ _ Toy.ridge_measurable Toy.ridge_grad_measurable _

/-- A standard normal flow: its samples and its `log_prob` agree up to a constant (here the constant is dropped on purpose). -/
theorem Toy.normal_samplesFrom : SamplesFrom (stdNormal 2) (fun x : Fin 2 → ℝ => -(x 0 ^ 2 + x 1 ^ 2) / 2) := by
  refine ⟨ENNReal.ofReal (Real.exp (-(Real.log (2 * Real.pi)))), ?_⟩
  have h := stdNormal_affine (d := 2) 0 1 one_ne_zero
  simp only [Pi.zero_apply, zero_add, one_mul, Measure.map_id'] at h
  rw [h, targetMeasure, ← withDensity_smul _ (by fun_prop)]
  congr 1
  funext y
  simp only [Pi.smul_apply, smul_eq_mul]
  rw [← ENNReal.ofReal_mul (Real.exp_pos _).le, ← Real.exp_add]
  congr 2
  simp [isoNormLogpdf, sumFin_eq, two, Transc.log, Transc.pi, Fin.sum_univ_two]
  ring

end FlowMC
