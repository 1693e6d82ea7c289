import Verif.Props.FlowDensity
import Mathlib.Analysis.Complex.ExponentialBounds
/-
C44 fails for trained spline flows, C46 fails for RealNVP: witnesses.
-/
set_option linter.unusedSectionVars false
open MeasureTheory ProbabilityTheory
open scoped ENNReal
namespace FlowMC
open Spec
noncomputable section
open Classical

variable {Ω D M O : Type} {past : MeasurableSpace Ω} {sig : Key → MeasurableSpace Ω} [mΩ : MeasurableSpace Ω] {P : Measure Ω}
  [IsProbabilityMeasure P] {env : Ω → Env ℝ D 1 M O}

theorem cholesky_one (d : ℕ) : CholeskyFactor (1 : Matrix (Fin d) (Fin d) ℝ) :=
  ⟨fun _ _ h => Matrix.one_apply_ne h.ne, fun i => by rw [Matrix.one_apply_eq]; exact one_pos⟩

/-- If `q` is a probability distribution with (unnormalised) log-density `lnf`, and `exp lnf` integrates to one, then `q` is that distribution. -/
theorem samplesFrom_prob {d : ℕ} {q : Measure (Fin d → ℝ)} [IsProbabilityMeasure q] {lnf : (Fin d → ℝ) → ℝ} (h : SamplesFrom q lnf)
    (h1 : targetMeasure lnf Set.univ = 1) : q = targetMeasure lnf := by
  obtain ⟨Z, hZ⟩ := h
  have := congrArg (fun μ => μ Set.univ) hZ
  simp only [measure_univ, Measure.smul_apply, smul_eq_mul, h1, mul_one] at this
  rw [hZ, ← this, one_smul]

theorem cholesky_scalar {s : ℝ} (hs : 0 < s) : CholeskyFactor (fun _ _ : Fin 1 => s) :=
  ⟨fun i j h => absurd (Subsingleton.elim i j) h.ne, fun _ => hs⟩

/-- C46 for RealNVP, exactly when it holds: for the base distribution `Gaussian(μ, s²)` in one dimension (a constructed model without layers), the samples have
density proportional to `exp(log_prob)` if and only if `μ = 0` and `s = 1`, because `log_prob` always uses `N(0, 1)`. -/
theorem C46_realNVP_base_iff (h : IdealDraws past sig P env) (dr : MLPDraws) (nHidden : ℕ) (k : Key) (μ s : ℝ) (hs0 : 0 < s) :
    ConsistentBase P sig env (gaussian (fun _ : Fin 1 => μ) (fun _ _ => s)) ∧
    ((∃ q : Measure (Fin 1 → ℝ), IsProbabilityMeasure q ∧ SamplesFrom q (RealNVP.init dr 1 0 nHidden k (some (gaussian (fun _ => μ) (fun _ _ => s))) none none).logProb ∧
      IidRows P sig (fun k' n ω => (RealNVP.init dr 1 0 nHidden k (some (gaussian (fun _ => μ) (fun _ _ => s))) none none).sample (env ω).rng k' n) q) ↔ μ = 0 ∧ s = 1) := by
  have hch := cholesky_scalar hs0
  have hb := C46_gaussian h (fun _ : Fin 1 => μ) hch
  refine ⟨hb, ?_⟩
  have hS : ∀ z : Pos ℝ 1, unwhiten (fun _ => 0) (fun _ => 1) z = z := by intro z; funext a; simp [unwhiten]
  have hW : ∀ z : Pos ℝ 1, whiten (fun _ => 0) (fun _ => 1) z = z := by intro z; funext a; simp [whiten]
  have e1 : ∀ x, (RealNVP.init dr 1 0 nHidden k (some (gaussian (fun _ => μ) (fun _ _ => s))) none none).logProb x = isoNormLogpdf x (fun _ => 0) 1 := by
    intro x
    simp [RealNVP.logProb, RealNVP.init, RealNVP.forward, scan, hW]
  have e2 : ∀ rng k' n, (RealNVP.init dr 1 0 nHidden k (some (gaussian (fun _ => μ) (fun _ _ => s))) none none).sample rng k' n =
      (gaussian (fun _ : Fin 1 => μ) (fun _ _ => s)).sample rng k' n := by
    intro rng k' n
    simp [RealNVP.sample, RealNVP.init, RealNVP.inverse, scan, hS]
  have hlaw : targetMeasure (gaussian (fun _ : Fin 1 => μ) (fun _ _ => s)).logProb = stdNormal 1 ↔ μ = 0 ∧ s = 1 := by
    rw [← gaussian_density _ hch]
    have hmul : ∀ (z : Fin 1 → ℝ) (a : Fin 1), Matrix.mulVec (fun _ _ : Fin 1 => s) z a = s * z 0 := by
      intro z a; simp [Matrix.mulVec, dotProduct]
    simp only [hmul]
    constructor
    · intro hm
      have e := congrArg (fun μ => μ.map (fun v : Fin 1 → ℝ => v 0)) hm
      rw [Measure.map_map (by fun_prop) (by fun_prop)] at e
      have hcomp : ((fun v : Fin 1 → ℝ => v 0) ∘ fun z (_ : Fin 1) => μ + s * z 0) = ((fun t => μ + t) ∘ fun t => s * t) ∘ fun v : Fin 1 → ℝ => v 0 := rfl
      rw [hcomp, ← Measure.map_map (by fun_prop) (by fun_prop), ← Measure.map_map (by fun_prop) (by fun_prop), stdNormal,
        (measurePreserving_eval (fun _ : Fin 1 => gaussianReal 0 1) 0).map_eq, gaussianReal_map_const_mul, gaussianReal_map_const_add] at e
      obtain ⟨a, b⟩ := gaussianReal_ext_iff.1 e
      refine ⟨by simpa using a, ?_⟩
      have b' := congrArg NNReal.toReal b
      simp at b'
      rcases b' with h | h
      · exact h
      · linarith
    · rintro ⟨rfl, rfl⟩
      have : (fun (z : Fin 1 → ℝ) (_ : Fin 1) => (0 : ℝ) + 1 * z 0) = id := by
        funext z a
        have : a = 0 := Subsingleton.elim _ _
        subst this; simp
      rw [this, Measure.map_id]
  rw [funext e1]
  simp only [e2]
  have := hb.normalised
  constructor
  · rintro ⟨q, hq, hs, hr⟩
    have hq1 : q = targetMeasure (fun x : Fin 1 → ℝ => isoNormLogpdf x (fun _ => 0) 1) := samplesFrom_prob hs (stdNormal_mass 1)
    have hq2 := hr.unique hb.rows
    rw [← stdNormal_density] at hq1
    exact hlaw.1 (hq2.symm.trans hq1)
  · intro hms
    refine ⟨_, this, ⟨1, ?_⟩, hb.rows⟩
    rw [one_smul, ← stdNormal_density]
    exact hlaw.2 hms

/-- C46 is false for RealNVP: with the base distribution `Gaussian(1, 1)` the samples are `N(1, 1)`, but `log_prob` is the density of `N(0, 1)`. -/
theorem C46_realNVP_ignores_base (h : IdealDraws past sig P env) (dr : MLPDraws) (nHidden : ℕ) (k : Key) :
    ConsistentBase P sig env (gaussian (fun _ : Fin 1 => (1 : ℝ)) (fun _ _ => 1)) ∧
    ¬ ∃ q : Measure (Fin 1 → ℝ), IsProbabilityMeasure q ∧ SamplesFrom q (RealNVP.init dr 1 0 nHidden k (some (gaussian (fun _ => 1) (fun _ _ => 1))) none none).logProb ∧
      IidRows P sig (fun k' n ω => (RealNVP.init dr 1 0 nHidden k (some (gaussian (fun _ => 1) (fun _ _ => 1))) none none).sample (env ω).rng k' n) q := by
  obtain ⟨h1, h2⟩ := C46_realNVP_base_iff h dr nHidden k 1 1 one_pos
  exact ⟨h1, fun hq => one_ne_zero (h2.1 hq).1⟩

/-! ### The trained spline -/

theorem stdNormal_lt {a b : ℝ} (h : a < b) : stdNormal 1 {z | z 0 ≤ a} < stdNormal 1 {z | z 0 ≤ b} := by
  have e : ∀ c : ℝ, stdNormal 1 {z | z 0 ≤ c} = gaussianReal 0 1 (Set.Iic c) := by
    intro c
    rw [← (measurePreserving_eval (fun _ : Fin 1 => gaussianReal 0 1) 0).measure_preimage measurableSet_Iic.nullMeasurableSet]
    rfl
  rw [e, e]
  have hsplit : Set.Iic b = Set.Iic a ∪ Set.Ioc a b := (Set.Iic_union_Ioc_eq_Iic h.le).symm
  rw [hsplit, measure_union (Set.Iic_disjoint_Ioc le_rfl) measurableSet_Ioc]
  refine ENNReal.lt_add_right (measure_ne_top _ _) ?_
  intro h0
  have := gaussianReal_absolutelyContinuous' 0 (one_ne_zero) h0
  rw [Real.volume_Ioc, ENNReal.ofReal_eq_zero] at this
  linarith

/-- The spline of the witness. -/
def badQ (t : ℝ) : ℝ := (splineFwd t badKnots.xPos badKnots.yPos badKnots.slopes).1

theorem badQ_left {t : ℝ} (h : t ≤ -10) : badQ t = (t + 10) * badKnots.slopes 0 - 10 := by
  obtain ⟨hx, hy⟩ := badKnots_ends
  rw [badQ, splineFwd_left badKnots_valid (by rw [hx]; exact h), hx, hy]; ring

/-- C44 is false for trained spline flows: for the witness `badSpline` (valid settings, 0/1 mask, default base, unit variance), whenever the guard of the quadratic
formula is inactive, the samples do not have density proportional to `exp(log_prob)`. -/
theorem C44_trained_spline_wrong_density (h : IdealDraws past sig P env) (tiny : ℝ) (ht : ClipInactive tiny badKnots.xPos badKnots.yPos badKnots.slopes) :
    ¬ ∃ q : Measure (Fin 1 → ℝ), IsProbabilityMeasure q ∧ SamplesFrom q (badSpline.logProb tiny) ∧ IidRows P sig (fun k n ω => badSpline.sample tiny (env ω).rng k n) q := by
  rintro ⟨q, hq, hs, hr⟩
  have hg : badSpline.GuardOff tiny := by
    intro l hl cond f
    simp only [badSpline, List.mem_singleton] at hl
    have : f = 0 := Subsingleton.elim _ _
    subst this hl
    simp only [condKnots, badNet]
    exact ht
  have hb := C46_stdGaussian (d := 1) h
  -- law of the samples
  have hmono : StrictMono badQ := C40_strictMono badKnots_valid
  have hInv : ∀ y, badQ (splineInv tiny y badKnots.xPos badKnots.yPos badKnots.slopes).1 = y := fun y =>
    congrArg Prod.fst (C41_fwd_inv badKnots_valid ht y)
  have hS : ∀ z : Pos ℝ 1, unwhiten badSpline.dataMean badSpline.dataVar (badSpline.inverse tiny z).1 = fun _ => (splineInv tiny (z 0 - 1) badKnots.xPos badKnots.yPos badKnots.slopes).1 := by
    intro z; rw [badSpline_inverse]; funext a; simp [unwhiten, badSpline]
  have hset : ∀ c : ℝ, {z : Pos ℝ 1 | (splineInv tiny (z 0 - 1) badKnots.xPos badKnots.yPos badKnots.slopes).1 ≤ c} = {z | z 0 ≤ badQ c + 1} := by
    intro c; ext z
    simp only [Set.mem_setOf_eq]
    rw [← hmono.le_iff_le, hInv]
    constructor <;> intro h <;> linarith
  have mS : Measurable (fun z : Pos ℝ 1 => (fun _ : Fin 1 => (splineInv tiny (z 0 - 1) badKnots.xPos badKnots.yPos badKnots.slopes).1)) := by
    refine measurable_pi_lambda _ fun _ => measurable_of_Iic fun c => ?_
    show MeasurableSet {z : Pos ℝ 1 | _ ≤ c}
    rw [hset]
    exact measurableSet_le (measurable_pi_apply 0) measurable_const
  have hrows : IidRows P sig (fun k n ω => badSpline.sample tiny (env ω).rng k n)
      ((stdNormal 1).map (fun z : Pos ℝ 1 => (fun _ : Fin 1 => (splineInv tiny (z 0 - 1) badKnots.xPos badKnots.yPos badKnots.slopes).1))) := by
    have := (normalRows_iid h).mapRows h.sig_le mS
    have e : ∀ rng k n, badSpline.sample tiny rng k n = ((List.finRange n).map (normalRow rng k n 1)).map fun z => (fun _ : Fin 1 => (splineInv tiny (z 0 - 1) badKnots.xPos badKnots.yPos badKnots.slopes).1) := by
      intro rng k n
      unfold SplineFlow.sample
      simp only [hS]
      rfl
    simp only [e]
    exact this
  have : IsProbabilityMeasure ((stdNormal 1).map (fun z : Pos ℝ 1 => (fun _ : Fin 1 => (splineInv tiny (z 0 - 1) badKnots.xPos badKnots.yPos badKnots.slopes).1))) :=
    Measure.isProbabilityMeasure_map mS.aemeasurable
  have hq1 := hr.unique hrows
  -- density
  have hv : ∀ i, 0 < badSpline.dataVar i := fun i => by norm_num [badSpline]
  have hq2 : q = targetMeasure (badSpline.logProb tiny) := by
    refine samplesFrom_prob hs ?_
    rw [C45_spline_partial tiny badSpline badSpline_wellformed hv (measurable_isoNorm _ _) (stdNormal_mass 1)]
    simp [badSpline]
  have hT := spline_transports_all tiny badSpline badSpline_wellformed
  have hden : targetMeasure (badSpline.logProb tiny) {x | x 0 ≤ -100} = stdNormal 1 {y | y 0 ≤ badQ (-99)} := by
    have hA : MeasurableSet {x : Pos ℝ 1 | x 0 ≤ -100} := measurableSet_le (measurable_pi_apply 0) measurable_const
    have hB : MeasurableSet {x : Pos ℝ 1 | x 0 ≤ badQ (-99)} := measurableSet_le (measurable_pi_apply 0) measurable_const
    rw [stdNormal_density, targetMeasure, targetMeasure, withDensity_apply _ hA, withDensity_apply _ hB, ← lintegral_indicator hA, ← lintegral_indicator hB]
    have mI : Measurable ({x : Pos ℝ 1 | x 0 ≤ badQ (-99)}.indicator fun a => ENNReal.ofReal (Real.exp (isoNormLogpdf a (fun _ => 0) 1))) :=
      ((measurable_isoNorm (d := 1) _ _).exp.ennreal_ofReal).indicator hB
    rw [← hT.change _ mI]
    refine lintegral_congr fun x => ?_
    have hw : whiten badSpline.dataMean badSpline.dataVar x = x := by funext a; simp [whiten, badSpline]
    have hiff : x 0 ≤ -100 ↔ badQ (x 0 + 1) ≤ badQ (-99) := by
      rw [hmono.le_iff_le]; constructor <;> intro h <;> linarith
    have h1 : (badSpline.forward tiny x).1 0 = badQ (x 0 + 1) := by rw [badSpline_forward]; rfl
    simp only [Set.indicator, Set.mem_setOf_eq, h1]
    by_cases hx : x 0 ≤ -100
    · rw [if_pos hx, if_pos (hiff.1 hx), ← ENNReal.ofReal_mul (Real.exp_pos _).le, ← Real.exp_add]
      unfold SplineFlow.logProb
      rw [hw]
      rfl
    · rw [if_neg hx, if_neg (fun h => hx (hiff.2 h)), mul_zero]
  have hlaw : q {x | x 0 ≤ -100} = stdNormal 1 {z | z 0 ≤ badQ (-100) + 1} := by
    rw [hq1, Measure.map_apply mS (measurableSet_le (measurable_pi_apply 0) measurable_const), ← hset]
    rfl
  rw [hq2, hden] at hlaw
  have hlt : badQ (-100) + 1 < badQ (-99) := by
    rw [badQ_left (by norm_num), badQ_left (by norm_num)]
    have := badSlope_gt
    linarith
  exact absurd hlaw (stdNormal_lt hlt).ne'

/-- The guard is inactive for the witness with the `float32` constant. -/
theorem badKnots_guard : ClipInactive (2⁻¹ ^ 126) badKnots.xPos badKnots.yPos badKnots.slopes := by
  refine C41_guard_inactive_default _ _ (by norm_num) rfl rfl (by norm_num [badSpline]) (by norm_num [badSpline]) fun i => ?_
  simp only [rowKnots, normalizeKnotSlopes, softplus, badSpline]
  have hrow : badRow ⟨2 * 1 + i.1, by omega⟩ ≤ 1 := by
    unfold badRow; split <;> norm_num
  have h0 : 0 < Real.exp (1 - 1 / 10000 : ℝ) - 1 := by
    have := Real.add_one_lt_exp (x := (1 - 1 / 10000 : ℝ)) (by norm_num); linarith
  have he : Real.exp (1 - 1 / 10000 : ℝ) ≤ 3 := (Real.exp_le_exp.2 (show (1 - 1 / 10000 : ℝ) ≤ 1 by norm_num)).trans (Real.exp_one_lt_d9.le.trans (by norm_num))
  have h1 : Real.exp (badRow ⟨2 * 1 + i.1, by omega⟩ + Real.log (Real.exp (1 - 1 / 10000) - 1)) ≤ 9 := by
    rw [Real.exp_add, Real.exp_log h0]
    have a : Real.exp (badRow ⟨2 * 1 + i.1, by omega⟩) ≤ 3 := (Real.exp_le_exp.2 hrow).trans (Real.exp_one_lt_d9.le.trans (by norm_num))
    have := mul_le_mul a (show Real.exp (1 - 1 / 10000 : ℝ) - 1 ≤ 3 by linarith) h0.le (by norm_num)
    linarith
  have h2 : Real.log (1 + Real.exp (badRow ⟨2 * 1 + i.1, by omega⟩ + Real.log (Real.exp (1 - 1 / 10000) - 1))) ≤ 9 := by
    have := Real.log_le_sub_one_of_pos (show 0 < 1 + Real.exp (badRow ⟨2 * 1 + i.1, by omega⟩ + Real.log (Real.exp (1 - 1 / 10000) - 1)) by positivity)
    linarith
  norm_num at h2 ⊢
  linarith

/-- The witness meets every hypothesis with the `float32` constant. -/
example (h : IdealDraws past sig P env) : ¬ ∃ q : Measure (Fin 1 → ℝ), IsProbabilityMeasure q ∧ SamplesFrom q (badSpline.logProb (2⁻¹ ^ 126)) ∧
    IidRows P sig (fun k n ω => badSpline.sample (2⁻¹ ^ 126) (env ω).rng k n) q := C44_trained_spline_wrong_density h _ badKnots_guard

end
end FlowMC
