import Verif.Props.Autocovariance
import Verif.Lemmas.Positive
/-
C122: flow proposals and random walks never produce negative autocovariances.
-/
open MeasureTheory ProbabilityTheory
open scoped ENNReal
set_option linter.unusedSectionVars false
namespace FlowMC
open Spec
variable {Ω D M O : Type} {d : ℕ}

theorem lintegral_target {l : (Fin d → ℝ) → ℝ} (hl : Measurable l) {Φ : (Fin d → ℝ) → ℝ≥0∞} (hΦ : Measurable Φ) : ∫⁻ x, Φ x ∂targetMeasure l = ∫⁻ x, ENNReal.ofReal (Real.exp (l x)) * Φ x := by
  rw [targetMeasure, lintegral_withDensity_eq_lintegral_mul _ (by fun_prop) hΦ]
  rfl

/-- Flow proposals are positive. -/
theorem flow_positive (t : Target ℝ D d) (data : Data D) (ht : Measurable (fun x => t.val x data)) (lnf : Pos ℝ d → ℝ) (hl : Measurable lnf)
    (q : Measure (Pos ℝ d)) [IsProbabilityMeasure q] (hq : SamplesFrom q lnf) : PositiveStep (targetMeasure fun x => t.val x data) (q.prod unif) (flowStep t data lnf) := by
  obtain ⟨Z, hZ⟩ := hq
  have : SFinite (targetMeasure (fun x => t.val x data)) := by unfold targetMeasure; infer_instance
  have : SFinite (targetMeasure lnf) := by unfold targetMeasure; infer_instance
  have h1 := ht.comp (measurable_fst : Measurable (Prod.fst : (Fin d → ℝ) × (Fin d → ℝ) → _))
  have h2 := ht.comp (measurable_snd : Measurable (Prod.snd : (Fin d → ℝ) × (Fin d → ℝ) → _))
  have h3 := hl.comp (measurable_fst : Measurable (Prod.fst : (Fin d → ℝ) × (Fin d → ℝ) → _))
  have h4 := hl.comp (measurable_snd : Measurable (Prod.snd : (Fin d → ℝ) × (Fin d → ℝ) → _))
  have hr : Measurable (fun z : (Fin d → ℝ) × (Fin d → ℝ) => (t.val z.2 data - t.val z.1 data) - (lnf z.2 - lnf z.1)) := (h2.sub h1).sub (h4.sub h3)
  have hα : Measurable (fun z : (Fin d → ℝ) × (Fin d → ℝ) => ENNReal.ofReal (min 1 (Real.exp ((t.val z.2 data - t.val z.1 data) - (lnf z.2 - lnf z.1))))) := by
    fun_prop
  refine metropolis_positive (targetMeasure (fun x => t.val x data)) q (fun z => z.2) measurable_snd
    (fun p => acceptTest p.2 ((t.val p.1.2 data - t.val p.1.1 data) - (lnf p.1.2 - lnf p.1.1)) = true) ?_ _ hα (fun z => C21_accept_probability ((t.val z.2 data - t.val z.1 data) - (lnf z.2 - lnf z.1))) fun f h hf hh => ?_
  · simp only [acceptTest_real]
    exact measurableSet_lt (by fun_prop) (hr.comp measurable_fst)
  · set w : (Fin d → ℝ) → ℝ := fun x => Real.exp (t.val x data - lnf x) with hw
    have hwm : Measurable w := (ht.sub hl).exp
    have key : ∀ f h : (Fin d → ℝ) → ℝ≥0∞, Measurable f → Measurable h →
        ∫⁻ x, ∫⁻ y, f x * h y * ENNReal.ofReal (min 1 (Real.exp ((t.val y data - t.val x data) - (lnf y - lnf x)))) ∂q ∂(targetMeasure fun x => t.val x data) =
          Z * ∫⁻ x, ∫⁻ y, f x * h y * ENNReal.ofReal (min (w x) (w y)) ∂(targetMeasure lnf) ∂(targetMeasure lnf) := by
      intro f h hf hh
      have m1 : Measurable fun z : (Fin d → ℝ) × (Fin d → ℝ) => f z.1 * h z.2 * ENNReal.ofReal (min 1 (Real.exp ((t.val z.2 data - t.val z.1 data) - (lnf z.2 - lnf z.1)))) :=
        ((hf.comp measurable_fst).mul (hh.comp measurable_snd)).mul hα
      have m2 : Measurable fun z : (Fin d → ℝ) × (Fin d → ℝ) => f z.1 * h z.2 * ENNReal.ofReal (min (w z.1) (w z.2)) :=
        ((hf.comp measurable_fst).mul (hh.comp measurable_snd)).mul ((hwm.comp measurable_fst).min (hwm.comp measurable_snd)).ennreal_ofReal
      have i2 : Measurable fun x => ∫⁻ y, f x * h y * ENNReal.ofReal (min (w x) (w y)) ∂(targetMeasure lnf) := Measurable.lintegral_prod_right' m2
      rw [lintegral_target ht (Measurable.lintegral_prod_right' m1), lintegral_target hl i2, ← lintegral_const_mul _ ((by fun_prop : Measurable fun x => ENNReal.ofReal (Real.exp (lnf x))).fun_mul i2)]
      refine lintegral_congr fun x => ?_
      have n1 : Measurable fun y => f x * h y * ENNReal.ofReal (min 1 (Real.exp ((t.val y data - t.val x data) - (lnf y - lnf x)))) := m1.comp measurable_prodMk_left
      have n2 : Measurable fun y => f x * h y * ENNReal.ofReal (min (w x) (w y)) := m2.comp measurable_prodMk_left
      rw [hZ, lintegral_smul_measure, smul_eq_mul, mul_left_comm, ← lintegral_const_mul _ n1, ← lintegral_const_mul _ n2]
      congr 1
      refine lintegral_congr fun y => ?_
      have e1 : ENNReal.ofReal (Real.exp (t.val x data)) * ENNReal.ofReal (min 1 (Real.exp ((t.val y data - t.val x data) - (lnf y - lnf x)))) =
          ENNReal.ofReal (min (Real.exp (t.val x data)) (Real.exp (t.val y data - lnf y + lnf x))) := by
        rw [← exp_mul_min]
        congr 4
        ring
      have e2 : ENNReal.ofReal (Real.exp (lnf x)) * ENNReal.ofReal (min (w x) (w y)) = ENNReal.ofReal (min (Real.exp (t.val x data)) (Real.exp (t.val y data - lnf y + lnf x))) := by
        rw [← ENNReal.ofReal_mul (Real.exp_pos _).le, mul_min_of_nonneg _ _ (Real.exp_pos _).le, hw, ← Real.exp_add, ← Real.exp_add]
        congr 3 <;> ring
      rw [mul_left_comm, e1, mul_left_comm, e2]
    have e1 := key f h hf hh
    have e2 := key f f hf hf
    have e3 := key h h hh hh
    refine (congrArg (2 * ·) e1).trans_le (le_trans ?_ (congrArg₂ (· + ·) e2 e3).ge)
    show 2 * (Z * _) ≤ Z * _ + Z * _
    rw [← mul_add, mul_left_comm]
    exact mul_le_mul_right (min_form (targetMeasure lnf) hwm hf hh) Z

/-- The sum of two independent normal vectors, divided by the root of two. -/
theorem stdNormal_halves (d : ℕ) : MeasurePreserving (fun (p : (Fin d → ℝ) × (Fin d → ℝ)) i => (p.1 i + p.2 i) * (Real.sqrt 2)⁻¹) ((stdNormal d).prod (stdNormal d)) (stdNormal d) := by
  have h1 : MeasurePreserving (fun p : ℝ × ℝ => (p.1 + p.2) * (Real.sqrt 2)⁻¹) ((gaussianReal 0 1).prod (gaussianReal 0 1)) (gaussianReal 0 1) := by
    refine ⟨by fun_prop, ?_⟩
    have e := gaussianReal_conv_gaussianReal (m₁ := 0) (m₂ := 0) (v₁ := 1) (v₂ := 1)
    rw [Measure.conv] at e
    have e2 := congrArg (Measure.map (· * (Real.sqrt 2)⁻¹)) e
    rw [Measure.map_map (by fun_prop) (by fun_prop), gaussianReal_map_mul_const] at e2
    refine Eq.trans (by rfl) (e2.trans ?_)
    congr 1
    · simp
    · ext
      simp
      norm_num
  have h2 := measurePreserving_pi (fun _ : Fin d => (gaussianReal 0 1).prod (gaussianReal 0 1)) (fun _ => gaussianReal 0 1) (fun _ => h1)
  have h3 := (measurePreserving_arrowProdEquivProdArrow ℝ ℝ (Fin d) (fun _ => gaussianReal 0 1) (fun _ => gaussianReal 0 1)).symm
  exact h2.comp h3

/-- A random walk move, seen from its middle. -/
theorem walk_middle (s : ℝ) {G : (Fin d → ℝ) × (Fin d → ℝ) → ℝ≥0∞} (hG : Measurable G) :
    ∫⁻ x, ∫⁻ ξ, G (x, grwProposal s x ξ) ∂stdNormal d = ∫⁻ x, ∫⁻ ξ, ∫⁻ η, G (grwProposal (s * (Real.sqrt 2)⁻¹) x ξ, grwProposal (s * (Real.sqrt 2)⁻¹) x η) ∂stdNormal d ∂stdNormal d := by
  set ρ := s * (Real.sqrt 2)⁻¹ with hρ
  have hpm : ∀ s : ℝ, Measurable (fun z : (Fin d → ℝ) × (Fin d → ℝ) => grwProposal s z.1 z.2) := fun s => grwProposal_measurable
  have m0 : ∀ x, Measurable fun ξ => G (x, grwProposal s x ξ) := fun x => hG.comp (measurable_const.prodMk ((hpm s).comp measurable_prodMk_left))
  have m1 : Measurable fun z : (Fin d → ℝ) × ((Fin d → ℝ) × (Fin d → ℝ)) => G (z.1, grwProposal ρ (grwProposal ρ z.1 z.2.1) z.2.2) :=
    hG.comp (measurable_fst.prodMk ((hpm ρ).comp (((hpm ρ).comp (measurable_fst.prodMk (measurable_fst.comp measurable_snd))).prodMk (measurable_snd.comp measurable_snd))))
  have m2 : Measurable fun z : (Fin d → ℝ) × ((Fin d → ℝ) × (Fin d → ℝ)) => G (grwProposal ρ z.1 (fun i => -z.2.1 i), grwProposal ρ z.1 z.2.2) := by
    refine hG.comp (((hpm ρ).comp (measurable_fst.prodMk ?_)).prodMk ((hpm ρ).comp (measurable_fst.prodMk (measurable_snd.comp measurable_snd))))
    exact measurable_pi_lambda _ fun i => ((measurable_pi_apply i).comp (measurable_fst.comp measurable_snd)).neg
  calc ∫⁻ x, ∫⁻ ξ, G (x, grwProposal s x ξ) ∂stdNormal d
      = ∫⁻ x, ∫⁻ p, G (x, grwProposal ρ (grwProposal ρ x p.1) p.2) ∂((stdNormal d).prod (stdNormal d)) := by
        refine lintegral_congr fun x => ?_
        rw [← (stdNormal_halves d).lintegral_comp (m0 x)]
        refine lintegral_congr fun p => ?_
        congr 2
        funext i
        simp only [grwProposal, hρ]
        ring
    _ = ∫⁻ p, (∫⁻ x, G (x, grwProposal ρ (grwProposal ρ x p.1) p.2)) ∂((stdNormal d).prod (stdNormal d)) := lintegral_lintegral_swap m1.aemeasurable
    _ = ∫⁻ p, (∫⁻ x, G (grwProposal ρ x (fun i => -p.1 i), grwProposal ρ x p.2)) ∂((stdNormal d).prod (stdNormal d)) := by
        refine lintegral_congr fun p => ?_
        rw [← lintegral_sub_right_eq_self _ (fun i => p.1 i * ρ)]
        refine lintegral_congr fun x => ?_
        congr 2 <;> funext i <;> simp only [grwProposal, Pi.sub_apply] <;> ring
    _ = ∫⁻ x, ∫⁻ p, G (grwProposal ρ x (fun i => -p.1 i), grwProposal ρ x p.2) ∂((stdNormal d).prod (stdNormal d)) := (lintegral_lintegral_swap m2.aemeasurable).symm
    _ = _ := by
        refine lintegral_congr fun x => ?_
        have m3 : Measurable fun p : (Fin d → ℝ) × (Fin d → ℝ) => G (grwProposal ρ x (fun i => -p.1 i), grwProposal ρ x p.2) := m2.comp measurable_prodMk_left
        have m4 : Measurable fun p : (Fin d → ℝ) × (Fin d → ℝ) => G (grwProposal ρ x p.1, grwProposal ρ x p.2) :=
          hG.comp (((hpm ρ).comp (measurable_const.prodMk measurable_fst)).prodMk ((hpm ρ).comp (measurable_const.prodMk measurable_snd)))
        rw [lintegral_prod _ m3.aemeasurable]
        exact (stdNormal_neg d).lintegral_comp (f := fun ξ => ∫⁻ η, G (grwProposal ρ x ξ, grwProposal ρ x η) ∂stdNormal d) (Measurable.lintegral_prod_right' m4)

/-- Random walks are positive. -/
theorem grw_positive (s : ℝ) (t : Target ℝ D d) (data : Data D) (ht : Measurable (fun x => t.val x data)) :
    PositiveStep (targetMeasure fun x => t.val x data) (noise d) (fun ω x => (grwStep s t data ω.1 ω.2 x (t.val x data)).pos) := by
  have hgm : Measurable (fun z : (Fin d → ℝ) × (Fin d → ℝ) => grwProposal s z.1 z.2) := grwProposal_measurable
  have hty : Measurable (fun z : (Fin d → ℝ) × (Fin d → ℝ) => t.val (grwProposal s z.1 z.2) data) := ht.comp hgm
  have htx : Measurable (fun z : (Fin d → ℝ) × (Fin d → ℝ) => t.val z.1 data) := ht.comp measurable_fst
  have hα : Measurable (fun z : (Fin d → ℝ) × (Fin d → ℝ) => ENNReal.ofReal (min 1 (Real.exp (t.val (grwProposal s z.1 z.2) data - t.val z.1 data)))) := by
    fun_prop
  have : SFinite (targetMeasure (fun x => t.val x data)) := by unfold targetMeasure; infer_instance
  refine metropolis_positive (targetMeasure (fun x => t.val x data)) (stdNormal d) (fun z => grwProposal s z.1 z.2) hgm
    (fun q => acceptTest q.2 (t.val (grwProposal s q.1.1 q.1.2) data - t.val q.1.1 data) = true) ?_ _ hα (fun z => C21_accept_probability (t.val (grwProposal s z.1 z.2) data - t.val z.1 data)) fun f h hf hh => ?_
  · simp only [acceptTest_real]
    exact measurableSet_lt (by fun_prop) ((hty.sub htx).comp measurable_fst)
  · set w : (Fin d → ℝ) → ℝ := fun x => Real.exp (t.val x data) with hw
    have hwm : Measurable w := ht.exp
    set ρ := s * (Real.sqrt 2)⁻¹ with hρ
    have hpm : Measurable (fun z : (Fin d → ℝ) × (Fin d → ℝ) => grwProposal ρ z.1 z.2) := grwProposal_measurable
    have mG : ∀ {f h : (Fin d → ℝ) → ℝ≥0∞}, Measurable f → Measurable h → Measurable fun z : (Fin d → ℝ) × (Fin d → ℝ) => f z.1 * h z.2 * ENNReal.ofReal (min (w z.1) (w z.2)) := fun hf hh =>
      ((hf.comp measurable_fst).mul (hh.comp measurable_snd)).mul ((hwm.comp measurable_fst).min (hwm.comp measurable_snd)).ennreal_ofReal
    have mD : ∀ {f h : (Fin d → ℝ) → ℝ≥0∞}, Measurable f → Measurable h → Measurable fun x => ∫⁻ ξ, ∫⁻ η, f (grwProposal ρ x ξ) * h (grwProposal ρ x η) *
        ENNReal.ofReal (min (w (grwProposal ρ x ξ)) (w (grwProposal ρ x η))) ∂stdNormal d ∂stdNormal d := by
      intro f h hf hh
      refine Measurable.lintegral_prod_right' (f := fun z : (Fin d → ℝ) × (Fin d → ℝ) => ∫⁻ η, f (grwProposal ρ z.1 z.2) * h (grwProposal ρ z.1 η) *
        ENNReal.ofReal (min (w (grwProposal ρ z.1 z.2)) (w (grwProposal ρ z.1 η))) ∂stdNormal d) ?_
      refine Measurable.lintegral_prod_right' (f := fun z : ((Fin d → ℝ) × (Fin d → ℝ)) × (Fin d → ℝ) => f (grwProposal ρ z.1.1 z.1.2) * h (grwProposal ρ z.1.1 z.2) *
        ENNReal.ofReal (min (w (grwProposal ρ z.1.1 z.1.2)) (w (grwProposal ρ z.1.1 z.2)))) ?_
      exact (mG hf hh).comp ((hpm.comp measurable_fst).prodMk (hpm.comp ((measurable_fst.comp measurable_fst).prodMk measurable_snd)))
    have key : ∀ f h : (Fin d → ℝ) → ℝ≥0∞, Measurable f → Measurable h →
        ∫⁻ x, ∫⁻ ξ, f x * h (grwProposal s x ξ) * ENNReal.ofReal (min 1 (Real.exp (t.val (grwProposal s x ξ) data - t.val x data))) ∂stdNormal d ∂(targetMeasure fun x => t.val x data) =
          ∫⁻ x, ∫⁻ ξ, ∫⁻ η, f (grwProposal ρ x ξ) * h (grwProposal ρ x η) * ENNReal.ofReal (min (w (grwProposal ρ x ξ)) (w (grwProposal ρ x η))) ∂stdNormal d ∂stdNormal d := by
      intro f h hf hh
      have m1 : Measurable fun z : (Fin d → ℝ) × (Fin d → ℝ) => f z.1 * h (grwProposal s z.1 z.2) * ENNReal.ofReal (min 1 (Real.exp (t.val (grwProposal s z.1 z.2) data - t.val z.1 data))) :=
        ((hf.comp measurable_fst).mul (hh.comp hgm)).mul hα
      rw [lintegral_target ht (Measurable.lintegral_prod_right' m1), ← walk_middle s (mG hf hh)]
      refine lintegral_congr fun x => ?_
      have n1 : Measurable fun ξ => f x * h (grwProposal s x ξ) * ENNReal.ofReal (min 1 (Real.exp (t.val (grwProposal s x ξ) data - t.val x data))) := m1.comp measurable_prodMk_left
      rw [← lintegral_const_mul _ n1]
      refine lintegral_congr fun ξ => ?_
      rw [mul_left_comm, exp_mul_min]
    refine (congrArg (2 * ·) (key f h hf hh)).trans_le (le_trans ?_ (congrArg₂ (· + ·) (key f f hf hf) (key h h hh hh)).ge)
    rw [← lintegral_const_mul _ (mD hf hh), ← lintegral_add_left (mD hf hf)]
    have px : ∀ x, Measurable fun ξ => grwProposal ρ x ξ := fun x => hpm.comp measurable_prodMk_left
    exact lintegral_mono fun x => min_form (stdNormal d) (hwm.comp (px x)) (hf.comp (px x)) (hh.comp (px x))

variable {past : MeasurableSpace Ω} {sig : Key → MeasurableSpace Ω} [mΩ : MeasurableSpace Ω] {P : Measure Ω} [IsProbabilityMeasure P] {env : Ω → Env ℝ D d M O} [BufNum ℝ]

/-- A stepper that makes flow proposals or random walk moves. -/
def Spec.WalkOrFlow (r0 : String → Option (Resource ℝ D d M O)) (s : TakeSteps) : Prop := s.kind = .group ∨ ∃ step, r0 s.kernelName = some (.kernel (.grw step))

theorem positiveStepper_paths {k : Key} (h : IdealOn (Desc k) past sig P env) {r0 : String → Option (Resource ℝ D d M O)} {data : Data D} {μ : Measure (Pos ℝ d)} [IsProbabilityMeasure μ] {s : TakeSteps}
    (hs : ExactStepper (Desc k) P sig env r0 data μ s) (hwf : WalkOrFlow r0 s) : ∃ (ν : Measure (Pos ℝ d × ℝ)) (_ : IsProbabilityMeasure ν) (step : Pos ℝ d × ℝ → Pos ℝ d → Pos ℝ d),
      Measurable (fun p : Pos ℝ d × (Pos ℝ d × ℝ) => step p.2 p.1) ∧ stepLaw ν step μ = μ ∧ Reversible μ ν step ∧ PositiveStep μ ν step ∧ StepperPaths (Desc k) past sig P env r0 data s ν step := by
  obtain ⟨lr, t, hlr, ht, hm, hg, hμ, ⟨hk, kr, hkr, hx⟩ | ⟨hk, hn, m, b, q, lnf, hb, hkr, hq, hl, hf⟩⟩ := hs
  · obtain ⟨hfin, rfl⟩ := samplesFrom_normalised μ _ hm hμ
    obtain ⟨step, hstep⟩ : ∃ step, r0 s.kernelName = some (.kernel (.grw step)) := hwf.resolve_left (by rw [hk]; simp)
    obtain rfl : kr = .grw step := by rw [hkr] at hstep; simpa using hstep
    have : IsProbabilityMeasure (noise d) := by unfold noise; infer_instance
    have : SFinite (targetMeasure fun x => t.val x data) := by unfold targetMeasure; infer_instance
    have hr := (localStep_reversible _ hx t data hm hg).smul (targetMeasure (fun x => t.val x data) Set.univ)⁻¹
    have hmeas := localStep_measurable (.grw step : KernelRes ℝ d M) t data hm hg
    exact ⟨noise d, inferInstance, _, hmeas, hr.invariant hmeas, hr, (grw_positive step t data hm).smul _, serial_stepperPaths h r0 data s hk _ hx hkr lr hlr t ht hm hg⟩
  · obtain ⟨hfin, rfl⟩ := samplesFrom_normalised μ _ hm hμ
    have : SFinite (targetMeasure fun x => t.val x data) := by unfold targetMeasure; infer_instance
    have hd := flow_mhData t data hm lnf hl q hf.density
    exact ⟨q.prod unif, inferInstance, _, hd.meas, hd.reversible.invariant hd.meas, hd.reversible, (flow_positive t data hm lnf hl q hf.density).smul _,
      group_stepperPaths h r0 data s hk m b hb hkr lr hlr t ht hn hm q lnf hl hf⟩

section
variable (k : Key) (h : IdealOn (Desc k) past sig P env) (r0 : String → Option (Resource ℝ D d M O)) (data : Data D) (μ : Measure (Pos ℝ d)) [IsProbabilityMeasure μ]
    (strats : String → Option (Strategy ℝ D d M O)) (names : List String) (hs : ∀ name ∈ names, ∀ s, strats name = some s → ExactStrategy (Desc k) P sig env r0 data μ s)
    (w w' w1 : Ω → World ℝ D d M O) (hkey : ∀ ω, (w ω).key = k) (hres : ∀ ω, KeepsSamplers r0 (w ω).heap) (i : ℕ) (X : Ω → Pos ℝ d) (hX : ∀ ω, (w ω).xs[i]? = some (X ω))
    (hXm : Measurable[past] X) (hXl : P.map X = μ) (hr : ∀ ω, Completes (env ω) strats data names (w ω) (w' ω))
    (s : TakeSteps) (hstep : ExactStepper (Desc k) P sig env r0 data μ s) (hwf : WalkOrFlow r0 s) (hn : 0 < s.nSteps)
    (hcall : ∀ ω, s.run (env ω) (w' ω).key (w' ω).xs data (w' ω).heap = (.ok ((w1 ω).key, (w1 ω).xs), (w1 ω).heap)) (n cap cur : ℕ) (hw : ∀ ω, (w' ω).xs.length = n)
    (Pn L A : String) (bP bL bA : Ω → Buffer ℝ) (hpt : ∀ ω, PointsAt (w' ω).heap s Pn L A) (hrec : ∀ ω, Recorders (w' ω).heap n cap Pn L A (bP ω) (bL ω) (bA ω))
    (hcur : ∀ ω, (w' ω).heap.pos s.ident = cur) (hfit : cur + ceilDiv' s.nSteps s.thinning ≤ cap)
    (g : Pos ℝ d → ℝ) (hg : Measurable g) (hg2 : Integrable (fun x => g x ^ 2) μ) (c : ℝ)
include h hs hkey hres hX hXm hXl hr hstep hwf hn hcall hw hpt hrec hcur hfit hg hg2

/-- **C122.** In equilibrium, a stepper making flow proposals or random walk moves is called with any number of steps and any thinning.  For every function `g` with finite second moment under the target and every number `c`,
the autocovariances about `c` of the values of `g` at the recorded rows exist and are at all lags not negative, they do not increase with the lag, and they are convex in it; nor do they depend on the row. -/
theorem C122_positive : ∃ b : Ω → Buffer ℝ, (∀ ω, (w1 ω).heap.res Pn = some (.buffer (b ω))) ∧ ∀ F : ℕ → Ω → ℝ, (∀ r ω, F r ω = g fun a => (b ω).data.get [i, cur + r, a]) →
    (∀ r l, r + l < ceilDiv' s.nSteps s.thinning → Integrable (fun ω => (F r ω - c) * (F (r + l) ω - c)) P) ∧
    (∀ r l, r + l < ceilDiv' s.nSteps s.thinning → 0 ≤ autocovariance P F c r l) ∧
    (∀ r r' l l', r + l < ceilDiv' s.nSteps s.thinning → r' + l' < ceilDiv' s.nSteps s.thinning → l ≤ l' → autocovariance P F c r' l' ≤ autocovariance P F c r l) ∧
    (∀ r l, r + (l + 2) < ceilDiv' s.nSteps s.thinning → 2 * autocovariance P F c r (l + 1) ≤ autocovariance P F c r l + autocovariance P F c r (l + 2)) := by
  obtain ⟨k', S', hc⟩ := exact_chain k h r0 data μ strats names hs w w' hkey hres i X hX hXm hXl hr
  obtain ⟨ν, hν, step, hm, hinv, hrev, hpos, hrows⟩ := positiveStepper_paths h hstep hwf
  obtain ⟨ht, Z, hZ, hcell⟩ := stepper_path_rows h hc s hm hrows w1 hcall n cap cur hn hw Pn L A bP bL bA hpt hrec hcur hfit
  choose b hb hcell using hcell
  refine ⟨b, hb, fun F hF => ?_⟩
  have hle : ∀ j < ceilDiv' s.nSteps s.thinning, j * s.thinning + 1 ≤ s.nSteps := fun j hj => lt_of_lt_ceil ht hn hj
  have e : ∀ r l, r + l < ceilDiv' s.nSteps s.thinning → (fun ω => (F r ω - c) * (F (r + l) ω - c)) = fun ω => (g (Z (r * s.thinning + 1) ω) - c) * (g (Z (r * s.thinning + 1 + l * s.thinning) ω) - c) := by
    intro r l hl
    funext ω
    rw [hF, hF, funext (hcell ω r (by omega)), funext (hcell ω (r + l) hl), show (r + l) * s.thinning + 1 = r * s.thinning + 1 + l * s.thinning by ring]
  have hle' : ∀ r l, r + l < ceilDiv' s.nSteps s.thinning → r * s.thinning + 1 + l * s.thinning ≤ s.nSteps := fun r l hl => by
    have := hle _ hl
    rw [Nat.add_mul] at this
    omega
  have hgc : Measurable fun x => g x - c := hg.sub_const c
  have hg2' := centred_square hg hg2 c
  have e' : ∀ r l, r + l < ceilDiv' s.nSteps s.thinning → autocovariance P F c r l = lagReal μ ν step (fun x => g x - c) (l * s.thinning) := fun r l hl =>
    (congrArg (fun f : Ω → ℝ => ∫ ω, f ω ∂P) (e r l hl)).trans (hZ.autocov hm hinv hrev hgc hg2' _ _ (hle' r l hl)).2
  refine ⟨fun r l hl => ?_, fun r l hl => ?_, fun r r' l l' hl hl' hll => ?_, fun r l hl => ?_⟩
  · rw [e r l hl]
    exact (hZ.autocov hm hinv hrev hgc hg2' _ _ (hle' r l hl)).1
  · rw [e' r l hl]
    exact lagReal_nonneg hm hinv hrev hpos hgc hg2' _
  · rw [e' r l hl, e' r' l' hl']
    exact lagReal_antitone hm hinv hrev hpos hgc hg2' hZ hn (Nat.mul_le_mul_right _ hll)
  · rw [e' r l (by omega), e' r (l + 1) (by omega), e' r (l + 2) hl, show (l + 2) * s.thinning = l * s.thinning + s.thinning + s.thinning by ring, show (l + 1) * s.thinning = l * s.thinning + s.thinning by ring]
    exact lagReal_convex hm hinv hrev hpos hgc hg2' _ _

/-- **C122 (averages).** Hence the mean square distance from `c` (such as the true mean) of the average of `g` over the `C` recorded rows is never less than `1/C` of that of `g` under the target, which is what the average over
`C` independent draws from the target has about the true mean: these rows count for at most `C` independent draws. -/
theorem C122_effective_size : ∃ b : Ω → Buffer ℝ, (∀ ω, (w1 ω).heap.res Pn = some (.buffer (b ω))) ∧
    (∫ x, (g x - c) ^ 2 ∂μ) / ceilDiv' s.nSteps s.thinning ≤
      ∫ ω, ((∑ r ∈ Finset.range (ceilDiv' s.nSteps s.thinning), g (fun a => (b ω).data.get [i, cur + r, a])) / ceilDiv' s.nSteps s.thinning - c) ^ 2 ∂P := by
  obtain ⟨b, hb, key⟩ := C122_positive k h r0 data μ strats names hs w w' w1 hkey hres i X hX hXm hXl hr s hstep hwf hn hcall n cap cur hw Pn L A bP bL bA hpt hrec hcur hfit g hg hg2 c
  obtain ⟨k', S', hc⟩ := exact_chain k h r0 data μ strats names hs w w' hkey hres i X hX hXm hXl hr
  obtain ⟨ν, hν, step, hm, hinv, hrev, hpos, hrows⟩ := positiveStepper_paths h hstep hwf
  obtain ⟨ht, Z, hZ, hcell⟩ := stepper_path_rows h hc s hm hrows w1 hcall n cap cur hn hw Pn L A bP bL bA hpt hrec hcur hfit
  refine ⟨b, hb, ?_⟩
  obtain ⟨k1, k2, -, -⟩ := key (fun r ω => g fun a => (b ω).data.get [i, cur + r, a]) fun _ _ => rfl
  set C := ceilDiv' s.nSteps s.thinning with hCdef
  set F : ℕ → Ω → ℝ := fun r ω => g fun a => (b ω).data.get [i, cur + r, a] with hFdef
  have hC : 0 < C := by
    rw [hCdef, ceilDiv']
    exact Nat.div_pos (by omega) ht
  have hC' : (0 : ℝ) < C := by exact_mod_cast hC
  have int2 : ∀ r r', r < C → r' < C → Integrable (fun ω => (F r ω - c) * (F r' ω - c)) P ∧ 0 ≤ ∫ ω, (F r ω - c) * (F r' ω - c) ∂P := by
    intro r r' hr hr'
    rcases le_total r r' with hle | hle
    · obtain ⟨l, rfl⟩ := Nat.exists_eq_add_of_le hle
      exact ⟨k1 r l hr', k2 r l hr'⟩
    · obtain ⟨l, rfl⟩ := Nat.exists_eq_add_of_le hle
      simp only [mul_comm (F (r' + l) _ - c)]
      exact ⟨k1 r' l hr, k2 r' l hr⟩
  have diag : ∀ r < C, ∫ ω, (F r ω - c) * (F r ω - c) ∂P = ∫ x, (g x - c) ^ 2 ∂μ := by
    intro r hr
    have hj : r * s.thinning + 1 ≤ s.nSteps := lt_of_lt_ceil ht hn hr
    have e : ∀ ω, (F r ω - c) * (F r ω - c) = (g (Z (r * s.thinning + 1) ω) - c) ^ 2 := by
      intro ω
      obtain ⟨b', hb', hcell⟩ := hcell ω
      obtain rfl : b' = b ω := by have := hb'.symm.trans (hb ω); simpa using this
      simp only [hFdef]
      rw [funext (hcell r hr), sq]
    simp only [e]
    have hsq : Measurable fun x => ENNReal.ofReal ((g x - c) ^ 2) := ((hg.sub_const c).pow_const 2).ennreal_ofReal
    have e1 := hZ.square hm hinv _ hj hsq (measurable_const (a := (1 : ℝ≥0∞)))
    simp only [mul_one] at e1
    have mz : Measurable fun ω => (g (Z (r * s.thinning + 1) ω) - c) ^ 2 := ((hg.comp (hZ.meas _ hj)).sub_const c).pow_const 2
    rw [integral_eq_lintegral_of_nonneg_ae (Filter.Eventually.of_forall fun _ => sq_nonneg _) mz.aestronglyMeasurable,
      integral_eq_lintegral_of_nonneg_ae (Filter.Eventually.of_forall fun _ => sq_nonneg _) ((hg.sub_const c).pow_const 2).aestronglyMeasurable, e1]
  have expand : ∀ ω, ((∑ r ∈ Finset.range C, F r ω) / C - c) ^ 2 = (∑ r ∈ Finset.range C, ∑ r' ∈ Finset.range C, (F r ω - c) * (F r' ω - c)) / (C : ℝ) ^ 2 := by
    intro ω
    rw [← Finset.sum_mul_sum, Finset.sum_sub_distrib, Finset.sum_const, Finset.card_range, nsmul_eq_mul]
    field_simp
  show _ ≤ ∫ ω, ((∑ r ∈ Finset.range C, F r ω) / C - c) ^ 2 ∂P
  simp only [expand]
  rw [integral_div, integral_finset_sum _ fun r hr => integrable_finset_sum _ fun r' hr' => (int2 r r' (Finset.mem_range.1 hr) (Finset.mem_range.1 hr')).1]
  have lower : ∑ r ∈ Finset.range C, ∫ x, (g x - c) ^ 2 ∂μ ≤ ∑ r ∈ Finset.range C, ∫ ω, ∑ r' ∈ Finset.range C, (F r ω - c) * (F r' ω - c) ∂P := by
    refine Finset.sum_le_sum fun r hr => ?_
    rw [integral_finset_sum _ fun r' hr' => (int2 r r' (Finset.mem_range.1 hr) (Finset.mem_range.1 hr')).1, ← diag r (Finset.mem_range.1 hr)]
    exact Finset.single_le_sum (f := fun r' => ∫ ω, (F r ω - c) * (F r' ω - c) ∂P) (fun r' hr' => (int2 r r' (Finset.mem_range.1 hr) (Finset.mem_range.1 hr')).2) hr
  rw [Finset.sum_const, Finset.card_range, nsmul_eq_mul] at lower
  rw [div_le_div_iff₀ hC' (by positivity)]
  calc _ = (C * ∫ x, (g x - c) ^ 2 ∂μ) * C := by ring
    _ ≤ _ := mul_le_mul_of_nonneg_right lower hC'.le
end

end FlowMC
