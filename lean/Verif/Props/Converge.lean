import Verif.Lemmas.ConvergeMH
import Verif.Props.FlowChains
import Verif.Lemmas.ShortTrajectory
/-
C70: chains converge in total variation to the target, from every start.

Exact arithmetic, an ideal generator, and a target whose density is positive everywhere and has a finite integral.
-/
open MeasureTheory ProbabilityTheory Filter Topology
open scoped ENNReal InnerProductSpace
set_option linter.unusedSectionVars false
namespace FlowMC
open Spec

variable {D M : Type} {d : ℕ}

/-! ### the normalised target -/

theorem targetMeasure_ne_zero (lp : (Fin d → ℝ) → ℝ) (hm : Measurable lp) : targetMeasure lp Set.univ ≠ 0 := by
  rw [targetMeasure, withDensity_apply _ MeasurableSet.univ, setLIntegral_univ]
  intro h0
  rw [lintegral_eq_zero_iff (by fun_prop)] at h0
  obtain ⟨x, hx⟩ := h0.exists
  simp only [Pi.zero_apply, ENNReal.ofReal_eq_zero] at hx
  exact absurd hx (not_le.2 (Real.exp_pos _))

theorem normalised_isProb (lp : (Fin d → ℝ) → ℝ) (hm : Measurable lp) (hfin : targetMeasure lp Set.univ ≠ ∞) : IsProbabilityMeasure (normalised (targetMeasure lp)) := by
  refine ⟨?_⟩
  rw [normalised, Measure.smul_apply, smul_eq_mul, ENNReal.inv_mul_cancel (targetMeasure_ne_zero lp hm) hfin]

theorem Spec.Reversible.smul {X Ω : Type} [MeasurableSpace X] [MeasurableSpace Ω] {π : Measure X} [SFinite π] {ν : Measure Ω} [SFinite ν] {step : Ω → X → X} (c : ℝ≥0∞)
    (h : Reversible π ν step) : Reversible (c • π) ν step := by
  unfold Reversible at *
  rw [Measure.prod_smul_left, Measure.map_smul, h, Measure.map_smul]

theorem volume_ac_normalised (lp : (Fin d → ℝ) → ℝ) (hm : Measurable lp) (hfin : targetMeasure lp Set.univ ≠ ∞) :
    (volume : Measure (Fin d → ℝ)) ≪ normalised (targetMeasure lp) := by
  refine Measure.AbsolutelyContinuous.smul_right ?_ (ENNReal.inv_ne_zero.2 hfin)
  exact withDensity_absolutelyContinuous' (by fun_prop) (ae_of_all _ fun x => by simp [Real.exp_pos])

theorem normalised_ac_volume (lp : (Fin d → ℝ) → ℝ) : normalised (targetMeasure lp) ≪ (volume : Measure (Fin d → ℝ)) :=
  Measure.AbsolutelyContinuous.smul_left (withDensity_absolutelyContinuous _ _) _

/-- Accepted proposals charge exactly what the target charges, when proposal density and acceptance probability are positive. -/
theorem proposals_equiv {N : Type} [MeasurableSpace N] (ν₀ : Measure N) (g : N → (Fin d → ℝ)) (hg : Measurable g) (α : N → ℝ≥0∞) (hα : Measurable α) (hα0 : ∀ n, α n ≠ 0)
    (ρ : (Fin d → ℝ) → ℝ≥0∞) (hρ : Measurable ρ) (hρ0 : ∀ y, ρ y ≠ 0) (hlaw : ν₀.map g = volume.withDensity ρ) (lp : (Fin d → ℝ) → ℝ) (hm : Measurable lp)
    (hfin : targetMeasure lp Set.univ ≠ ∞) :
    ((ν₀.withDensity α).map g ≪ normalised (targetMeasure lp)) ∧ (normalised (targetMeasure lp) ≪ (ν₀.withDensity α).map g) := by
  constructor
  · refine ((withDensity_absolutelyContinuous ν₀ α).map hg).trans ?_
    rw [hlaw]
    exact (withDensity_absolutelyContinuous _ _).trans (volume_ac_normalised lp hm hfin)
  · refine ((normalised_ac_volume lp).trans (withDensity_absolutelyContinuous' hρ.aemeasurable (ae_of_all _ hρ0))).trans ?_
    rw [← hlaw]
    exact (withDensity_absolutelyContinuous' hα.aemeasurable (ae_of_all _ hα0)).map hg

theorem tv_of_good {X : Type} [MeasurableSpace X] {π : Measure X} {Q : Measure X → Measure X} {μ : Measure X} [IsProbabilityMeasure μ] (h : Good π Q μ) :
    TVConverges (fun n => Q^[n] μ) π := by
  intro ε hε
  obtain ⟨N, hN⟩ := h ε hε
  refine ⟨N, fun n hn A hA => ?_⟩
  have := hN n hn A hA
  rwa [probReal_univ, one_mul] at this

/-! ### local kernels -/

/-- What is needed of a Metropolis–Hastings step on `ℝᵈ`. -/
structure MHData (lp : (Fin d → ℝ) → ℝ) {N : Type} [MeasurableSpace N] (ν₀ : Measure N) (step : N × ℝ → (Fin d → ℝ) → (Fin d → ℝ)) (g : (Fin d → ℝ) × N → (Fin d → ℝ))
    (r : (Fin d → ℝ) × N → ℝ) : Prop where
  eq : ∀ ω x, step ω x = if acceptTest ω.2 (r (x, ω.1)) = true then g (x, ω.1) else x
  gm : Measurable g
  rm : Measurable r
  law : ∀ x, ∃ ρ : (Fin d → ℝ) → ℝ≥0∞, Measurable ρ ∧ (∀ y, ρ y ≠ 0) ∧ ν₀.map (fun n => g (x, n)) = volume.withDensity ρ
  rev : Reversible (targetMeasure lp) (ν₀.prod unif) step

section
variable {lp : (Fin d → ℝ) → ℝ} {N : Type} [MeasurableSpace N] {ν₀ : Measure N} [IsProbabilityMeasure ν₀] {step : N × ℝ → (Fin d → ℝ) → (Fin d → ℝ)} {g : (Fin d → ℝ) × N → (Fin d → ℝ)}
  {r : (Fin d → ℝ) × N → ℝ}

theorem MHData.step_eq (h : MHData lp ν₀ step g r) : step = mhStep g (fun q : ((Fin d → ℝ) × N) × ℝ => acceptTest q.2 (r q.1) = true) := by
  funext ω x; rw [h.eq]; rfl

theorem MHData.acc (h : MHData lp ν₀ step g r) : MeasurableSet {q : ((Fin d → ℝ) × N) × ℝ | acceptTest q.2 (r q.1) = true} := by
  have := h.rm
  simp only [acceptTest_real]
  exact measurableSet_lt (by fun_prop) (by fun_prop)

theorem MHData.alpha (h : MHData lp ν₀ step g r) : Measurable fun z => ENNReal.ofReal (min 1 (Real.exp (r z))) := by
  have := h.rm
  fun_prop

theorem MHData.equiv (h : MHData lp ν₀ step g r) (hm : Measurable lp) (hfin : targetMeasure lp Set.univ ≠ ∞) (x : Fin d → ℝ) :
    ((ν₀.withDensity fun n => ENNReal.ofReal (min 1 (Real.exp (r (x, n))))).map (fun n => g (x, n)) ≪ normalised (targetMeasure lp)) ∧
    (normalised (targetMeasure lp) ≪ (ν₀.withDensity fun n => ENNReal.ofReal (min 1 (Real.exp (r (x, n))))).map (fun n => g (x, n))) := by
  obtain ⟨ρ, h1, h2, h3⟩ := h.law x
  have := h.gm
  have := h.rm
  exact proposals_equiv ν₀ _ (by fun_prop) _ (by fun_prop) (fun n => by simp [Real.exp_pos]) ρ h1 h2 h3 lp hm hfin

theorem MHData.good (h : MHData lp ν₀ step g r) (hm : Measurable lp) (hfin : targetMeasure lp Set.univ ≠ ∞) (μ : Measure (Fin d → ℝ)) (hμ : IsFiniteMeasure μ) :
    Good (normalised (targetMeasure lp)) (stepLaw (ν₀.prod unif) step) μ := by
  haveI := normalised_isProb lp hm hfin
  haveI : SFinite (targetMeasure lp) := by unfold targetMeasure; infer_instance
  have hrev : Reversible (normalised (targetMeasure lp)) (ν₀.prod unif) step := h.rev.smul (targetMeasure lp Set.univ)⁻¹
  rw [h.step_eq] at hrev ⊢
  exact mh_good h.gm h.acc h.alpha (fun z => C21_accept_probability (r z)) hrev (fun x => (h.equiv hm hfin x).1) (fun x => (h.equiv hm hfin x).2) μ hμ

end

theorem grw_mhData (s : ℝ) (hs : s ≠ 0) (t : Target ℝ D d) (data : Data D) (ht : Measurable (fun x => t.val x data)) :
    MHData (fun x => t.val x data) (stdNormal d) (fun ω x => (grwStep s t data ω.1 ω.2 x (t.val x data)).pos) (fun z => grwProposal s z.1 z.2)
      (fun z => t.val (grwProposal s z.1 z.2) data - t.val z.1 data) where
  eq ω x := rfl
  gm := grwProposal_measurable
  rm := (ht.comp grwProposal_measurable).sub (ht.comp measurable_fst)
  law x := by
    refine ⟨fun y => ENNReal.ofReal (Real.exp (isoNormLogpdf y x (s * s))), ?_, ?_, ?_⟩
    rotate_left 2
    · rw [← stdNormal_affine x s hs]
      congr 1
      funext ξ i
      simp only [grwProposal]; ring
    · have h := isoNorm_measurable (s * s) (fun _ : Fin d → ℝ => x) measurable_const
      exact ((h.comp (measurable_prodMk_left (x := (0 : Fin d → ℝ)))).exp).ennreal_ofReal
    · intro y; simp [Real.exp_pos]
  rev := C22_grw_reversible s t data ht

theorem mala_mhData (s : ℝ) (hs : s ≠ 0) (t : Target ℝ D d) (data : Data D) (ht : Measurable (fun x => t.val x data)) (hg : Measurable (fun x => t.grad x data)) :
    MHData (fun x => t.val x data) (stdNormal d) (fun ω x => (malaStep s t data ω.1 ω.2 x (t.val x data)).pos) (fun z => malaProposal s z.1 (t.grad z.1 data) z.2)
      (fun z => malaLogRatio s t data (z.1, malaProposal s z.1 (t.grad z.1 data) z.2)) where
  eq ω x := rfl
  gm := malaProposal_measurable s t data hg
  rm := (malaLogRatio_measurable s t data ht hg).comp (measurable_fst.prodMk (malaProposal_measurable s t data hg))
  law x := by
    refine ⟨fun y => ENNReal.ofReal (Real.exp (isoNormLogpdf y (malaMean s x (t.grad x data)) (s * s))), ?_, ?_, ?_⟩
    rotate_left 2
    · exact stdNormal_affine (malaMean s x (t.grad x data)) s hs
    · have h := isoNorm_measurable (s * s) (fun _ : Fin d → ℝ => malaMean s x (t.grad x data)) measurable_const
      exact ((h.comp (measurable_prodMk_left (x := (0 : Fin d → ℝ)))).exp).ennreal_ofReal
    · intro y; simp [Real.exp_pos]
  rev := C23_mala_reversible s hs t data ht hg (fun x => t.val x data)

theorem density_of_equiv (ν : Measure (Fin d → ℝ)) [SigmaFinite ν] (h1 : ν ≪ volume) (h2 : volume ≪ ν) :
    ∃ ρ : (Fin d → ℝ) → ℝ≥0∞, Measurable ρ ∧ (∀ y, ρ y ≠ 0) ∧ ν = volume.withDensity ρ := by
  have hm := Measure.measurable_rnDeriv ν (volume : Measure (Fin d → ℝ))
  have h0 : MeasurableSet {y | ν.rnDeriv volume y = 0} := hm (measurableSet_singleton 0)
  have hne : ∀ᵐ y, ν.rnDeriv volume y ≠ 0 := h2.ae_le (Measure.rnDeriv_pos h1 |>.mono fun y hy => hy.ne')
  refine ⟨fun y => if ν.rnDeriv volume y = 0 then 1 else ν.rnDeriv volume y, Measurable.ite h0 measurable_const hm, fun y => ?_, ?_⟩
  · dsimp only
    split_ifs with h
    · exact one_ne_zero
    · exact h
  · rw [← Measure.withDensity_rnDeriv_eq ν volume h1]
    refine withDensity_congr_ae ?_
    rw [Measure.withDensity_rnDeriv_eq ν volume h1]
    filter_upwards [hne] with y hy
    rw [if_neg hy]

/-- HMC with short trajectories: the end point of the trajectory has a positive density. -/
theorem hmc_law (ε : ℝ) (n : ℕ) (M L : Mat ℝ d) (hM : IsPosDiag M) (hL : IsCholeskyInv M L) (t : Target ℝ D d) (data : Data D) (hs : ShortTrajectory ε n M fun x => t.grad x data)
    (hg : Measurable (fun x => t.grad x data)) (x : Fin d → ℝ) : ∃ ρ : (Fin d → ℝ) → ℝ≥0∞, Measurable ρ ∧ (∀ y, ρ y ≠ 0) ∧
      (stdNormal d).map (fun z => (leapfrogStep ε n M (hmcForce t data) (x, hmcMomentum L z)).1) = volume.withDensity ρ := by
  have hv : (fun (p : Fin d → ℝ) (j : Fin d) => p j * ∑ i, M i j) = fun p j => p j * M j j := by
    funext p j
    rw [Finset.sum_eq_single j (fun i _ h => hM.off i j h) (fun h => absurd (Finset.mem_univ j) h)]
  have hmom : ∀ z, hmcMomentum L z = fun i => 1 / Real.sqrt (M i i) * z i := by
    intro z
    funext i
    simp only [hmcMomentum, sumFin_eq, cholesky_diag M L hM hL]
    rw [Finset.sum_eq_single i (fun j _ h => by rw [if_neg h.symm, mul_zero]) (fun h => absurd (Finset.mem_univ i) h), if_pos rfl, mul_comm]
  have hF : (fun z => (leapfrogStep ε n M (hmcForce t data) (x, hmcMomentum L z)).1) =
      fun z => ((verlet ε (fun p j => p j * M j j) (hmcForce t data))^[n + 1] (x, fun i => 1 / Real.sqrt (M i i) * z i)).1 := by
    funext z
    rw [C24_verlet, hv, hmom]
  have hforce : n = 0 ∨ ∃ K : NNReal, LipschitzWith K (hmcForce t data) ∧ ∀ i, K * M i i * ε ^ 2 * (n * (n + 2)) < 3 := by
    refine hs.2.imp id fun ⟨K, h1, h2⟩ => ⟨K, ?_, h2⟩
    have : hmcForce t data = fun y => -t.grad y data := rfl
    rw [this]
    exact h1.neg
  obtain ⟨K, K', l1, l2, l3⟩ := verlet_end ε hs.1 (fun i => M i i) hM.pos (hmcForce t data) n hforce (fun i => 1 / Real.sqrt (M i i)) (fun i => by have := Real.sqrt_pos.2 (hM.pos i); positivity) x
  have hn := stdNormal_affine (0 : Fin d → ℝ) 1 one_ne_zero
  have hid : (fun (ξ : Fin d → ℝ) i => (0 : Fin d → ℝ) i + 1 * ξ i) = fun ξ => ξ := by funext ξ i; simp
  rw [hid, Measure.map_id'] at hn
  have hm := isoNorm_measurable (1 * 1) (fun _ : Fin d → ℝ => (0 : Fin d → ℝ)) measurable_const
  have hm' : Measurable fun y : Fin d → ℝ => ENNReal.ofReal (Real.exp (isoNormLogpdf y 0 (1 * 1))) := ((hm.comp (measurable_prodMk_left (x := (0 : Fin d → ℝ)))).exp).ennreal_ofReal
  obtain ⟨a, b⟩ := biLipschitz_map l1 l2 l3 (ν := stdNormal d) (by rw [hn]; exact withDensity_absolutelyContinuous _ _)
    (by rw [hn]; exact withDensity_absolutelyContinuous' hm'.aemeasurable (ae_of_all _ fun y => by simp [Real.exp_pos]))
  rw [← hF] at a b
  haveI : IsProbabilityMeasure ((stdNormal d).map fun z => (leapfrogStep ε n M (hmcForce t data) (x, hmcMomentum L z)).1) := by
    refine Measure.isProbabilityMeasure_map ?_
    rw [hF]
    exact l1.continuous.measurable.aemeasurable
  exact density_of_equiv _ a b

theorem hmc_mhData (ε : ℝ) (n : ℕ) (M L : Mat ℝ d) (hM : IsPosDiag M) (hL : IsCholeskyInv M L) (t : Target ℝ D d) (data : Data D) (hs : ShortTrajectory ε n M fun x => t.grad x data)
    (ht : Measurable (fun x => t.val x data)) (hg : Measurable (fun x => t.grad x data)) :
    MHData (fun x => t.val x data) (stdNormal d) (fun ω x => (hmcStep ε n M L t data ω.1 ω.2 x (t.val x data)).pos)
      (fun z => (leapfrogStep ε n M (hmcForce t data) (z.1, hmcMomentum L z.2)).1)
      (fun z => hmcEnergy M t data (z.1, hmcMomentum L z.2) - hmcEnergy M t data (leapfrogStep ε n M (hmcForce t data) (z.1, hmcMomentum L z.2))) := by
  have hS : Measurable (fun z : (Fin d → ℝ) × (Fin d → ℝ) => ((z.1, hmcMomentum L z.2) : (Fin d → ℝ) × (Fin d → ℝ))) :=
    measurable_fst.prodMk ((hmcMomentum_measurable L).comp measurable_snd)
  have hΦ := (leapfrog_measurable ε n M t data hg).comp hS
  have hE := hmcEnergy_measurable M t data ht
  exact { eq := fun ω x => hmcStep_pos ε n M L t data ω.1 x ω.2, gm := measurable_fst.comp hΦ, rm := (hE.comp hS).sub (hE.comp hΦ), law := hmc_law ε n M L hM hL t data hs hg,
          rev := C25_hmc_reversible_partial ε n M L hM hL t data ht hg }

theorem flow_mhData (t : Target ℝ D d) (data : Data D) (ht : Measurable (fun x => t.val x data)) (lnf : Pos ℝ d → ℝ) (hl : Measurable lnf)
    (q : Measure (Pos ℝ d)) [IsProbabilityMeasure q] (hq : SamplesFrom q lnf) :
    MHData (fun x => t.val x data) q (flowStep t data lnf) (fun z => z.2) (fun z => (t.val z.2 data - t.val z.1 data) - (lnf z.2 - lnf z.1)) where
  eq ω x := rfl
  gm := measurable_snd
  rm := ((ht.comp measurable_snd).sub (ht.comp measurable_fst)).sub ((hl.comp measurable_snd).sub (hl.comp measurable_fst))
  law x := by
    obtain ⟨Z, hZ⟩ := hq
    have hZ0 : Z ≠ 0 := by
      rintro rfl
      have : q Set.univ = 1 := measure_univ
      rw [hZ] at this
      simp at this
    refine ⟨Z • fun y => ENNReal.ofReal (Real.exp (lnf y)), by exact (by fun_prop : Measurable fun y => ENNReal.ofReal (Real.exp (lnf y))).const_smul Z, ?_, ?_⟩
    · intro y; simp [hZ0, Real.exp_pos]
    · simp only [Measure.map_id']
      rw [withDensity_smul _ (by fun_prop)]
      exact hZ
  rev := C26_flow_reversible t data ht lnf hl q hq

/-- **C70**, Gaussian random walk: with any non-zero step size, from every starting distribution, the distribution of the position after `n` steps converges in total
variation to the (normalised) target. -/
theorem C70_grw (step : ℝ) (hs : step ≠ 0) (t : Target ℝ D d) (data : Data D) (ht : Measurable (fun x => t.val x data))
    (hfin : targetMeasure (fun x => t.val x data) Set.univ ≠ ∞) (μ : Measure (Pos ℝ d)) [IsProbabilityMeasure μ] :
    TVConverges (fun n => (stepLaw (noise d) fun ω x => (grwStep step t data ω.1 ω.2 x (t.val x data)).pos)^[n] μ) (normalised (targetMeasure fun x => t.val x data)) :=
  tv_of_good ((grw_mhData step hs t data ht).good ht hfin μ inferInstance)

/-- **C70**, MALA: the same, for any non-zero step size and whatever function the gradient is. -/
theorem C70_mala (dt : ℝ) (hdt : dt ≠ 0) (t : Target ℝ D d) (data : Data D) (ht : Measurable (fun x => t.val x data)) (hg : Measurable (fun x => t.grad x data))
    (hfin : targetMeasure (fun x => t.val x data) Set.univ ≠ ∞) (μ : Measure (Pos ℝ d)) [IsProbabilityMeasure μ] :
    TVConverges (fun n => (stepLaw (noise d) fun ω x => (malaStep dt t data ω.1 ω.2 x (t.val x data)).pos)^[n] μ) (normalised (targetMeasure fun x => t.val x data)) :=
  tv_of_good ((mala_mhData dt hdt t data ht hg).good ht hfin μ inferInstance)

/-- **C70**, flow proposals: the same, for every flow whose `log_prob` is up to a constant the log-density of its samples, however badly it approximates the target. -/
theorem C70_flow (t : Target ℝ D d) (data : Data D) (ht : Measurable (fun x => t.val x data)) (lnf : Pos ℝ d → ℝ) (hl : Measurable lnf)
    (q : Measure (Pos ℝ d)) [IsProbabilityMeasure q] (hq : SamplesFrom q lnf)
    (hfin : targetMeasure (fun x => t.val x data) Set.univ ≠ ∞) (μ : Measure (Pos ℝ d)) [IsProbabilityMeasure μ] :
    TVConverges (fun n => (stepLaw (q.prod unif) fun ω x => (nfBody ω.2 ⟨x, t.val x data, lnf x⟩ (ω.1, t.val ω.1 data, lnf ω.1)).2.pos)^[n] μ)
      (normalised (targetMeasure fun x => t.val x data)) :=
  tv_of_good ((flow_mhData t data ht lnf hl q hq).good ht hfin μ inferInstance)

/-! ### alternating local steps and flow proposals -/

section
variable {lp : (Fin d → ℝ) → ℝ} {N : Type} [MeasurableSpace N] {ν₀ : Measure N} [IsProbabilityMeasure ν₀] {step : N × ℝ → (Fin d → ℝ) → (Fin d → ℝ)} {g : (Fin d → ℝ) × N → (Fin d → ℝ)}
  {r : (Fin d → ℝ) × N → ℝ}

theorem MHData.reversible (h : MHData lp ν₀ step g r) : Reversible (normalised (targetMeasure lp)) (ν₀.prod unif) step := by
  haveI : SFinite (targetMeasure lp) := by unfold targetMeasure; infer_instance
  exact h.rev.smul (targetMeasure lp Set.univ)⁻¹

theorem MHData.meas (h : MHData lp ν₀ step g r) : Measurable fun p : (Fin d → ℝ) × (N × ℝ) => step p.2 p.1 := by
  rw [h.step_eq]; exact mhStep_measurable h.gm h.acc

theorem MHData.stay (h : MHData lp ν₀ step g r) (hm : Measurable lp) (hfin : targetMeasure lp Set.univ ≠ ∞) (n : ℕ) :
    ∃ s : (Fin d → ℝ) → ℝ≥0∞, Measurable s ∧ (∀ x, s x ≤ 1) ∧ StayOrMove (normalised (targetMeasure lp)) (stepLaw (ν₀.prod unif) step)^[n] s := by
  haveI := normalised_isProb lp hm hfin
  have hop := revOp_of_reversible (ν₀.prod unif) step h.meas h.reversible
  have h1 : ∀ x, mhReject ν₀ (fun q : ((Fin d → ℝ) × N) × ℝ => acceptTest q.2 (r q.1) = true) x ≤ 1 := mhReject_le h.acc h.alpha (fun z => C21_accept_probability (r z))
  have h2 := mhReject_measurable (ν₀ := ν₀) h.acc
  have h3 := mh_stayOrMove h.gm h.acc h.alpha (fun z => C21_accept_probability (r z)) (fun x => (h.equiv hm hfin x).1)
  rw [← h.step_eq] at h3
  exact ⟨_, h2.pow_const n, fun x => pow_le_one₀ zero_le (h1 x), stay_iterate h2 h1 hop.mass hop.ac h3 n⟩
end

theorem flow_joint (t : Target ℝ D d) (data : Data D) (ht : Measurable (fun x => t.val x data)) (lnf : Pos ℝ d → ℝ) (hl : Measurable lnf)
    (q : Measure (Pos ℝ d)) [IsProbabilityMeasure q] (hq : SamplesFrom q lnf) : ∃ c : ℝ≥0∞,
    ((normalised (targetMeasure fun x => t.val x data)).prod q).withDensity (fun z => ENNReal.ofReal (min 1 (Real.exp ((t.val z.2 data - t.val z.1 data) - (lnf z.2 - lnf z.1))))) =
      c • (q.prod q).withDensity (fun z => ENNReal.ofReal (min (Real.exp (t.val z.1 data - lnf z.1)) (Real.exp (t.val z.2 data - lnf z.2)))) := by
  obtain ⟨Z, hZ⟩ := hq
  have hZ0 : Z ≠ 0 := by
    rintro rfl
    have : q Set.univ = 1 := measure_univ
    rw [hZ] at this
    simp at this
  have hZt : Z ≠ ∞ := by
    rintro rfl
    have : q Set.univ = 1 := measure_univ
    rw [hZ, Measure.smul_apply, smul_eq_mul, ENNReal.top_mul (targetMeasure_ne_zero lnf hl)] at this
    simp at this
  have hw : Measurable fun x : Fin d → ℝ => ENNReal.ofReal (Real.exp (t.val x data - lnf x)) := by fun_prop
  have e1 : targetMeasure (fun x => t.val x data) = Z⁻¹ • q.withDensity fun x => ENNReal.ofReal (Real.exp (t.val x data - lnf x)) := by
    conv_rhs => rw [hZ]
    rw [withDensity_smul_measure, smul_smul, ENNReal.inv_mul_cancel hZ0 hZt, one_smul, targetMeasure, targetMeasure, ← withDensity_mul _ (by fun_prop) hw]
    congr 1
    funext x
    rw [Pi.mul_apply, ← ENNReal.ofReal_mul (Real.exp_pos _).le, ← Real.exp_add, add_sub_cancel]
  set C := (targetMeasure (fun x => t.val x data) Set.univ)⁻¹ with hC
  have h1 := ht.comp (measurable_fst : Measurable (Prod.fst : (Fin d → ℝ) × (Fin d → ℝ) → _))
  have h2 := ht.comp (measurable_snd : Measurable (Prod.snd : (Fin d → ℝ) × (Fin d → ℝ) → _))
  have h3 := hl.comp (measurable_fst : Measurable (Prod.fst : (Fin d → ℝ) × (Fin d → ℝ) → _))
  have h4 := hl.comp (measurable_snd : Measurable (Prod.snd : (Fin d → ℝ) × (Fin d → ℝ) → _))
  simp only [Function.comp_def] at h1 h2 h3 h4
  refine ⟨C * Z⁻¹, ?_⟩
  rw [normalised, ← hC, e1, smul_smul, Measure.prod_smul_left, prod_withDensity_left hw, withDensity_smul_measure, ← withDensity_mul _ (by fun_prop) (by fun_prop)]
  congr 2
  funext z
  rw [Pi.mul_apply, ← exp_mul_min, show t.val z.2 data - lnf z.2 - (t.val z.1 data - lnf z.1) = (t.val z.2 data - t.val z.1 data) - (lnf z.2 - lnf z.1) by ring]

/-- Alternate `L` reversible steps with `G ≥ 1` flow proposals, from a start that has a density. -/
theorem flow_cycle_ac (t : Target ℝ D d) (data : Data D) (ht : Measurable (fun x => t.val x data)) (lnf : Pos ℝ d → ℝ) (hl : Measurable lnf)
    (q : Measure (Pos ℝ d)) [IsProbabilityMeasure q] (hq : SamplesFrom q lnf) (hfin : targetMeasure (fun x => t.val x data) Set.univ ≠ ∞)
    {Ω : Type} [MeasurableSpace Ω] (ν : Measure Ω) [IsProbabilityMeasure ν] (step : Ω → Pos ℝ d → Pos ℝ d) (hm : Measurable fun p : Pos ℝ d × Ω => step p.2 p.1)
    (hrev : Reversible (targetMeasure fun x => t.val x data) ν step) (L G : ℕ) (hG : 0 < G) (μ : Measure (Pos ℝ d)) (hμ : IsFiniteMeasure μ) (hac : μ ≪ volume) :
    Good (normalised (targetMeasure fun x => t.val x data)) (fun μ => (stepLaw (q.prod unif) (flowStep t data lnf))^[G] ((stepLaw ν step)^[L] μ)) μ := by
  haveI := normalised_isProb _ ht hfin
  haveI : SFinite (targetMeasure fun x => t.val x data) := by unfold targetMeasure; infer_instance
  have hf := flow_mhData t data ht lnf hl q hq
  have hfr := hf.reversible
  have hlr : Reversible (normalised (targetMeasure fun x => t.val x data)) ν step := hrev.smul _
  obtain ⟨c, hc⟩ := flow_joint t data ht lnf hl q hq
  rw [hf.step_eq] at hfr ⊢
  exact cycle_good ((revOp_of_reversible ν step hm hlr).iterate L) measurable_snd hf.acc hf.alpha (fun z => C21_accept_probability ((t.val z.2 data - t.val z.1 data) - (lnf z.2 - lnf z.1))) hfr
    (independence_positive hf.acc hf.alpha (fun z => C21_accept_probability ((t.val z.2 data - t.val z.1 data) - (lnf z.2 - lnf z.1))) hfr (fun x => Real.exp (t.val x data - lnf x)) (by fun_prop) c hc)
    (fun x => (hf.equiv ht hfin x).2) G hG μ hμ (hac.trans (volume_ac_normalised _ ht hfin))

/-- The same from every start, when the local steps are of Metropolis–Hastings type. -/
theorem flow_cycle_all (t : Target ℝ D d) (data : Data D) (ht : Measurable (fun x => t.val x data)) (lnf : Pos ℝ d → ℝ) (hl : Measurable lnf)
    (q : Measure (Pos ℝ d)) [IsProbabilityMeasure q] (hq : SamplesFrom q lnf) (hfin : targetMeasure (fun x => t.val x data) Set.univ ≠ ∞)
    {N : Type} [MeasurableSpace N] {ν₀ : Measure N} [IsProbabilityMeasure ν₀] {step : N × ℝ → (Fin d → ℝ) → (Fin d → ℝ)} {g : (Fin d → ℝ) × N → (Fin d → ℝ)}
    {r : (Fin d → ℝ) × N → ℝ} (h : MHData (fun x => t.val x data) ν₀ step g r) (L G : ℕ) (hG : 0 < G) (μ : Measure (Pos ℝ d)) (hμ : IsFiniteMeasure μ) :
    Good (normalised (targetMeasure fun x => t.val x data)) (fun μ => (stepLaw (q.prod unif) (flowStep t data lnf))^[G] ((stepLaw (ν₀.prod unif) step)^[L] μ)) μ := by
  haveI := normalised_isProb _ ht hfin
  have hf := flow_mhData t data ht lnf hl q hq
  have hfr := hf.reversible
  obtain ⟨c, hc⟩ := flow_joint t data ht lnf hl q hq
  obtain ⟨s, hs1, hs2, hs3⟩ := h.stay ht hfin L
  rw [hf.step_eq] at hfr ⊢
  exact cycle_good_all ((revOp_of_reversible _ step h.meas h.reversible).iterate L) s hs1 hs2 hs3 measurable_snd hf.acc hf.alpha (fun z => C21_accept_probability ((t.val z.2 data - t.val z.1 data) - (lnf z.2 - lnf z.1))) hfr
    (independence_positive hf.acc hf.alpha (fun z => C21_accept_probability ((t.val z.2 data - t.val z.1 data) - (lnf z.2 - lnf z.1))) hfr (fun x => Real.exp (t.val x data - lnf x)) (by fun_prop) c hc)
    (fun x => (hf.equiv ht hfin x).1) (fun x => (hf.equiv ht hfin x).2) G hG μ hμ

end FlowMC
