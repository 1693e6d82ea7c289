import Verif.Props.ConvergeRun
import Verif.Props.WallSweep
/-
C74: convergence in total variation for targets with hard boundaries (`-inf` or NaN outside a region), from every start inside.
-/
open MeasureTheory ProbabilityTheory Filter Topology
open scoped ENNReal InnerProductSpace
set_option linter.unusedSectionVars false
namespace FlowMC
open Spec
noncomputable section
open Classical

variable {Ω D M O : Type} {d : ℕ}
variable {S : Set (Fin d → ℝ)} {lp : (Fin d → ℝ) → ℝ} {g : (Fin d → ℝ) → Fin d → ℝ} {t : Target XR D d} {data : Data D}

/-! ### the normalised truncated target -/

theorem wall_isProb (h0 : wallMeasure S lp Set.univ ≠ 0) (hfin : wallMeasure S lp Set.univ ≠ ∞) : IsProbabilityMeasure (normalised (wallMeasure S lp)) := by
  refine ⟨?_⟩
  rw [normalised, Measure.smul_apply, smul_eq_mul, ENNReal.inv_mul_cancel h0 hfin]

theorem wall_null_iff (hS : MeasurableSet S) (hlp : Measurable lp) (hfin : wallMeasure S lp Set.univ ≠ ∞) {A : Set (Fin d → ℝ)} (hA : MeasurableSet A) :
    normalised (wallMeasure S lp) A = 0 ↔ volume (A ∩ S) = 0 := by
  rw [normalised, Measure.smul_apply, smul_eq_mul, mul_eq_zero, or_iff_right (ENNReal.inv_ne_zero.2 hfin), ← Measure.restrict_apply hA]
  exact ⟨fun h => withDensity_absolutelyContinuous' (μ := volume.restrict S) (f := fun x => ENNReal.ofReal (Real.exp (lp x))) (by fun_prop) (ae_of_all _ fun x => by simp [Real.exp_pos]) h,
    fun h => withDensity_absolutelyContinuous _ _ h⟩

/-! ### a step that agrees with the code inside, and moves in from outside -/

/-- Accept/reject with walls; from a point outside (never reached) every proposal inside is accepted. -/
def freeStep (S : Set (Fin d → ℝ)) {B : Type} (q : (Fin d → ℝ) × B → Fin d → ℝ) (r : (Fin d → ℝ) × B → ℝ) (ω : B × ℝ) (x : Fin d → ℝ) : Fin d → ℝ :=
  if q (x, ω.1) ∈ S ∧ (x ∉ S ∨ acceptTest (XR.fin ω.2) (.fin (r (x, ω.1))) = true) then q (x, ω.1) else x

variable {B : Type} {q : (Fin d → ℝ) × B → Fin d → ℝ} {r : (Fin d → ℝ) × B → ℝ}

theorem freeStep_eq {ω : B × ℝ} {x : Fin d → ℝ} (hx : x ∈ S) : freeStep S q r ω x = wallStep S q r ω x := by
  unfold freeStep wallStep; simp [hx]

theorem freeStep_mem {ω : B × ℝ} {x : Fin d → ℝ} (hx : x ∈ S) : freeStep S q r ω x ∈ S := by rw [freeStep_eq hx]; exact wallStep_mem hx

/-- The acceptance event. -/
def freeAcc (S : Set (Fin d → ℝ)) (q : (Fin d → ℝ) × B → Fin d → ℝ) (r : (Fin d → ℝ) × B → ℝ) (p : ((Fin d → ℝ) × B) × ℝ) : Prop :=
  q p.1 ∈ S ∧ (p.1.1 ∉ S ∨ acceptTest (XR.fin p.2) (.fin (r p.1)) = true)

/-- The acceptance probability. -/
def freeProb (S : Set (Fin d → ℝ)) (q : (Fin d → ℝ) × B → Fin d → ℝ) (r : (Fin d → ℝ) × B → ℝ) (z : (Fin d → ℝ) × B) : ℝ≥0∞ :=
  if q z ∈ S then if z.1 ∈ S then ENNReal.ofReal (min 1 (Real.exp (r z))) else 1 else 0

theorem freeStep_mh : freeStep S q r = mhStep q (freeAcc S q r) := by
  funext ω x
  unfold freeStep mhStep freeAcc
  congr

theorem unif_fin (a : ℝ) : unif {u | acceptTest (XR.fin u) (.fin a) = true} = ENNReal.ofReal (min 1 (Real.exp a)) := by
  rw [← C21_accept_probability a]
  refine measure_congr ?_
  have h0 : ∀ᵐ u : ℝ ∂unif, u ≠ 0 := ae_restrict_of_ae (by simp [ae_iff])
  have h1 : ∀ᵐ u : ℝ ∂unif, u ∈ Set.Ico (0:ℝ) 1 := ae_restrict_mem measurableSet_Ico
  filter_upwards [h0, h1] with u h0 h1
  have hu : 0 < u := lt_of_le_of_ne h1.1 (Ne.symm h0)
  exact propext (by show acceptTest (XR.fin u) (.fin a) = true ↔ acceptTest u a = true; rw [acceptTest_pos hu])

theorem freeAcc_prob (z : (Fin d → ℝ) × B) : unif {u | freeAcc S q r (z, u)} = freeProb S q r z := by
  unfold freeAcc freeProb
  by_cases hq : q z ∈ S
  · by_cases hz : z.1 ∈ S
    · simp only [hq, hz, not_true, false_or, true_and, if_true]; exact unif_fin _
    · simp only [hq, hz, not_false_eq_true, true_or, true_and, if_true, if_false, Set.setOf_true, measure_univ]
  · simp [hq]

section
variable [MeasurableSpace B]

theorem freeAcc_measurable (hS : MeasurableSet S) (hq : Measurable q) (hr : Measurable r) : MeasurableSet {p | freeAcc S q r p} := by
  have h1 : Measurable (fun p : ((Fin d → ℝ) × B) × ℝ => p.1.1) := by fun_prop
  exact ((hq.comp measurable_fst) hS).inter ((h1 hS).compl.union (acceptTest_fin_measurable measurable_snd (hr.comp measurable_fst)))

theorem freeProb_measurable (hS : MeasurableSet S) (hq : Measurable q) (hr : Measurable r) : Measurable (freeProb S q r) :=
  Measurable.ite (hq hS) (Measurable.ite (measurable_fst hS) (by fun_prop) measurable_const) measurable_const

/-- What is used about a step on a target with walls. -/
structure WallMH (S : Set (Fin d → ℝ)) (lp : (Fin d → ℝ) → ℝ) (ν : Measure B) (q : (Fin d → ℝ) × B → Fin d → ℝ) (r : (Fin d → ℝ) × B → ℝ) : Prop where
  meas : MeasurableSet S
  meas_lp : Measurable lp
  nonzero : wallMeasure S lp Set.univ ≠ 0
  finite : wallMeasure S lp Set.univ ≠ ∞
  qm : Measurable q
  rm : Measurable r
  law : ∀ x, ∃ ρ : (Fin d → ℝ) → ℝ≥0∞, Measurable ρ ∧ (∀ y, ρ y ≠ 0) ∧ ν.map (fun n => q (x, n)) = volume.withDensity ρ
  rev : Reversible (normalised (wallMeasure S lp)) (ν.prod unif) (freeStep S q r)

theorem MHData.walls {ν : Measure B} [IsProbabilityMeasure ν] {step : B × ℝ → (Fin d → ℝ) → (Fin d → ℝ)} (h : MHData lp ν step q r) (hS : MeasurableSet S) (hlp : Measurable lp)
    (h0 : wallMeasure S lp Set.univ ≠ 0) (hfin : wallMeasure S lp Set.univ ≠ ∞) : WallMH S lp ν q r where
  meas := hS
  meas_lp := hlp
  nonzero := h0
  finite := hfin
  qm := h.gm
  rm := h.rm
  law := h.law
  rev := by
    have hr := h.rev
    rw [show step = fun ω x => if acceptTest ω.2 (r (x, ω.1)) = true then q (x, ω.1) else x from funext fun ω => funext fun x => h.eq ω x] at hr
    exact (wall_ae_congr hS (wallStep_reversible hS h.gm h.rm hr) fun ω x hx => freeStep_eq hx).smul _

variable {ν : Measure B} [IsProbabilityMeasure ν]

theorem WallMH.prob (h : WallMH S lp ν q r) : IsProbabilityMeasure (normalised (wallMeasure S lp)) := wall_isProb h.nonzero h.finite

theorem WallMH.step_meas (h : WallMH S lp ν q r) : Measurable fun p : (Fin d → ℝ) × (B × ℝ) => freeStep S q r p.2 p.1 := by
  rw [freeStep_mh]; exact mhStep_measurable h.qm (freeAcc_measurable h.meas h.qm h.rm)

theorem WallMH.equiv (h : WallMH S lp ν q r) (x : Fin d → ℝ) :
    ((ν.withDensity fun n => freeProb S q r (x, n)).map (fun n => q (x, n)) ≪ normalised (wallMeasure S lp)) ∧
    (normalised (wallMeasure S lp) ≪ (ν.withDensity fun n => freeProb S q r (x, n)).map (fun n => q (x, n))) := by
  obtain ⟨ρ, hρ, hρ0, hl⟩ := h.law x
  have hqm := h.qm
  have hqx : Measurable fun n => q (x, n) := by fun_prop
  have hα : Measurable fun n => freeProb S q r (x, n) := (freeProb_measurable h.meas h.qm h.rm).comp measurable_prodMk_left
  have hpos : ∀ n, freeProb S q r (x, n) ≠ 0 ↔ q (x, n) ∈ S := by
    intro n
    unfold freeProb
    by_cases hq : q (x, n) ∈ S <;> by_cases hx : x ∈ S <;> simp [hq, hx, Real.exp_pos]
  -- null sets of the accepted proposals
  have key : ∀ A, MeasurableSet A → ((ν.withDensity fun n => freeProb S q r (x, n)).map (fun n => q (x, n)) A = 0 ↔ volume (A ∩ S) = 0) := by
    intro A hA
    have e1 : ν ((fun n => q (x, n)) ⁻¹' (A ∩ S)) = (volume.withDensity ρ) (A ∩ S) := by rw [← hl, Measure.map_apply hqx (hA.inter h.meas)]
    have e2 : (volume.withDensity ρ) (A ∩ S) = 0 ↔ volume (A ∩ S) = 0 :=
      ⟨fun h0 => withDensity_absolutelyContinuous' hρ.aemeasurable (ae_of_all _ hρ0) h0, fun h0 => withDensity_absolutelyContinuous _ _ h0⟩
    rw [Measure.map_apply hqx hA, withDensity_apply_eq_zero hα, ← e2, ← e1]
    have e3 : {n | freeProb S q r (x, n) ≠ 0} ∩ (fun n => q (x, n)) ⁻¹' A = (fun n => q (x, n)) ⁻¹' (A ∩ S) := by
      ext n
      simp only [Set.mem_inter_iff, Set.mem_setOf_eq, hpos, Set.mem_preimage]
      exact and_comm
    rw [e3]
  constructor
  · exact Measure.AbsolutelyContinuous.mk fun A hA h0 => (key A hA).2 ((wall_null_iff h.meas h.meas_lp h.finite hA).1 h0)
  · exact Measure.AbsolutelyContinuous.mk fun A hA h0 => (wall_null_iff h.meas h.meas_lp h.finite hA).2 ((key A hA).1 h0)

theorem WallMH.good (h : WallMH S lp ν q r) (μ : Measure (Fin d → ℝ)) (hμ : IsFiniteMeasure μ) : Good (normalised (wallMeasure S lp)) (stepLaw (ν.prod unif) (freeStep S q r)) μ := by
  haveI := h.prob
  have hrev := h.rev
  rw [freeStep_mh] at hrev ⊢
  exact mh_good h.qm (freeAcc_measurable h.meas h.qm h.rm) (freeProb_measurable h.meas h.qm h.rm) freeAcc_prob hrev (fun x => (h.equiv x).1) (fun x => (h.equiv x).2) μ hμ

theorem WallMH.stay (h : WallMH S lp ν q r) (n : ℕ) :
    ∃ s : (Fin d → ℝ) → ℝ≥0∞, Measurable s ∧ (∀ x, s x ≤ 1) ∧ StayOrMove (normalised (wallMeasure S lp)) (stepLaw (ν.prod unif) (freeStep S q r))^[n] s := by
  haveI := h.prob
  have hop := revOp_of_reversible (ν.prod unif) _ h.step_meas h.rev
  have ha := freeAcc_measurable h.meas h.qm h.rm
  have hp := freeProb_measurable h.meas h.qm h.rm
  have h1 : ∀ x, mhReject ν (freeAcc S q r) x ≤ 1 := mhReject_le ha hp freeAcc_prob
  have h2 := mhReject_measurable (ν₀ := ν) ha
  have h3 := mh_stayOrMove h.qm ha hp freeAcc_prob (fun x => (h.equiv x).1)
  rw [← freeStep_mh] at h3
  exact ⟨_, h2.pow_const n, fun x => pow_le_one₀ zero_le (h1 x), stay_iterate h2 h1 hop.mass hop.ac h3 n⟩

end

/-! ### alternating with flow proposals -/

/-- The weight target / flow, zero outside. -/
def wallWeight (S : Set (Fin d → ℝ)) (lp lnf : (Fin d → ℝ) → ℝ) (x : Fin d → ℝ) : ℝ := if x ∈ S then Real.exp (lp x - lnf x) else 0

theorem wall_flow_joint (hS : MeasurableSet S) (hlp : Measurable lp) (lnf : (Fin d → ℝ) → ℝ) (hl : Measurable lnf) (Q : Measure (Fin d → ℝ)) [IsProbabilityMeasure Q] (hq : SamplesFrom Q lnf) :
    ∃ c : ℝ≥0∞, ((normalised (wallMeasure S lp)).prod Q).withDensity (freeProb S Prod.snd (flowR lp lnf)) =
      c • (Q.prod Q).withDensity (fun z => ENNReal.ofReal (min (wallWeight S lp lnf z.1) (wallWeight S lp lnf z.2))) := by
  obtain ⟨Z, hZ⟩ := hq
  have hZ0 : Z ≠ 0 := by
    rintro rfl
    have : Q Set.univ = 1 := measure_univ
    rw [hZ] at this
    simp at this
  have hZt : Z ≠ ∞ := by
    rintro rfl
    have : Q Set.univ = 1 := measure_univ
    rw [hZ, Measure.smul_apply, smul_eq_mul, ENNReal.top_mul (targetMeasure_ne_zero lnf hl)] at this
    simp at this
  have hw0 : Measurable fun x => Real.exp (lp x - lnf x) := by fun_prop
  have hw : Measurable (wallWeight S lp lnf) := Measurable.ite hS hw0 measurable_const
  have e1 : wallMeasure S lp = Z⁻¹ • Q.withDensity fun x => ENNReal.ofReal (wallWeight S lp lnf x) := by
    conv_rhs => rw [hZ]
    rw [withDensity_smul_measure, smul_smul, ENNReal.inv_mul_cancel hZ0 hZt, one_smul, wallMeasure_eq S lp hS, targetMeasure, targetMeasure, ← withDensity_mul _ (by fun_prop) (by fun_prop),
      restrict_withDensity hS, ← withDensity_indicator hS]
    congr 1
    funext x
    by_cases hx : x ∈ S
    · simp only [Set.indicator_of_mem hx, Pi.mul_apply, wallWeight, if_pos hx]
      rw [← ENNReal.ofReal_mul (Real.exp_pos _).le, ← Real.exp_add, add_sub_cancel]
    · simp [Set.indicator_of_notMem hx, wallWeight, hx]
  set C := (wallMeasure S lp Set.univ)⁻¹ with hC
  refine ⟨C * Z⁻¹, ?_⟩
  have hfp : Measurable (freeProb S Prod.snd (flowR lp lnf)) :=
    freeProb_measurable hS measurable_snd (((hlp.comp measurable_snd).sub (hlp.comp measurable_fst)).sub ((hl.comp measurable_snd).sub (hl.comp measurable_fst)))
  rw [normalised, ← hC, e1, smul_smul, Measure.prod_smul_left, prod_withDensity_left (by fun_prop), withDensity_smul_measure, ← withDensity_mul _ (by fun_prop) hfp]
  congr 2
  funext z
  rw [Pi.mul_apply]
  by_cases h1 : z.1 ∈ S <;> by_cases h2 : z.2 ∈ S
  · simp only [freeProb, wallWeight, h1, h2, if_true]
    rw [← exp_mul_min, flowR, show lp z.2 - lnf z.2 - (lp z.1 - lnf z.1) = (lp z.2 - lp z.1) - (lnf z.2 - lnf z.1) by ring]
  · simp only [freeProb, wallWeight, h1, h2, if_true, if_false, mul_zero]
    rw [min_eq_right (Real.exp_pos _).le, ENNReal.ofReal_zero]
  · simp only [wallWeight, h1, h2, if_true, if_false, ENNReal.ofReal_zero, zero_mul]
    rw [min_eq_left (Real.exp_pos _).le, ENNReal.ofReal_zero]
  · simp [wallWeight, h1, h2]

theorem wall_cycle_good (hS : MeasurableSet S) (hlp : Measurable lp) (h0 : wallMeasure S lp Set.univ ≠ 0) (hfin : wallMeasure S lp Set.univ ≠ ∞)
    (lnf : (Fin d → ℝ) → ℝ) (hl : Measurable lnf) (Q : Measure (Fin d → ℝ)) [IsProbabilityMeasure Q] (hq : SamplesFrom Q lnf)
    [MeasurableSpace B] {ν : Measure B} [IsProbabilityMeasure ν] (h : WallMH S lp ν q r) (hf : WallMH S lp Q Prod.snd (flowR lp lnf)) (L G : ℕ) (hG : 0 < G)
    (μ : Measure (Fin d → ℝ)) (hμ : IsFiniteMeasure μ) :
    Good (normalised (wallMeasure S lp)) (fun μ => (stepLaw (Q.prod unif) (freeStep S Prod.snd (flowR lp lnf)))^[G] ((stepLaw (ν.prod unif) (freeStep S q r))^[L] μ)) μ := by
  haveI := h.prob
  have hfr := hf.rev
  obtain ⟨c, hc⟩ := wall_flow_joint hS hlp lnf hl Q hq
  obtain ⟨s, hs1, hs2, hs3⟩ := h.stay L
  have ha := freeAcc_measurable hf.meas hf.qm hf.rm
  have hp := freeProb_measurable hf.meas hf.qm hf.rm
  have hw : Measurable (wallWeight S lp lnf) := Measurable.ite hS (by fun_prop) measurable_const
  have hop := (revOp_of_reversible _ _ h.step_meas h.rev).iterate L
  rw [freeStep_mh (q := Prod.snd) (r := flowR lp lnf)] at hfr ⊢
  exact cycle_good_all hop s hs1 hs2 hs3 measurable_snd ha hp freeAcc_prob hfr (independence_positive ha hp freeAcc_prob hfr (wallWeight S lp lnf) hw c hc)
    (fun x => (hf.equiv x).1) (fun x => (hf.equiv x).2) G hG μ hμ

/-! ### from every start inside -/

theorem stepLaw_inside [MeasurableSpace B] {ν : Measure B} [SFinite ν] {step step' : B → (Fin d → ℝ) → Fin d → ℝ} (he : ∀ ω, ∀ x ∈ S, step' ω x = step ω x) {μ : Measure (Fin d → ℝ)}
    (hμ : μ Sᶜ = 0) : stepLaw ν step' μ = stepLaw ν step μ :=
  Measure.map_congr ((Measure.quasiMeasurePreserving_fst.ae (show ∀ᵐ x ∂μ, x ∈ S from hμ)).mono fun p hp => he p.2 p.1 hp)

theorem stepLaw_stays [MeasurableSpace B] {ν : Measure B} [SFinite ν] {step : B → (Fin d → ℝ) → Fin d → ℝ} (hm : Measurable fun p : (Fin d → ℝ) × B => step p.2 p.1) (hS : MeasurableSet S)
    (hmem : ∀ ω, ∀ x ∈ S, step ω x ∈ S) {μ : Measure (Fin d → ℝ)} (hμ : μ Sᶜ = 0) : stepLaw ν step μ Sᶜ = 0 := by
  rw [stepLaw, Measure.map_apply hm hS.compl]
  exact (Measure.quasiMeasurePreserving_fst.ae (show ∀ᵐ x ∂μ, x ∈ S from hμ)).mono fun p hp => hmem p.2 p.1 hp

theorem iterate_inside [MeasurableSpace B] {ν : Measure B} [SFinite ν] {step step' : B → (Fin d → ℝ) → Fin d → ℝ} (he : ∀ ω, ∀ x ∈ S, step' ω x = step ω x)
    (hm : Measurable fun p : (Fin d → ℝ) × B => step p.2 p.1) (hS : MeasurableSet S) (hmem : ∀ ω, ∀ x ∈ S, step ω x ∈ S) {μ : Measure (Fin d → ℝ)} (hμ : μ Sᶜ = 0) (n : ℕ) :
    (stepLaw ν step')^[n] μ = (stepLaw ν step)^[n] μ ∧ ((stepLaw ν step)^[n] μ) Sᶜ = 0 := by
  induction n with
  | zero => exact ⟨rfl, hμ⟩
  | succ n ih =>
    simp only [Function.iterate_succ_apply']
    rw [ih.1]
    exact ⟨stepLaw_inside he ih.2, stepLaw_stays hm hS hmem ih.2⟩

theorem WallMH.tv [MeasurableSpace B] {ν : Measure B} [IsProbabilityMeasure ν] (h : WallMH S lp ν q r) {step : B × ℝ → (Fin d → ℝ) → Fin d → ℝ} (he : ∀ ω, ∀ x ∈ S, step ω x = wallStep S q r ω x)
    (μ : Measure (Fin d → ℝ)) [IsProbabilityMeasure μ] (hμ : μ Sᶜ = 0) :
    TVConverges (fun n => (stepLaw (ν.prod unif) step)^[n] μ) (normalised (wallMeasure S lp)) := by
  have h1 := tv_of_good (h.good μ inferInstance)
  have h2 : ∀ n, (stepLaw (ν.prod unif) step)^[n] μ = (stepLaw (ν.prod unif) (freeStep S q r))^[n] μ := fun n =>
    (iterate_inside (fun ω x hx => by rw [he ω x hx, freeStep_eq hx]) h.step_meas h.meas (fun ω x hx => freeStep_mem hx) hμ n).1
  simp only [h2]
  exact h1

theorem grw_wallMH (hW : Walled S lp g t data) (h0 : wallMeasure S lp Set.univ ≠ 0) (hfin : wallMeasure S lp Set.univ ≠ ∞) (a : ℝ) (ha : a ≠ 0) :
    WallMH S lp (stdNormal d) (grwQ a) (grwR lp a) := (grw_mhData a ha (innerTarget lp g) data hW.meas_lp).walls hW.meas hW.meas_lp h0 hfin

theorem mala_wallMH (hW : Walled S lp g t data) (h0 : wallMeasure S lp Set.univ ≠ 0) (hfin : wallMeasure S lp Set.univ ≠ ∞) (a : ℝ) (ha : a ≠ 0) :
    WallMH S lp (stdNormal d) (malaQ g a) (malaR lp g a) := (mala_mhData a ha (innerTarget lp g) data hW.meas_lp hW.meas_grad).walls hW.meas hW.meas_lp h0 hfin

theorem flow_wallMH (hW : Walled S lp g t data) (h0 : wallMeasure S lp Set.univ ≠ 0) (hfin : wallMeasure S lp Set.univ ≠ ∞) (lnf : (Fin d → ℝ) → ℝ) (hl : Measurable lnf)
    (Q : Measure (Fin d → ℝ)) [IsProbabilityMeasure Q] (hq : SamplesFrom Q lnf) : WallMH S lp Q Prod.snd (flowR lp lnf) :=
  (flow_mhData (innerTarget lp g) data hW.meas_lp lnf hl Q hq).walls hW.meas hW.meas_lp h0 hfin

/-- **C74**, Gaussian random walk: with a target that is `-inf` or NaN outside a region `S` of positive and finite mass (of any shape: it need not be connected), any non-zero step size, and
any starting distribution inside `S`, the distribution of the position after `n` steps converges in total variation to the normalised truncated target. -/
theorem C74_grw (hW : Walled S lp g t data) (h0 : wallMeasure S lp Set.univ ≠ 0) (hfin : wallMeasure S lp Set.univ ≠ ∞) (a : ℝ) (ha : a ≠ 0)
    (μ : Measure (Fin d → ℝ)) [IsProbabilityMeasure μ] (hμ : μ Sᶜ = 0) :
    TVConverges (fun n => (stepLaw (noise d) fun ω x => unemb (grwStep (.fin a) t data (emb ω.1) (.fin ω.2) (emb x) (t.val (emb x) data)).pos)^[n] μ) (normalised (wallMeasure S lp)) :=
  (grw_wallMH hW h0 hfin a ha).tv (fun ω x hx => by rw [grw_wall hW a ω x hx]; rfl) μ hμ

/-- **C74**, MALA: the same, whatever the gradients are outside. -/
theorem C74_mala (hW : Walled S lp g t data) (h0 : wallMeasure S lp Set.univ ≠ 0) (hfin : wallMeasure S lp Set.univ ≠ ∞) (a : ℝ) (ha : a ≠ 0)
    (μ : Measure (Fin d → ℝ)) [IsProbabilityMeasure μ] (hμ : μ Sᶜ = 0) :
    TVConverges (fun n => (stepLaw (noise d) fun ω x => unemb (malaStep (.fin a) t data (emb ω.1) (.fin ω.2) (emb x) (t.val (emb x) data)).pos)^[n] μ) (normalised (wallMeasure S lp)) :=
  (mala_wallMH hW h0 hfin a ha).tv (fun ω x hx => by rw [mala_wall hW a ha ω x hx]; rfl) μ hμ

/-- **C74**, flow proposals: the same, for every flow whose `log_prob` is up to a constant the log-density of its samples. -/
theorem C74_flow (hW : Walled S lp g t data) (h0 : wallMeasure S lp Set.univ ≠ 0) (hfin : wallMeasure S lp Set.univ ≠ ∞) (lnf : (Fin d → ℝ) → ℝ) (hl : Measurable lnf)
    (Q : Measure (Fin d → ℝ)) [IsProbabilityMeasure Q] (hq : SamplesFrom Q lnf) (μ : Measure (Fin d → ℝ)) [IsProbabilityMeasure μ] (hμ : μ Sᶜ = 0) :
    TVConverges (fun n => (stepLaw (Q.prod unif) fun ω x =>
      unemb (nfBody (.fin ω.2) ⟨emb x, t.val (emb x) data, .fin (lnf x)⟩ (emb ω.1, t.val (emb ω.1) data, .fin (lnf ω.1))).2.pos)^[n] μ) (normalised (wallMeasure S lp)) :=
  (flow_wallMH hW h0 hfin lnf hl Q hq).tv (fun ω x hx => by rw [flow_wall hW lnf ω x hx]; rfl) μ hμ

end
end FlowMC
