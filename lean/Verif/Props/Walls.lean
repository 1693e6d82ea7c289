import Verif.Spec.Walls
import Verif.Props.Special
import Verif.Props.Chains
/-
C67: targets with hard boundaries (log-density `-inf` or NaN outside a region): the kernels never leave the region and leave the truncated distribution invariant.
-/
open MeasureTheory ProbabilityTheory
open scoped ENNReal
set_option linter.unusedSectionVars false
namespace FlowMC
open Spec
noncomputable section
open Classical

variable {Ω D M O : Type} {d : ℕ}

theorem XR.fin_add (a b : ℝ) : XR.fin a + XR.fin b = .fin (a + b) := rfl
theorem XR.fin_mul (a b : ℝ) : XR.fin a * XR.fin b = .fin (a * b) := rfl
theorem XR.fin_neg (a : ℝ) : -XR.fin a = .fin (-a) := rfl
theorem XR.fin_sub (a b : ℝ) : XR.fin a - XR.fin b = .fin (a - b) := by
  show XR.fin (a + -b) = _; rw [sub_eq_add_neg]
theorem XR.fin_div (a b : ℝ) (hb : b ≠ 0) : XR.fin a / XR.fin b = .fin (a / b) := by
  show XR.mul (.fin a) (XR.inv (.fin b)) = _
  simp only [XR.inv, if_neg hb, XR.mul, div_eq_mul_inv]
theorem XR.fin_log (a : ℝ) (ha : 0 < a) : (Transc.log (XR.fin a) : XR) = .fin (Real.log a) := by
  show (if a < 0 then _ else if a = 0 then _ else _) = _
  rw [if_neg ha.not_gt, if_neg ha.ne']
theorem XR.zero_eq : (0 : XR) = .fin 0 := rfl
theorem XR.one_eq : (1 : XR) = .fin 1 := rfl
theorem XR.two_eq : (two : XR) = .fin 2 := by show XR.fin (1 + 1) = _; norm_num
theorem XR.nat_eq (n : ℕ) : (n : XR) = .fin n := rfl
theorem XR.pi_eq : (Transc.pi : XR) = .fin Real.pi := rfl

theorem XR.sumFin_fin : {n : ℕ} → (f : Fin n → ℝ) → sumFin (fun i => XR.fin (f i)) = .fin (sumFin f)
  | 0, _ => rfl
  | _ + 1, f => by rw [sumFin, sumFin, XR.sumFin_fin]; rfl

theorem unemb_emb (x : Fin d → ℝ) : unemb (emb x) = x := rfl

/-- The acceptance test with floating-point infinities; at `u = 0` its left-hand side is `-inf`. -/
theorem acceptTest_fin (u r : ℝ) : acceptTest (XR.fin u) (.fin r) = true ↔ u = 0 ∨ 0 < u ∧ Real.log u < r := by
  rcases lt_trichotomy u 0 with h | h | h
  · have : (Transc.log (XR.fin u) : XR) = .nan := by
      show (if u < 0 then _ else if u = 0 then _ else _) = _; rw [if_pos h]
    simp only [acceptTest, this]
    simp [FCmp.blt, XR.blt, h.ne, h.not_gt]
  · subst h
    have : (Transc.log (XR.fin 0) : XR) = .ninf := by
      show (if (0:ℝ) < 0 then _ else if (0:ℝ) = 0 then _ else _) = _; simp
    simp only [acceptTest, this]
    simp [FCmp.blt, XR.blt]
  · simp only [acceptTest, XR.fin_log u h]
    simp [FCmp.blt, XR.blt, h, h.ne']

theorem acceptTest_bad (u r : XR) (h : Ieee.Bad r) : acceptTest u r = false := by
  rcases h with h | rfl
  · exact Ieee.lt_nan _ _ h
  · exact Ieee.lt_negInf _

theorem acceptTest_fin_measurable {A : Type} [MeasurableSpace A] {u r : A → ℝ} (hu : Measurable u) (hr : Measurable r) :
    MeasurableSet {a | acceptTest (XR.fin (u a)) (.fin (r a)) = true} := by
  simp only [acceptTest_fin]
  exact (hu (measurableSet_singleton 0)).union ((measurableSet_lt measurable_const hu).inter (measurableSet_lt (Real.measurable_log.comp hu) hr))

/-- Forbid a reversible step to leave `S`: it is reversible for the distribution truncated to `S`. -/
def censor (S : Set (Fin d → ℝ)) {B : Type} (step : B → (Fin d → ℝ) → Fin d → ℝ) (ω : B) (x : Fin d → ℝ) : Fin d → ℝ :=
  if step ω x ∈ S then step ω x else x

theorem censor_measurable {B : Type} [MeasurableSpace B] {S : Set (Fin d → ℝ)} (hS : MeasurableSet S) {step : B → (Fin d → ℝ) → Fin d → ℝ}
    (hm : Measurable (fun p : (Fin d → ℝ) × B => step p.2 p.1)) : Measurable (fun p : (Fin d → ℝ) × B => censor S step p.2 p.1) :=
  Measurable.ite (hm hS) hm measurable_fst

theorem censor_reversible {B : Type} [MeasurableSpace B] {S : Set (Fin d → ℝ)} (hS : MeasurableSet S) {step : B → (Fin d → ℝ) → Fin d → ℝ}
    (hm : Measurable (fun p : (Fin d → ℝ) × B => step p.2 p.1)) {π : Measure (Fin d → ℝ)} [SFinite π] {ν : Measure B} [SFinite ν] (h : Reversible π ν step) :
    Reversible (π.restrict S) ν (censor S step) := by
  have hcm := censor_measurable hS hm
  have main : ∀ f : (Fin d → ℝ) × (Fin d → ℝ) → ℝ≥0∞, Measurable f → ∫⁻ p, f (p.1, censor S step p.2 p.1) ∂((π.restrict S).prod ν) =
      ∫⁻ p, (S ×ˢ S).indicator f (p.1, step p.2 p.1) ∂(π.prod ν) +
      ∫⁻ p, S.indicator (fun _ => Sᶜ.indicator (fun _ => f (p.1, p.1)) (step p.2 p.1)) p.1 ∂(π.prod ν) := by
    intro f hf
    have hr : (π.restrict S).prod ν = (π.prod ν).restrict (S ×ˢ Set.univ) := by
      rw [← Measure.prod_restrict, Measure.restrict_univ]
    rw [hr, ← lintegral_indicator (hS.prod MeasurableSet.univ), ← lintegral_add_left]
    · refine lintegral_congr fun p => ?_
      by_cases hx : p.1 ∈ S <;> by_cases hy : step p.2 p.1 ∈ S <;> simp [Set.indicator, censor, hx, hy]
    · exact (hf.indicator (hS.prod hS)).comp (measurable_fst.prodMk hm)
  refine Measure.ext_of_lintegral _ fun f hf => ?_
  rw [lintegral_map hf (measurable_fst.prodMk hcm), lintegral_map hf (hcm.prodMk measurable_fst), main f hf]
  have e2 := main (fun z => f z.swap) (by fun_prop)
  simp only [Prod.swap_prod_mk] at e2
  rw [e2]
  congr 1
  have e3 := congrArg (fun μ => ∫⁻ p, (S ×ˢ S).indicator f p ∂μ) h
  beta_reduce at e3
  rw [lintegral_map (hf.indicator (hS.prod hS)) (measurable_fst.prodMk hm), lintegral_map (hf.indicator (hS.prod hS)) (hm.prodMk measurable_fst)] at e3
  rw [e3]
  refine lintegral_congr fun p => ?_
  by_cases hx : p.1 ∈ S <;> by_cases hy : step p.2 p.1 ∈ S <;> simp [Set.indicator, hx, hy]

/-- Reversibility only looks at almost every point and draw. -/
theorem Spec.Reversible.congr {X B : Type} [MeasurableSpace X] [MeasurableSpace B] {π : Measure X} {ν : Measure B} {step step' : B → X → X}
    (h : Reversible π ν step) (he : ∀ᵐ p ∂(π.prod ν), step' p.2 p.1 = step p.2 p.1) : Reversible π ν step' := by
  unfold Reversible at *
  rw [Measure.map_congr (g := fun p => (p.1, step p.2 p.1)) (he.mono fun p hp => by simp only [hp]),
    Measure.map_congr (f := fun p : X × B => (step' p.2 p.1, p.1)) (g := fun p => (step p.2 p.1, p.1)) (he.mono fun p hp => by simp only [hp])]
  exact h

theorem wallMeasure_eq (S : Set (Fin d → ℝ)) (lp : (Fin d → ℝ) → ℝ) (hS : MeasurableSet S) : wallMeasure S lp = (targetMeasure lp).restrict S := by
  rw [wallMeasure, targetMeasure, restrict_withDensity hS]

instance (S : Set (Fin d → ℝ)) (lp : (Fin d → ℝ) → ℝ) : SFinite (wallMeasure S lp) := by unfold wallMeasure; infer_instance

/-- Almost every start lies in `S`, and the uniform number is almost surely in `(0, 1)`. -/
theorem wall_ae {S : Set (Fin d → ℝ)} (hS : MeasurableSet S) (lp : (Fin d → ℝ) → ℝ) {B : Type} [MeasurableSpace B] (ν : Measure B) [SFinite ν] :
    ∀ᵐ p ∂((wallMeasure S lp).prod (ν.prod unif)), p.1 ∈ S ∧ 0 < p.2.2 := by
  have h1 : ∀ᵐ x ∂(wallMeasure S lp), x ∈ S := by rw [wallMeasure_eq S lp hS]; exact ae_restrict_mem hS
  have h2 : ∀ᵐ u ∂unif, (0:ℝ) < u := by
    have h0 : ∀ᵐ u : ℝ ∂unif, u ≠ 0 := ae_restrict_of_ae (by simp [ae_iff])
    have h1 : ∀ᵐ u : ℝ ∂unif, u ∈ Set.Ico (0:ℝ) 1 := ae_restrict_mem measurableSet_Ico
    filter_upwards [h0, h1] with u h0 h1
    exact lt_of_le_of_ne h1.1 (Ne.symm h0)
  exact (Measure.quasiMeasurePreserving_fst.ae h1).and (Measure.quasiMeasurePreserving_snd.ae (Measure.quasiMeasurePreserving_snd.ae h2))

theorem acceptTest_pos {u : ℝ} (hu : 0 < u) (r : ℝ) : acceptTest (XR.fin u) (.fin r) = acceptTest u r := by
  rw [Bool.eq_iff_iff, acceptTest_fin, acceptTest_real]
  simp [hu, hu.ne']

/-- The target inside the walls, extended to all points. -/
def innerTarget (lp : (Fin d → ℝ) → ℝ) (g : (Fin d → ℝ) → Fin d → ℝ) : Target ℝ D d := ⟨fun x _ => lp x, fun x _ => g x⟩

variable {S : Set (Fin d → ℝ)} {lp : (Fin d → ℝ) → ℝ} {g : (Fin d → ℝ) → Fin d → ℝ} {t : Target XR D d} {data : Data D}

/-- Accept/reject with walls: the proposal `q (x, b)` with log ratio `r (x, b)` is accepted only if it lies in `S`. -/
def wallStep (S : Set (Fin d → ℝ)) {B : Type} (q : (Fin d → ℝ) × B → Fin d → ℝ) (r : (Fin d → ℝ) × B → ℝ) (ω : B × ℝ) (x : Fin d → ℝ) : Fin d → ℝ :=
  if (x ∈ S ∧ q (x, ω.1) ∈ S) ∧ acceptTest (XR.fin ω.2) (.fin (r (x, ω.1))) = true then q (x, ω.1) else x

variable {B : Type} {q : (Fin d → ℝ) × B → Fin d → ℝ} {r : (Fin d → ℝ) × B → ℝ}

theorem wallStep_mem {ω : B × ℝ} {x : Fin d → ℝ} (hx : x ∈ S) : wallStep S q r ω x ∈ S := by
  unfold wallStep; split
  · next h => exact h.1.2
  · exact hx

theorem wallStep_emb {ω : B × ℝ} {x : Fin d → ℝ} (hx : x ∈ S) (b : Bool) (h1 : q (x, ω.1) ∈ S → b = acceptTest (XR.fin ω.2) (.fin (r (x, ω.1)))) (h2 : q (x, ω.1) ∉ S → b = false) :
    (if b = true then emb (q (x, ω.1)) else emb x) = emb (wallStep S q r ω x) := by
  unfold wallStep
  by_cases hy : q (x, ω.1) ∈ S
  · rw [h1 hy]; simp only [hx, hy, true_and]; split <;> rfl
  · rw [h2 hy]; simp [hy]

theorem wallStep_measurable [MeasurableSpace B] (hS : MeasurableSet S) (hq : Measurable q) (hr : Measurable r) :
    Measurable (fun p : (Fin d → ℝ) × (B × ℝ) => wallStep S q r p.2 p.1) := by
  have h1 : Measurable (fun p : (Fin d → ℝ) × (B × ℝ) => (p.1, p.2.1)) := by fun_prop
  exact Measurable.ite (((measurable_fst hS).inter ((hq.comp h1) hS)).inter (acceptTest_fin_measurable (by fun_prop) (hr.comp h1))) (hq.comp h1) measurable_fst

theorem wallStep_reversible [MeasurableSpace B] (hS : MeasurableSet S) (hq : Measurable q) (hr : Measurable r) {ν : Measure B} [IsProbabilityMeasure ν]
    (h : Reversible (targetMeasure lp) (ν.prod unif) (fun ω x => if acceptTest ω.2 (r (x, ω.1)) = true then q (x, ω.1) else x)) :
    Reversible (wallMeasure S lp) (ν.prod unif) (wallStep S q r) := by
  haveI : SFinite (targetMeasure lp) := by unfold targetMeasure; infer_instance
  have h0 : Measurable (fun p : (Fin d → ℝ) × (B × ℝ) => (p.1, p.2.1)) := by fun_prop
  have hm : Measurable (fun p : (Fin d → ℝ) × (B × ℝ) => if acceptTest p.2.2 (r (p.1, p.2.1)) = true then q (p.1, p.2.1) else p.1) := by
    simp only [acceptTest_real]
    exact Measurable.ite (measurableSet_lt (by fun_prop) (hr.comp h0)) (hq.comp h0) measurable_fst
  have h1 := censor_reversible hS hm h
  rw [← wallMeasure_eq S lp hS] at h1
  refine h1.congr ((wall_ae hS lp ν).mono ?_)
  rintro ⟨x, b, u⟩ ⟨hx, hu⟩
  simp only [wallStep, censor, acceptTest_pos hu] at hx hu ⊢
  by_cases hy : q (x, b) ∈ S <;> by_cases ha : acceptTest u (r (x, b)) = true <;> simp [hx, hy, ha]

/-! ### the three local kernels as censored real kernels -/

/-- Proposal and log ratio of the random walk. -/
def grwQ (step : ℝ) (z : (Fin d → ℝ) × (Fin d → ℝ)) : Fin d → ℝ := grwProposal step z.1 z.2
def grwR (lp : (Fin d → ℝ) → ℝ) (step : ℝ) (z : (Fin d → ℝ) × (Fin d → ℝ)) : ℝ := lp (grwQ step z) - lp z.1

theorem grw_wall (hW : Walled S lp g t data) (step : ℝ) (ω : (Fin d → ℝ) × ℝ) (x : Fin d → ℝ) (hx : x ∈ S) :
    (grwStep (.fin step) t data (emb ω.1) (.fin ω.2) (emb x) (t.val (emb x) data)).pos = emb (wallStep S (grwQ step) (grwR lp step) ω x) := by
  have hp : grwProposal (.fin step) (emb x) (emb ω.1) = emb (grwQ step (x, ω.1)) := rfl
  simp only [grwStep, hp]
  refine wallStep_emb hx _ (fun hy => ?_) (fun hy => ?_)
  · rw [hW.inside _ hy, hW.inside _ hx, XR.fin_sub]; rfl
  · exact acceptTest_bad _ _ (bad_sub _ (hW.outside _ hy))

theorem isoNorm_fin (y m : Fin d → ℝ) (c : ℝ) (hc : 0 < c) : isoNormLogpdf (emb y) (emb m) (XR.fin c) = .fin (isoNormLogpdf y m c) := by
  have h1 : (fun i => (emb y i - emb m i) * (emb y i - emb m i)) = fun i => XR.fin ((y i - m i) * (y i - m i)) := by
    funext i; simp only [emb, XR.fin_sub, XR.fin_mul]
  simp only [isoNormLogpdf, h1, XR.sumFin_fin, XR.two_eq, XR.one_eq, XR.pi_eq, XR.nat_eq, XR.fin_mul, XR.fin_neg, XR.fin_log c hc,
    XR.fin_log (2 * Real.pi) (by positivity), XR.fin_add, XR.fin_div _ _ hc.ne', XR.fin_div _ 2 two_ne_zero, XR.fin_sub]
  norm_num [two, Transc.log, Transc.pi]

theorem malaMean_fin (dt : ℝ) (x g : Fin d → ℝ) : malaMean (.fin dt) (emb x) (emb g) = emb (malaMean dt x g) := by
  funext i
  simp only [malaMean, emb, XR.two_eq, XR.fin_mul, XR.fin_div _ 2 two_ne_zero, XR.fin_add]
  norm_num [two]

theorem malaProposal_fin (dt : ℝ) (x g ξ : Fin d → ℝ) : malaProposal (.fin dt) (emb x) (emb g) (emb ξ) = emb (malaProposal dt x g ξ) := by
  funext i
  simp only [malaProposal, malaMean_fin]
  rfl

/-- Proposal and log ratio of MALA. -/
def malaQ (g : (Fin d → ℝ) → Fin d → ℝ) (dt : ℝ) (z : (Fin d → ℝ) × (Fin d → ℝ)) : Fin d → ℝ := malaProposal dt z.1 (g z.1) z.2
def malaR (lp : (Fin d → ℝ) → ℝ) (g : (Fin d → ℝ) → Fin d → ℝ) (dt : ℝ) (z : (Fin d → ℝ) × (Fin d → ℝ)) : ℝ :=
  malaRatio dt z.1 (malaQ g dt z) (g z.1) (g (malaQ g dt z)) (lp z.1) (lp (malaQ g dt z))

theorem mala_wall (hW : Walled S lp g t data) (dt : ℝ) (hdt : dt ≠ 0) (ω : (Fin d → ℝ) × ℝ) (x : Fin d → ℝ) (hx : x ∈ S) (lp' : XR) :
    (malaStep (.fin dt) t data (emb ω.1) (.fin ω.2) (emb x) lp').pos = emb (wallStep S (malaQ g dt) (malaR lp g dt) ω x) := by
  have hc : 0 < dt * dt := mul_self_pos.2 hdt
  have hp : malaProposal (.fin dt) (emb x) (t.grad (emb x) data) (emb ω.1) = emb (malaQ g dt (x, ω.1)) := by rw [hW.grad x hx, malaProposal_fin]; rfl
  simp only [malaStep, hp]
  refine wallStep_emb hx _ (fun hy => ?_) (fun hy => ?_)
  · simp only [hW.inside _ hy, hW.inside _ hx, hW.grad _ hx, hW.grad _ hy, malaRatio, malaMean_fin, XR.fin_mul, isoNorm_fin _ _ _ hc, XR.fin_sub, XR.fin_add, malaR]
  · exact acceptTest_bad _ _ (bad_add _ (bad_sub _ (bad_sub _ (hW.outside _ hy))))

/-! ### HMC -/

/-- A real matrix as a floating-point matrix. -/
def Spec.embMat (M : Mat ℝ d) : Mat XR d := fun i j => .fin (M i j)

theorem hmcMomentum_fin (L : Mat ℝ d) (z : Fin d → ℝ) : hmcMomentum (embMat L) (emb z) = emb (hmcMomentum L z) := by
  funext i
  exact XR.sumFin_fin _

theorem hmcKinetic_fin (M : Mat ℝ d) (p : Fin d → ℝ) : hmcKinetic (embMat M) (emb p) = .fin (hmcKinetic M p) := by
  have h1 : (fun i => sumFin fun j => emb p j * emb p j * embMat M i j) = fun i => XR.fin (sumFin fun j => p j * p j * M i j) := by
    funext i; exact XR.sumFin_fin _
  simp only [hmcKinetic, h1, XR.sumFin_fin, XR.one_eq, XR.two_eq, XR.fin_div _ 2 two_ne_zero, XR.fin_mul]
  norm_num [two]

theorem leapfrogCoef_fin (n i : ℕ) : (leapfrogCoef n i : XR × XR) = (.fin (leapfrogCoef (F := ℝ) n i).1, .fin (leapfrogCoef (F := ℝ) n i).2) := by
  simp only [leapfrogCoef, XR.one_eq, XR.zero_eq, XR.two_eq, XR.fin_div _ 2 two_ne_zero]
  split
  · norm_num [two]
  · split <;> norm_num [two]

theorem leapfrogStep_fin (ε : ℝ) (n : ℕ) (M : Mat ℝ d) (gU : Pos XR d → Pos XR d) (gU' : (Fin d → ℝ) → Fin d → ℝ) (hg : ∀ x, gU (emb x) = emb (gU' x)) (x p : Fin d → ℝ) :
    leapfrogStep (.fin ε) n (embMat M) gU (emb x, emb p) = (emb (leapfrogStep ε n M gU' (x, p)).1, emb (leapfrogStep ε n M gU' (x, p)).2) := by
  have hb : ∀ i (z : (Fin d → ℝ) × (Fin d → ℝ)), leapfrogBody (.fin ε) n (embMat M) gU i (emb z.1, emb z.2) =
      (emb (leapfrogBody ε n M gU' i z).1, emb (leapfrogBody ε n M gU' i z).2) := by
    intro i z
    have hk : hmcKineticGrad (embMat M) (emb z.2) = emb (hmcKineticGrad M z.2) := by
      funext j
      show XR.fin (z.2 j) * sumFin (fun i => XR.fin (M i j)) = _
      rw [XR.sumFin_fin]; rfl
    have hx : (fun a => emb z.1 a + .fin ε * (leapfrogCoef n i : XR × XR).1 * hmcKineticGrad (embMat M) (emb z.2) a) =
        emb (leapfrogBody ε n M gU' i z).1 := by
      funext a
      rw [hk, leapfrogCoef_fin]; rfl
    simp only [leapfrogBody] at hx ⊢
    rw [hx, hg, leapfrogCoef_fin]
    refine Prod.ext rfl ?_
    funext a
    simp only [emb, XR.fin_mul, XR.fin_sub]
  have : ∀ (l : List ℕ) (z : (Fin d → ℝ) × (Fin d → ℝ)), l.foldl (fun s i => leapfrogBody (.fin ε) n (embMat M) gU i s) (emb z.1, emb z.2) =
      (emb (l.foldl (fun s i => leapfrogBody ε n M gU' i s) z).1, emb (l.foldl (fun s i => leapfrogBody ε n M gU' i s) z).2) := by
    intro l
    induction l with
    | nil => intro z; rfl
    | cons i l ih => intro z; rw [List.foldl_cons, hb, ih]; rfl
  exact this _ (x, p)

/-- Proposal and log ratio of HMC. -/
def hmcEnd (g : (Fin d → ℝ) → Fin d → ℝ) (ε : ℝ) (n : ℕ) (M L : Mat ℝ d) (z : (Fin d → ℝ) × (Fin d → ℝ)) : Pos ℝ d × Pos ℝ d :=
  leapfrogStep ε n M (fun y i => -(g y i)) (z.1, hmcMomentum L z.2)
def hmcQ (g : (Fin d → ℝ) → Fin d → ℝ) (ε : ℝ) (n : ℕ) (M L : Mat ℝ d) (z : (Fin d → ℝ) × (Fin d → ℝ)) : Fin d → ℝ := (hmcEnd g ε n M L z).1
def hmcR (lp : (Fin d → ℝ) → ℝ) (g : (Fin d → ℝ) → Fin d → ℝ) (ε : ℝ) (n : ℕ) (M L : Mat ℝ d) (z : (Fin d → ℝ) × (Fin d → ℝ)) : ℝ :=
  -lp z.1 + hmcKinetic M (hmcMomentum L z.2) - (-lp (hmcQ g ε n M L z) + hmcKinetic M (hmcEnd g ε n M L z).2)

theorem hmc_wall (hW : Walled S lp g t data) (hG : ∀ x, t.grad (emb x) data = emb (g x)) (ε : ℝ) (n : ℕ) (M L : Mat ℝ d) (ω : (Fin d → ℝ) × ℝ) (x : Fin d → ℝ) (hx : x ∈ S) :
    (hmcStep (.fin ε) n (embMat M) (embMat L) t data (emb ω.1) (.fin ω.2) (emb x) (t.val (emb x) data)).pos =
      emb (wallStep S (hmcQ g ε n M L) (hmcR lp g ε n M L) ω x) := by
  have hq := leapfrogStep_fin ε n M (fun y i => -(t.grad y data i)) (fun y i => -(g y i)) (fun y => by funext i; rw [hG]; rfl) x (hmcMomentum L ω.1)
  simp only [hmcStep, hmcMomentum_fin, hq]
  refine wallStep_emb (q := hmcQ g ε n M L) hx _ (fun hy => ?_) (fun hy => ?_)
  · have hv := hW.inside _ hy
    simp only [hmcQ, hmcEnd] at hv
    simp only [hv, hW.inside _ hx, hmcKinetic_fin, XR.fin_neg, XR.fin_add, XR.fin_sub, hmcR, hmcQ, hmcEnd]
  · exact acceptTest_bad _ _ (bad_energy _ _ (hW.outside _ hy))

/-! ### the flow kernel -/

/-- Proposal and log ratio of a flow proposal. -/
def flowR (lp lnf : (Fin d → ℝ) → ℝ) (z : (Fin d → ℝ) × (Fin d → ℝ)) : ℝ := (lp z.2 - lp z.1) - (lnf z.2 - lnf z.1)

theorem flow_wall (hW : Walled S lp g t data) (lnf : (Fin d → ℝ) → ℝ) (ω : (Fin d → ℝ) × ℝ) (x : Fin d → ℝ) (hx : x ∈ S) :
    (nfBody (.fin ω.2) ⟨emb x, t.val (emb x) data, .fin (lnf x)⟩ (emb ω.1, t.val (emb ω.1) data, .fin (lnf ω.1))).2.pos =
      emb (wallStep S Prod.snd (flowR lp lnf) ω x) := by
  simp only [nfBody]
  refine wallStep_emb (q := Prod.snd) hx _ (fun hy => ?_) (fun hy => ?_)
  · have hv := hW.inside ω.1 hy
    simp only [hv, hW.inside _ hx, XR.fin_sub, flowR]
  · exact acceptTest_bad _ _ (bad_sub _ (bad_sub _ (hW.outside _ hy)))

/-! ### C67 -/

theorem grwQ_measurable (step : ℝ) : Measurable (grwQ (d := d) step) := grwProposal_measurable
theorem grwR_measurable (hW : Walled S lp g t data) (step : ℝ) : Measurable (grwR lp step) :=
  (hW.meas_lp.comp (grwQ_measurable step)).sub (hW.meas_lp.comp measurable_fst)
theorem malaQ_measurable (hW : Walled S lp g t data) (dt : ℝ) : Measurable (malaQ g dt) := malaProposal_measurable dt (innerTarget lp g) data hW.meas_grad
theorem malaR_measurable (hW : Walled S lp g t data) (dt : ℝ) : Measurable (malaR lp g dt) :=
  (malaLogRatio_measurable dt (innerTarget lp g) data hW.meas_lp hW.meas_grad).comp (measurable_fst.prodMk (malaQ_measurable hW dt))
theorem hmcEnd_measurable (hW : Walled S lp g t data) (ε : ℝ) (n : ℕ) (M L : Mat ℝ d) : Measurable (hmcEnd g ε n M L) :=
  (leapfrog_measurable ε n M (innerTarget lp g) data hW.meas_grad).comp (measurable_fst.prodMk ((hmcMomentum_measurable L).comp measurable_snd))
theorem hmcQ_measurable (hW : Walled S lp g t data) (ε : ℝ) (n : ℕ) (M L : Mat ℝ d) : Measurable (hmcQ g ε n M L) := measurable_fst.comp (hmcEnd_measurable hW ε n M L)
theorem hmcR_measurable (hW : Walled S lp g t data) (ε : ℝ) (n : ℕ) (M L : Mat ℝ d) : Measurable (hmcR lp g ε n M L) :=
  ((hW.meas_lp.comp measurable_fst).neg.add ((hmcKinetic_measurable M).comp ((hmcMomentum_measurable L).comp measurable_snd))).sub
    ((hW.meas_lp.comp (hmcQ_measurable hW ε n M L)).neg.add ((hmcKinetic_measurable M).comp (measurable_snd.comp (hmcEnd_measurable hW ε n M L))))
theorem flowR_measurable (hW : Walled S lp g t data) {lnf : (Fin d → ℝ) → ℝ} (hl : Measurable lnf) : Measurable (flowR lp lnf) :=
  ((hW.meas_lp.comp measurable_snd).sub (hW.meas_lp.comp measurable_fst)).sub ((hl.comp measurable_snd).sub (hl.comp measurable_fst))

theorem wall_ae_congr (hS : MeasurableSet S) [MeasurableSpace B] {ν : Measure B} [IsProbabilityMeasure ν] {step step' : B × ℝ → (Fin d → ℝ) → Fin d → ℝ}
    (h : Reversible (wallMeasure S lp) (ν.prod unif) step) (he : ∀ ω, ∀ x ∈ S, step' ω x = step ω x) : Reversible (wallMeasure S lp) (ν.prod unif) step' :=
  h.congr ((wall_ae hS lp ν).mono fun p hp => he p.2 p.1 hp.1)

/-- **C67**, Gaussian random walk: with a target that is `-inf` or NaN outside `S`, one step is reversible with respect to the truncated density `1_S exp (logpdf)`. -/
theorem C67_grw (hW : Walled S lp g t data) (step : ℝ) : Reversible (wallMeasure S lp) (noise d)
    (fun ω x => unemb (grwStep (.fin step) t data (emb ω.1) (.fin ω.2) (emb x) (t.val (emb x) data)).pos) :=
  wall_ae_congr hW.meas (wallStep_reversible hW.meas (grwQ_measurable step) (grwR_measurable hW step) (C22_grw_reversible step (innerTarget lp g) data hW.meas_lp))
    fun ω x hx => by rw [grw_wall hW step ω x hx]; rfl

/-- **C67**, MALA: likewise, for every non-zero step size and every gradient, which outside `S` may be NaN. -/
theorem C67_mala (hW : Walled S lp g t data) (dt : ℝ) (hdt : dt ≠ 0) (lp' : (Fin d → ℝ) → XR) : Reversible (wallMeasure S lp) (noise d)
    (fun ω x => unemb (malaStep (.fin dt) t data (emb ω.1) (.fin ω.2) (emb x) (lp' x)).pos) :=
  wall_ae_congr hW.meas (wallStep_reversible hW.meas (malaQ_measurable hW dt) (malaR_measurable hW dt)
    (C23_mala_reversible dt hdt (innerTarget lp g) data hW.meas_lp hW.meas_grad lp)) fun ω x hx => by rw [mala_wall hW dt hdt ω x hx]; rfl

/-- **C67**, HMC with a positive diagonal matrix, for gradients that are finite everywhere (trajectories may pass through the forbidden region). -/
theorem C67_hmc (hW : Walled S lp g t data) (hG : ∀ x, t.grad (emb x) data = emb (g x)) (ε : ℝ) (n : ℕ) (M L : Mat ℝ d) (hM : IsPosDiag M) (hL : IsCholeskyInv M L) :
    Reversible (wallMeasure S lp) (noise d)
      (fun ω x => unemb (hmcStep (.fin ε) n (embMat M) (embMat L) t data (emb ω.1) (.fin ω.2) (emb x) (t.val (emb x) data)).pos) :=
  wall_ae_congr hW.meas (wallStep_reversible hW.meas (hmcQ_measurable hW ε n M L) (hmcR_measurable hW ε n M L)
    (C25_hmc_reversible_partial ε n M L hM hL (innerTarget lp g) data hW.meas_lp hW.meas_grad)) fun ω x hx => by rw [hmc_wall hW hG ε n M L ω x hx]; rfl

/-- **C67**, flow proposals. -/
theorem C67_flow (hW : Walled S lp g t data) (lnf : (Fin d → ℝ) → ℝ) (hl : Measurable lnf) (q : Measure (Fin d → ℝ)) [IsProbabilityMeasure q] (hq : SamplesFrom q lnf) :
    Reversible (wallMeasure S lp) (q.prod unif)
      (fun ω x => unemb (nfBody (.fin ω.2) ⟨emb x, t.val (emb x) data, .fin (lnf x)⟩ (emb ω.1, t.val (emb ω.1) data, .fin (lnf ω.1))).2.pos) :=
  wall_ae_congr hW.meas (wallStep_reversible hW.meas measurable_snd (flowR_measurable hW hl) (C26_flow_reversible (innerTarget lp g) data hW.meas_lp lnf hl q hq))
    fun ω x hx => by rw [flow_wall hW lnf ω x hx]; rfl

end
end FlowMC
