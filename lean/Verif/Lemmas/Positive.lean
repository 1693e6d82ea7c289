import Verif.Lemmas.Autocov
/-
Positivity of Metropolis–Hastings steps whose accepted moves form a kernel of minimum type.  No code of /repo is modelled here.
-/
open MeasureTheory ProbabilityTheory ENNReal
set_option linter.unusedSectionVars false
namespace FlowMC
open Spec

/-- A step whose symmetric form is positive. -/
def PositiveStep {X N : Type} [MeasurableSpace X] [MeasurableSpace N] (μ : Measure X) (ν : Measure N) (step : N → X → X) : Prop :=
  ∀ f h : X → ℝ≥0∞, Measurable f → Measurable h → 2 * ∫⁻ x, f x * stepOp ν step h x ∂μ ≤ ∫⁻ x, f x * stepOp ν step f x ∂μ + ∫⁻ x, h x * stepOp ν step h x ∂μ

theorem integral_sq_form {S : Type} [MeasurableSpace S] {m : Measure S} {a b : S → ℝ≥0∞} (ha : Measurable a) (hb : Measurable b) : 2 * ∫⁻ x, a x * b x ∂m ≤ ∫⁻ x, a x * a x ∂m + ∫⁻ x, b x * b x ∂m := by
  rw [← lintegral_add_left (show Measurable fun x => a x * a x from ha.mul ha), ← lintegral_const_mul _ (show Measurable fun x => a x * b x from ha.mul hb)]
  exact lintegral_mono fun x => two_mul_le_sq _ _

/-- A minimum as an integral of products. -/
theorem min_layers (a b : ℝ) : ENNReal.ofReal (min a b) = ∫⁻ s : ℝ, (if 0 < s ∧ s < a then 1 else 0) * (if 0 < s ∧ s < b then 1 else 0) := by
  have e : ∀ s : ℝ, (if 0 < s ∧ s < a then (1 : ℝ≥0∞) else 0) * (if 0 < s ∧ s < b then 1 else 0) = (Set.Ioo 0 (min a b)).indicator 1 s := by
    intro s
    by_cases h0 : 0 < s <;> by_cases h1 : s < a <;> by_cases h2 : s < b <;> simp [Set.indicator, h0, h1, h2]
  simp only [e]
  rw [lintegral_indicator_one measurableSet_Ioo, Real.volume_Ioo, sub_zero]

section
variable {S : Type} [MeasurableSpace S] (m : Measure S) [SFinite m] {w : S → ℝ} (hw : Measurable w)
include hw

theorem layer_measurable : Measurable fun p : ℝ × S => if 0 < p.1 ∧ p.1 < w p.2 then (1 : ℝ≥0∞) else 0 :=
  Measurable.ite ((measurableSet_lt measurable_const measurable_fst).inter (measurableSet_lt measurable_fst (hw.comp measurable_snd))) measurable_const measurable_const

theorem min_form_eq {f h : S → ℝ≥0∞} (hf : Measurable f) (hh : Measurable h) :
    ∫⁻ x, ∫⁻ y, f x * h y * ENNReal.ofReal (min (w x) (w y)) ∂m ∂m =
      ∫⁻ s : ℝ, (∫⁻ x, f x * (if 0 < s ∧ s < w x then 1 else 0) ∂m) * (∫⁻ y, h y * (if 0 < s ∧ s < w y then 1 else 0) ∂m) := by
  have hl := layer_measurable hw
  have mF : ∀ {f : S → ℝ≥0∞}, Measurable f → Measurable fun p : ℝ × S => f p.2 * (if 0 < p.1 ∧ p.1 < w p.2 then (1 : ℝ≥0∞) else 0) := fun hf => (hf.comp measurable_snd).mul hl
  have mf1 : ∀ {f : S → ℝ≥0∞}, Measurable f → ∀ s : ℝ, Measurable fun x => f x * (if 0 < s ∧ s < w x then (1 : ℝ≥0∞) else 0) := fun hf s => (mF hf).comp measurable_prodMk_left
  calc ∫⁻ x, ∫⁻ y, f x * h y * ENNReal.ofReal (min (w x) (w y)) ∂m ∂m
      = ∫⁻ x, ∫⁻ y, ∫⁻ s : ℝ, (f x * (if 0 < s ∧ s < w x then 1 else 0)) * (h y * (if 0 < s ∧ s < w y then 1 else 0)) ∂volume ∂m ∂m := by
        refine lintegral_congr fun x => lintegral_congr fun y => ?_
        have l1 : ∀ x : S, Measurable fun s : ℝ => if 0 < s ∧ s < w x then (1 : ℝ≥0∞) else 0 := fun x => hl.comp measurable_prodMk_right
        rw [min_layers, ← lintegral_const_mul _ ((l1 x).fun_mul (l1 y))]
        exact lintegral_congr fun s => by ring
    _ = ∫⁻ x, ∫⁻ s : ℝ, ∫⁻ y, (f x * (if 0 < s ∧ s < w x then 1 else 0)) * (h y * (if 0 < s ∧ s < w y then 1 else 0)) ∂m ∂volume ∂m := by
        refine lintegral_congr fun x => lintegral_lintegral_swap ?_
        exact (((mF hf).comp (measurable_snd.prodMk measurable_const : Measurable fun p : S × ℝ => (p.2, x))).mul ((mF hh).comp measurable_swap)).aemeasurable
    _ = ∫⁻ x, ∫⁻ s : ℝ, (f x * (if 0 < s ∧ s < w x then 1 else 0)) * (∫⁻ y, h y * (if 0 < s ∧ s < w y then 1 else 0) ∂m) ∂volume ∂m :=
        lintegral_congr fun x => lintegral_congr fun s => lintegral_const_mul _ (mf1 hh s)
    _ = ∫⁻ s : ℝ, ∫⁻ x, (f x * (if 0 < s ∧ s < w x then 1 else 0)) * (∫⁻ y, h y * (if 0 < s ∧ s < w y then 1 else 0) ∂m) ∂m := by
        refine lintegral_lintegral_swap ?_
        exact (((mF hf).comp measurable_swap).mul ((Measurable.lintegral_prod_right' (mF hh)).comp measurable_snd)).aemeasurable
    _ = _ := lintegral_congr fun s => lintegral_mul_const _ (mf1 hf s)

/-- Kernels of minimum type are positive. -/
theorem min_form {f h : S → ℝ≥0∞} (hf : Measurable f) (hh : Measurable h) :
    2 * ∫⁻ x, ∫⁻ y, f x * h y * ENNReal.ofReal (min (w x) (w y)) ∂m ∂m ≤
      ∫⁻ x, ∫⁻ y, f x * f y * ENNReal.ofReal (min (w x) (w y)) ∂m ∂m + ∫⁻ x, ∫⁻ y, h x * h y * ENNReal.ofReal (min (w x) (w y)) ∂m ∂m := by
  rw [min_form_eq m hw hf hh, min_form_eq m hw hf hf, min_form_eq m hw hh hh]
  have mF : ∀ {f : S → ℝ≥0∞}, Measurable f → Measurable fun s : ℝ => ∫⁻ x, f x * (if 0 < s ∧ s < w x then (1 : ℝ≥0∞) else 0) ∂m := fun hf =>
    Measurable.lintegral_prod_right' (f := fun p : ℝ × S => _) ((hf.comp measurable_snd).mul (layer_measurable hw))
  exact integral_sq_form (mF hf) (mF hh)
end

section
variable {X N : Type} [MeasurableSpace X] [MeasurableSpace N] (π : Measure X) [SFinite π] (ν₀ : Measure N) [IsProbabilityMeasure ν₀] (g : X × N → X) (hg : Measurable g)
    (acc : (X × N) × ℝ → Prop) [DecidablePred acc] (hacc : MeasurableSet {q | acc q}) (α : X × N → ℝ≥0∞) (hα : Measurable α) (hprob : ∀ z, unif {u | acc (z, u)} = α z)
include hg hacc hα hprob

/-- The symmetric form of a Metropolis–Hastings step. -/
theorem metropolis_form {f h : X → ℝ≥0∞} (hf : Measurable f) (hh : Measurable h) :
    ∫⁻ x, f x * stepOp (ν₀.prod unif) (fun ω x => if acc ((x, ω.1), ω.2) then g (x, ω.1) else x) h x ∂π =
      ∫⁻ x, ∫⁻ n, f x * h (g (x, n)) * α (x, n) ∂ν₀ ∂π + ∫⁻ x, f x * h x * ∫⁻ n, unif {u | ¬ acc ((x, n), u)} ∂ν₀ ∂π := by
  have hrej : Measurable fun z : X × N => unif {u | ¬ acc (z, u)} := measurable_measure_prodMk_left hacc.compl
  have m1 : Measurable fun z : X × N => f z.1 * h (g z) * α z := ((hf.comp measurable_fst).mul (hh.comp hg)).mul hα
  rw [← lintegral_add_left (Measurable.lintegral_prod_right' m1)]
  refine lintegral_congr fun x => ?_
  have hmx : Measurable fun p : N × ℝ => if acc ((x, p.1), p.2) then g (x, p.1) else x :=
    Measurable.ite ((by fun_prop : Measurable fun p : N × ℝ => ((x, p.1), p.2)) hacc) (hg.comp (by fun_prop)) measurable_const
  have e : stepOp (ν₀.prod unif) (fun ω x => if acc ((x, ω.1), ω.2) then g (x, ω.1) else x) h x = ∫⁻ n, h (g (x, n)) * α (x, n) + h x * unif {u | ¬ acc ((x, n), u)} ∂ν₀ := by
    have mm : Measurable fun p : N × ℝ => h (if acc ((x, p.1), p.2) then g (x, p.1) else x) := hh.comp hmx
    rw [stepOp, lintegral_prod _ mm.aemeasurable]
    refine lintegral_congr fun n => ?_
    have hz : MeasurableSet {u | acc ((x, n), u)} := (by fun_prop : Measurable fun u : ℝ => ((x, n), u)) hacc
    rw [← lintegral_add_compl _ hz, setLIntegral_congr_fun (g := fun _ => h (g (x, n))) hz, setLIntegral_congr_fun (g := fun _ => h x) hz.compl]
    · simp only [lintegral_const, MeasurableSet.univ, Measure.restrict_apply, Set.univ_inter, hprob]
      rfl
    · intro u hu
      have : ¬ acc ((x, n), u) := hu
      simp [this]
    · intro u hu
      have : acc ((x, n), u) := hu
      simp [this]
  have m2 : Measurable fun n => h (g (x, n)) * α (x, n) := (hh.comp (hg.comp measurable_prodMk_left)).mul (hα.comp measurable_prodMk_left)
  have m3 : Measurable fun n => unif {u | ¬ acc ((x, n), u)} := hrej.comp measurable_prodMk_left
  rw [e, lintegral_add_left m2, mul_add, ← lintegral_const_mul _ m2, lintegral_const_mul _ m3, ← mul_assoc]
  simp only [mul_assoc]

/-- A Metropolis–Hastings step is positive when its accepted part is. -/
theorem metropolis_positive (hK : ∀ f h : X → ℝ≥0∞, Measurable f → Measurable h → 2 * ∫⁻ x, ∫⁻ n, f x * h (g (x, n)) * α (x, n) ∂ν₀ ∂π ≤
      ∫⁻ x, ∫⁻ n, f x * f (g (x, n)) * α (x, n) ∂ν₀ ∂π + ∫⁻ x, ∫⁻ n, h x * h (g (x, n)) * α (x, n) ∂ν₀ ∂π) :
    PositiveStep π (ν₀.prod unif) (fun ω x => if acc ((x, ω.1), ω.2) then g (x, ω.1) else x) := by
  intro f h hf hh
  have mf := @metropolis_form _ _ _ _ π _ ν₀ _ g hg acc _ hacc α hα hprob
  rw [mf hf hh, mf hf hf, mf hh hh, mul_add]
  have hrej : Measurable fun z : X × N => unif {u | ¬ acc (z, u)} := measurable_measure_prodMk_left hacc.compl
  have hρ : Measurable fun x => ∫⁻ n, unif {u | ¬ acc ((x, n), u)} ∂ν₀ := Measurable.lintegral_prod_right' hrej
  have m2 : ∀ {f h : X → ℝ≥0∞}, Measurable f → Measurable h → Measurable fun x => f x * h x * ∫⁻ n, unif {u | ¬ acc ((x, n), u)} ∂ν₀ := fun hf hh => (hf.mul hh).mul hρ
  have k2 : 2 * ∫⁻ x, f x * h x * ∫⁻ n, unif {u | ¬ acc ((x, n), u)} ∂ν₀ ∂π ≤
      ∫⁻ x, f x * f x * ∫⁻ n, unif {u | ¬ acc ((x, n), u)} ∂ν₀ ∂π + ∫⁻ x, h x * h x * ∫⁻ n, unif {u | ¬ acc ((x, n), u)} ∂ν₀ ∂π := by
    rw [← lintegral_const_mul _ (m2 hf hh), ← lintegral_add_left (m2 hf hf)]
    refine lintegral_mono fun x => ?_
    rw [← mul_assoc, ← add_mul]
    exact mul_le_mul_left (two_mul_le_sq _ _) _
  calc _ ≤ _ := add_le_add (hK f h hf hh) k2
    _ = _ := by ring
end

/-! Consequences. -/

section
variable {X N : Type} [MeasurableSpace X] [MeasurableSpace N] {ν : Measure N} [IsProbabilityMeasure ν] {step : N → X → X} (hm : Measurable fun p : X × N => step p.2 p.1) {μ : Measure X} [SFinite μ]

theorem PositiveStep.smul (h : PositiveStep μ ν step) (c : ℝ≥0∞) : PositiveStep (c • μ) ν step := by
  intro f g hf hg
  simp only [lintegral_smul_measure, smul_eq_mul]
  calc _ = c * (2 * ∫⁻ x, f x * stepOp ν step g x ∂μ) := by ring
    _ ≤ c * _ := mul_le_mul_right (h f g hf hg) c
    _ = _ := mul_add _ _ _

include hm
theorem stepOp_contract (hinv : stepLaw ν step μ = μ) {f : X → ℝ≥0∞} (hf : Measurable f) (l : ℕ) : ∫⁻ x, (stepOp ν step)^[l] f x * (stepOp ν step)^[l] f x ∂μ ≤ ∫⁻ x, f x * f x ∂μ := by
  induction l with
  | zero => exact le_rfl
  | succ l ih =>
    refine le_trans ?_ ih
    rw [Function.iterate_succ_apply']
    have hF := stepOp_iterate_measurable (ν := ν) hm hf l
    generalize (stepOp ν step)^[l] f = F at hF ⊢
    have hsq : Measurable fun x => F x * F x := hF.mul hF
    have hsm : Measurable fun p : X × N => F (step p.2 p.1) * F (step p.2 p.1) := hsq.comp hm
    conv_rhs => rw [← hinv, stepLaw, lintegral_map hsq hm, lintegral_prod _ hsm.aemeasurable]
    refine lintegral_mono fun x => ?_
    have hx : Measurable fun w => F (step w x) := hF.comp (hm.comp measurable_prodMk_left)
    simp only [stepOp]
    have e : (∫⁻ w, F (step w x) ∂ν) * ∫⁻ w, F (step w x) ∂ν = ∫⁻ w, ∫⁻ w', F (step w x) * F (step w' x) ∂ν ∂ν := by
      rw [← lintegral_mul_const _ hx]
      exact lintegral_congr fun w => (lintegral_const_mul _ hx).symm
    have hx2 : Measurable fun w => F (step w x) * F (step w x) := hx.mul hx
    have k : 2 * ∫⁻ w, ∫⁻ w', F (step w x) * F (step w' x) ∂ν ∂ν ≤ 2 * ∫⁻ w, F (step w x) * F (step w x) ∂ν := by
      rw [← lintegral_const_mul _ (by rw [show (fun w => ∫⁻ w', F (step w x) * F (step w' x) ∂ν) = fun w => F (step w x) * ∫⁻ w', F (step w' x) ∂ν from funext fun w => lintegral_const_mul _ hx]; exact hx.mul_const _)]
      calc _ ≤ ∫⁻ w, (F (step w x) * F (step w x) + ∫⁻ w', F (step w' x) * F (step w' x) ∂ν) ∂ν := by
            refine lintegral_mono fun w => ?_
            have : F (step w x) * F (step w x) = ∫⁻ _, F (step w x) * F (step w x) ∂ν := by simp
            rw [this, ← lintegral_add_left measurable_const, ← lintegral_const_mul _ (hx.const_mul _)]
            exact lintegral_mono fun w' => two_mul_le_sq _ _
        _ = _ := by rw [lintegral_add_left hx2]; simp [two_mul]
    rw [e]
    exact (ENNReal.mul_le_mul_iff_right (by simp) (by simp)).1 k

theorem lagInt_finite (hinv : stepLaw ν step μ = μ) (l : ℕ) {f h : X → ℝ≥0∞} (hf : Measurable f) (hh : Measurable h) (ff : ∫⁻ x, f x * f x ∂μ ≠ ⊤) (fh : ∫⁻ x, h x * h x ∂μ ≠ ⊤) : lagInt μ ν step l f h ≠ ⊤ := by
  have k := (integral_sq_form (m := μ) hf (stepOp_iterate_measurable (ν := ν) hm hh l)).trans (add_le_add_right (stepOp_contract hm hinv hh l) _)
  intro e
  rw [lagInt] at e
  rw [e, ENNReal.mul_top (by simp), top_le_iff, ENNReal.add_eq_top] at k
  exact k.elim ff fh

/-- All lags. -/
theorem lag_positive (hrev : Reversible μ ν step) (hpos : PositiveStep μ ν step) {f h : X → ℝ≥0∞} (hf : Measurable f) (hh : Measurable h) (l : ℕ) :
    2 * lagInt μ ν step l f h ≤ lagInt μ ν step l f f + lagInt μ ν step l h h := by
  rcases Nat.even_or_odd' l with ⟨a, rfl | rfl⟩
  · rw [← lagInt_together hm hrev hf hh, ← lagInt_together hm hrev hf hf, ← lagInt_together hm hrev hh hh]
    exact integral_sq_form (stepOp_iterate_measurable hm hf a) (stepOp_iterate_measurable hm hh a)
  · rw [← lagInt_apart hm hrev hf hh, ← lagInt_apart hm hrev hf hf, ← lagInt_apart hm hrev hh hh]
    exact hpos _ _ (stepOp_iterate_measurable hm hf a) (stepOp_iterate_measurable hm hh a)

theorem lagInt_cross (hrev : Reversible μ ν step) {f h u v : X → ℝ≥0∞} (hf : Measurable f) (hh : Measurable h) (hu : Measurable u) (hv : Measurable v) (t l : ℕ) :
    lagInt μ ν step l (f + (stepOp ν step)^[t] h) (u + (stepOp ν step)^[t] v) =
      lagInt μ ν step l f u + lagInt μ ν step (l + t) f v + (lagInt μ ν step (l + t) h u + lagInt μ ν step (l + t + t) h v) := by
  have mh := stepOp_iterate_measurable (ν := ν) hm hh
  have mu := stepOp_iterate_measurable (ν := ν) hm hu
  have mv := stepOp_iterate_measurable (ν := ν) hm hv
  have e1 : ∫⁻ x, f x * (stepOp ν step)^[l] ((stepOp ν step)^[t] v) x ∂μ = lagInt μ ν step (l + t) f v := by rw [← Function.iterate_add_apply, lagInt]
  have e2 : ∫⁻ x, (stepOp ν step)^[t] h x * (stepOp ν step)^[l] u x ∂μ = lagInt μ ν step (l + t) h u := by rw [stepOp_split hm hrev hh hu, lagInt, add_comm]
  have e3 : ∫⁻ x, (stepOp ν step)^[t] h x * (stepOp ν step)^[l] ((stepOp ν step)^[t] v) x ∂μ = lagInt μ ν step (l + t + t) h v := by
    rw [← Function.iterate_add_apply, stepOp_split hm hrev hh hv, lagInt, show t + (l + t) = l + t + t by ring]
  have m1 : Measurable fun x => f x * (stepOp ν step)^[l] u x := hf.mul (mu l)
  have m2 : Measurable fun x => f x * (stepOp ν step)^[l] ((stepOp ν step)^[t] v) x := hf.mul (stepOp_iterate_measurable (ν := ν) hm (mv t) l)
  have m3 : Measurable fun x => (stepOp ν step)^[t] h x * (stepOp ν step)^[l] u x := (mh t).mul (mu l)
  calc lagInt μ ν step l (f + (stepOp ν step)^[t] h) (u + (stepOp ν step)^[t] v)
      = ∫⁻ x, f x * (stepOp ν step)^[l] u x + f x * (stepOp ν step)^[l] ((stepOp ν step)^[t] v) x +
          ((stepOp ν step)^[t] h x * (stepOp ν step)^[l] u x + (stepOp ν step)^[t] h x * (stepOp ν step)^[l] ((stepOp ν step)^[t] v) x) ∂μ := by
        rw [lagInt, stepOp_add hm hu (mv t) l]
        refine lintegral_congr fun x => ?_
        simp only [Pi.add_apply]
        ring
    _ = _ := by
        rw [lintegral_add_left (m1.fun_add m2), lintegral_add_left m1, lintegral_add_left m3, e1, e2, e3, show ∫⁻ x, f x * (stepOp ν step)^[l] u x ∂μ = lagInt μ ν step l f u from rfl]
end

/-- The autocovariance at lag `l` in equilibrium, by parts. -/
noncomputable def lagReal {X N : Type} [MeasurableSpace X] [MeasurableSpace N] (μ : Measure X) (ν : Measure N) (step : N → X → X) (g : X → ℝ) (l : ℕ) : ℝ :=
  (lagInt μ ν step l (fun x => ENNReal.ofReal (g x)) (fun x => ENNReal.ofReal (g x))).toReal + (lagInt μ ν step l (fun x => ENNReal.ofReal (-g x)) (fun x => ENNReal.ofReal (-g x))).toReal -
      2 * (lagInt μ ν step l (fun x => ENNReal.ofReal (g x)) (fun x => ENNReal.ofReal (-g x))).toReal

section
variable {X N : Type} [MeasurableSpace X] [MeasurableSpace N] {ν : Measure N} [IsProbabilityMeasure ν] {step : N → X → X} (hm : Measurable fun p : X × N => step p.2 p.1) {μ : Measure X} [SFinite μ]
  (hinv : stepLaw ν step μ = μ) (hrev : Reversible μ ν step) (hpos : PositiveStep μ ν step) {g : X → ℝ} (hg : Measurable g) (hg2 : Integrable (fun x => g x * g x) μ)
include hm hinv hrev hpos hg hg2

theorem lagReal_nonneg (l : ℕ) : 0 ≤ lagReal μ ν step g l := by
  have hp := hg.ennreal_ofReal
  have hq : Measurable fun x => ENNReal.ofReal (-g x) := hg.neg.ennreal_ofReal
  obtain ⟨fp, fq⟩ := square_parts hg2
  have key := lag_positive hm hrev hpos hp hq l
  rw [← ENNReal.coe_toNNReal (lagInt_finite hm hinv l hp hq fp fq), ← ENNReal.coe_toNNReal (lagInt_finite hm hinv l hp hp fp fp), ← ENNReal.coe_toNNReal (lagInt_finite hm hinv l hq hq fq fq)] at key
  have key2 : ((_ : NNReal) : ℝ) ≤ ((_ : NNReal) : ℝ) := NNReal.coe_le_coe.2 (ENNReal.coe_le_coe.1 key)
  push_cast [ENNReal.coe_toNNReal_eq_toReal] at key2
  rw [lagReal]
  linarith

theorem lagReal_convex (l t : ℕ) : 2 * lagReal μ ν step g (l + t) ≤ lagReal μ ν step g l + lagReal μ ν step g (l + t + t) := by
  have hp := hg.ennreal_ofReal
  have hq : Measurable fun x => ENNReal.ofReal (-g x) := hg.neg.ennreal_ofReal
  obtain ⟨fp, fq⟩ := square_parts hg2
  have key := lag_positive hm hrev hpos (hp.add (stepOp_iterate_measurable (ν := ν) hm hq t)) (hq.add (stepOp_iterate_measurable (ν := ν) hm hp t)) l
  have ms := fun l => lagInt_symm hm hrev hq hp l
  simp only [lagInt_cross hm hrev hp hq hp hq, lagInt_cross hm hrev hp hq hq hp, lagInt_cross hm hrev hq hp hq hp, ms] at key
  have F1 := fun l => lagInt_finite hm hinv l hp hp fp fp
  have F2 := fun l => lagInt_finite hm hinv l hq hq fq fq
  have F3 := fun l => lagInt_finite hm hinv l hp hq fp fq
  rw [← ENNReal.coe_toNNReal (F1 l), ← ENNReal.coe_toNNReal (F2 l), ← ENNReal.coe_toNNReal (F3 l), ← ENNReal.coe_toNNReal (F1 (l + t)), ← ENNReal.coe_toNNReal (F2 (l + t)), ← ENNReal.coe_toNNReal (F3 (l + t)),
    ← ENNReal.coe_toNNReal (F1 (l + t + t)), ← ENNReal.coe_toNNReal (F2 (l + t + t)), ← ENNReal.coe_toNNReal (F3 (l + t + t))] at key
  have key2 : ((_ : NNReal) : ℝ) ≤ ((_ : NNReal) : ℝ) := NNReal.coe_le_coe.2 (ENNReal.coe_le_coe.1 key)
  push_cast [ENNReal.coe_toNNReal_eq_toReal] at key2
  simp only [lagReal]
  linarith

variable {Ω : Type} [MeasurableSpace Ω] {P : Measure Ω} [IsProbabilityMeasure P] {n : ℕ} {Z : ℕ → Ω → X} (hZ : IsPath P ν step μ n Z) (hn : 0 < n)
include hZ hn

theorem lagReal_succ (l : ℕ) : lagReal μ ν step g (l + 1) ≤ lagReal μ ν step g l := by
  have even : ∀ a, lagReal μ ν step g (2 * a + 1) ≤ lagReal μ ν step g (2 * a) := by
    intro a
    have hp := hg.ennreal_ofReal
    have hq : Measurable fun x => ENNReal.ofReal (-g x) := hg.neg.ennreal_ofReal
    obtain ⟨fp, fq⟩ := square_parts hg2
    have key := hZ.lag_diff hm hinv hrev hp hq a 1 hn
    have F1 := fun l => lagInt_finite hm hinv l hp hp fp fp
    have F2 := fun l => lagInt_finite hm hinv l hq hq fq fq
    have F3 := fun l => lagInt_finite hm hinv l hp hq fp fq
    rw [← ENNReal.coe_toNNReal (F1 (2 * a)), ← ENNReal.coe_toNNReal (F2 (2 * a)), ← ENNReal.coe_toNNReal (F3 (2 * a)), ← ENNReal.coe_toNNReal (F1 (2 * a + 1)), ← ENNReal.coe_toNNReal (F2 (2 * a + 1)),
      ← ENNReal.coe_toNNReal (F3 (2 * a + 1))] at key
    have key2 : ((_ : NNReal) : ℝ) ≤ ((_ : NNReal) : ℝ) := NNReal.coe_le_coe.2 (ENNReal.coe_le_coe.1 key)
    push_cast [ENNReal.coe_toNNReal_eq_toReal] at key2
    simp only [lagReal]
    linarith
  rcases Nat.even_or_odd' l with ⟨a, rfl | rfl⟩
  · exact even a
  · have h1 := lagReal_convex hm hinv hrev hpos hg hg2 (2 * a + 1) 1
    have h2 := even (a + 1)
    rw [show 2 * (a + 1) + 1 = 2 * a + 1 + 1 + 1 by ring, show 2 * (a + 1) = 2 * a + 1 + 1 by ring] at h2
    linarith

theorem lagReal_antitone : Antitone (lagReal μ ν step g) := antitone_nat_of_succ_le (lagReal_succ hm hinv hrev hpos hg hg2 hZ hn)
end

end FlowMC
