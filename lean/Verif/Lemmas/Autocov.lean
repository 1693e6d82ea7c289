import Verif.Lemmas.Paths
/-
Autocovariances of a reversible chain in equilibrium.
-/
open MeasureTheory ProbabilityTheory
open scoped ENNReal
set_option linter.unusedSectionVars false
namespace FlowMC
open Spec
variable {X N : Type} [MeasurableSpace X] [MeasurableSpace N] {ν : Measure N} {step : N → X → X}

/-- The expected value of `h` one step later. -/
noncomputable def stepOp (ν : Measure N) (step : N → X → X) (h : X → ℝ≥0∞) : X → ℝ≥0∞ := fun x => ∫⁻ w, h (step w x) ∂ν

theorem stepOp_iterate_measurable [SFinite ν] (hm : Measurable fun p : X × N => step p.2 p.1) {h : X → ℝ≥0∞} (hh : Measurable h) (l : ℕ) : Measurable ((stepOp ν step)^[l] h) := by
  induction l with
  | zero => exact hh
  | succ l ih => rw [Function.iterate_succ_apply']; exact stepInt_measurable hm ih

/-- Several steps are self-adjoint. -/
theorem stepOp_adjoint [SFinite ν] (hm : Measurable fun p : X × N => step p.2 p.1) {μ : Measure X} [SFinite μ] (hrev : Reversible μ ν step) {g h : X → ℝ≥0∞} (hg : Measurable g) (hh : Measurable h) (l : ℕ) :
    ∫⁻ x, g x * (stepOp ν step)^[l] h x ∂μ = ∫⁻ x, (stepOp ν step)^[l] g x * h x ∂μ := by
  induction l generalizing g h with
  | zero => rfl
  | succ l ih =>
    rw [Function.iterate_succ_apply', Function.iterate_succ_apply]
    have := reversible_adjoint hm hrev hg (stepOp_iterate_measurable (ν := ν) hm hh l)
    exact this.trans (ih (stepInt_measurable hm hg) hh)

theorem stepOp_pathWeight (l : ℕ) (h : X → ℝ≥0∞) : pathWeight ν step l (fun j x => if j = l then h x else 1) = (stepOp ν step)^[l] h := by
  induction l with
  | zero => funext x; simp [pathWeight]
  | succ l ih =>
    funext x
    rw [Function.iterate_succ_apply']
    simp only [pathWeight]
    rw [if_neg (by omega), one_mul, ← ih]
    simp only [stepOp, Nat.add_right_cancel_iff]

variable {Ω : Type} [MeasurableSpace Ω] {P : Measure Ω} [IsProbabilityMeasure P]

/-- Expectation of a product of functions of two points of a trajectory in equilibrium. -/
theorem IsPath.two [IsProbabilityMeasure ν] (hm : Measurable fun p : X × N => step p.2 p.1) {μ : Measure X} [SFinite μ] (hinv : stepLaw ν step μ = μ) {n : ℕ} {Z : ℕ → Ω → X}
    (hZ : IsPath P ν step μ n Z) (i l : ℕ) (hn : i + l ≤ n) {f h : X → ℝ≥0∞} (hf : Measurable f) (hh : Measurable h) :
    ∫⁻ ω, f (Z i ω) * h (Z (i + l) ω) ∂P = ∫⁻ x, f x * (stepOp ν step)^[l] h x ∂μ := by
  -- at the beginning of the trajectory
  have h0 : ∫⁻ ω, f (Z 0 ω) * h (Z l ω) ∂P = ∫⁻ x, f x * (stepOp ν step)^[l] h x ∂μ := by
    set F : ℕ → X → ℝ≥0∞ := fun j x => (if j = 0 then f x else 1) * (if j = l then h x else 1) with hF
    have hFm : ∀ j, Measurable (F j) := fun j => by
      refine Measurable.mul ?_ ?_ <;> · split <;> first | assumption | exact measurable_const
    have e := hZ.law F hFm
    have e1 : ∀ ω, ∏ j ∈ Finset.range (n + 1), F j (Z j ω) = f (Z 0 ω) * h (Z l ω) := by
      intro ω
      simp only [hF]
      rw [Finset.prod_mul_distrib]
      refine congrArg₂ (· * ·) ?_ ?_
      · rw [Finset.prod_eq_single 0 (fun j _ hj => if_neg hj) (fun hj => absurd (Finset.mem_range.2 (by omega)) hj), if_pos rfl]
      · rw [Finset.prod_eq_single l (fun j _ hj => if_neg hj) (fun hj => absurd (Finset.mem_range.2 (by omega)) hj), if_pos rfl]
    simp only [e1] at e
    rw [e]
    refine lintegral_congr fun x => ?_
    have e2 : pathWeight ν step n F x = pathWeight ν step l F x := by
      obtain ⟨c, rfl⟩ : ∃ c, n = l + c := ⟨n - l, by omega⟩
      rw [pathWeight_trails l c F fun j hj => by funext y; simp only [hF]; rw [if_neg (by omega), if_neg (by omega), one_mul]]
    rw [e2, ← stepOp_pathWeight l h, pathWeight_mul]
    refine congrFun (pathWeight_congr l _ _ fun j _ => ?_) x
    funext y
    simp only [hF]
    split <;> simp
  rw [← h0]
  have e := congrArg (fun κ => ∫⁻ z : Fin 2 → X, f (z 0) * h (z 1) ∂κ) (hZ.shift hm hinv l 2 i 0 (fun j hj => by have : j * l ≤ 1 * l := Nat.mul_le_mul_right _ (by omega); omega)
    (fun j hj => by have : j * l ≤ 1 * l := Nat.mul_le_mul_right _ (by omega); omega))
  beta_reduce at e
  have hG : Measurable fun z : Fin 2 → X => f (z 0) * h (z 1) := (hf.comp (measurable_pi_apply 0)).mul (hh.comp (measurable_pi_apply 1))
  have hl : ∀ j : Fin 2, (j : ℕ) * l ≤ l := fun j => by have : (j : ℕ) * l ≤ 1 * l := Nat.mul_le_mul_right _ (by omega); omega
  rw [lintegral_map hG (measurable_pi_lambda _ fun j => hZ.meas _ (by have := hl j; omega)), lintegral_map hG (measurable_pi_lambda _ fun j => hZ.meas _ (by have := hl j; omega))] at e
  simpa [add_comm] using e

/-! Inequalities between squares and products. -/

theorem two_mul_le_sq (a b : ℝ≥0∞) : 2 * (a * b) ≤ a * a + b * b := by
  rcases eq_or_ne a ⊤ with rfl | ha
  · simp
  rcases eq_or_ne b ⊤ with rfl | hb
  · simp
  lift a to NNReal using ha
  lift b to NNReal using hb
  norm_cast
  rw [← NNReal.coe_le_coe]
  push_cast
  nlinarith [sq_nonneg ((a : ℝ) - b)]

theorem diff_sq_le (a b c e : ℝ≥0∞) : 2 * (a * b + c * e + (a * c + b * e)) ≤ a * a + b * b + (c * c + e * e) + 2 * (a * e + b * c) := by
  rcases eq_or_ne a ⊤ with rfl | ha
  · simp
  rcases eq_or_ne b ⊤ with rfl | hb
  · simp
  rcases eq_or_ne c ⊤ with rfl | hc
  · simp
  rcases eq_or_ne e ⊤ with rfl | he
  · simp
  lift a to NNReal using ha
  lift b to NNReal using hb
  lift c to NNReal using hc
  lift e to NNReal using he
  norm_cast
  rw [← NNReal.coe_le_coe]
  push_cast
  nlinarith [sq_nonneg ((a : ℝ) - b - c + e)]

/-- Steps can be moved from one factor to the other. -/
theorem stepOp_split [SFinite ν] (hm : Measurable fun p : X × N => step p.2 p.1) {μ : Measure X} [SFinite μ] (hrev : Reversible μ ν step) {g h : X → ℝ≥0∞} (hg : Measurable g) (hh : Measurable h) (a b : ℕ) :
    ∫⁻ x, (stepOp ν step)^[a] g x * (stepOp ν step)^[b] h x ∂μ = ∫⁻ x, g x * (stepOp ν step)^[a + b] h x ∂μ := by
  rw [← stepOp_adjoint hm hrev hg (stepOp_iterate_measurable hm hh b) a, Function.iterate_add_apply]

theorem stepOp_add [SFinite ν] (hm : Measurable fun p : X × N => step p.2 p.1) {g h : X → ℝ≥0∞} (hg : Measurable g) (hh : Measurable h) (l : ℕ) :
    (stepOp ν step)^[l] (g + h) = (stepOp ν step)^[l] g + (stepOp ν step)^[l] h := by
  induction l with
  | zero => rfl
  | succ l ih =>
    rw [Function.iterate_succ_apply', ih, Function.iterate_succ_apply', Function.iterate_succ_apply']
    funext x
    simp only [stepOp, Pi.add_apply]
    exact lintegral_add_left ((stepOp_iterate_measurable (ν := ν) hm hg l).comp (hm.comp (measurable_prodMk_left (x := x)))) _

section
variable [IsProbabilityMeasure ν] (hm : Measurable fun p : X × N => step p.2 p.1) {μ : Measure X} [SFinite μ] (hinv : stepLaw ν step μ = μ) {n : ℕ} {Z : ℕ → Ω → X} (hZ : IsPath P ν step μ n Z)
include hm hinv hZ

theorem IsPath.square (i : ℕ) (hn : i ≤ n) {f h : X → ℝ≥0∞} (hf : Measurable f) (hh : Measurable h) : ∫⁻ ω, f (Z i ω) * h (Z i ω) ∂P = ∫⁻ x, f x * h x ∂μ :=
  hZ.two hm hinv i 0 hn hf hh

/-- Even lags. -/
theorem sq_nonneg_form {a b : X → ℝ≥0∞} (ha : Measurable a) (hb : Measurable b) : 2 * ∫⁻ x, a x * b x ∂μ ≤ ∫⁻ x, a x * a x ∂μ + ∫⁻ x, b x * b x ∂μ := by
  rw [← lintegral_add_left (ha.fun_mul ha), ← lintegral_const_mul _ (ha.fun_mul hb)]
  exact lintegral_mono fun x => two_mul_le_sq _ _

/-- A step added to the identity is positive. -/
theorem IsPath.sum_form (t : ℕ) (hn : t ≤ n) {a b : X → ℝ≥0∞} (ha : Measurable a) (hb : Measurable b) :
    2 * (∫⁻ x, a x * b x ∂μ + ∫⁻ x, a x * (stepOp ν step)^[t] b x ∂μ + (∫⁻ x, b x * (stepOp ν step)^[t] a x ∂μ + ∫⁻ x, a x * b x ∂μ)) ≤
      ∫⁻ x, a x * a x ∂μ + 2 * ∫⁻ x, a x * (stepOp ν step)^[t] a x ∂μ + ∫⁻ x, a x * a x ∂μ + (∫⁻ x, b x * b x ∂μ + 2 * ∫⁻ x, b x * (stepOp ν step)^[t] b x ∂μ + ∫⁻ x, b x * b x ∂μ) := by
  have m0 := fun {f : X → ℝ≥0∞} (hf : Measurable f) => hf.comp (hZ.meas 0 (by omega))
  have mt := fun {f : X → ℝ≥0∞} (hf : Measurable f) => hf.comp (hZ.meas (0 + t) (by omega))
  have e2 := fun {f h : X → ℝ≥0∞} (hf : Measurable f) (hh : Measurable h) => hZ.two hm hinv 0 t (by omega) hf hh
  have e0 := fun {f h : X → ℝ≥0∞} (hf : Measurable f) (hh : Measurable h) => hZ.square hm hinv 0 (by omega) hf hh
  have et := fun {f h : X → ℝ≥0∞} (hf : Measurable f) (hh : Measurable h) => hZ.square hm hinv (0 + t) (by omega) hf hh
  have key : ∫⁻ ω, 2 * (a (Z 0 ω) * b (Z 0 ω) + a (Z 0 ω) * b (Z (0 + t) ω) + (b (Z 0 ω) * a (Z (0 + t) ω) + a (Z (0 + t) ω) * b (Z (0 + t) ω))) ∂P ≤
      ∫⁻ ω, a (Z 0 ω) * a (Z 0 ω) + 2 * (a (Z 0 ω) * a (Z (0 + t) ω)) + a (Z (0 + t) ω) * a (Z (0 + t) ω) +
        (b (Z 0 ω) * b (Z 0 ω) + 2 * (b (Z 0 ω) * b (Z (0 + t) ω)) + b (Z (0 + t) ω) * b (Z (0 + t) ω)) ∂P := by
    refine lintegral_mono fun ω => ?_
    refine le_trans (le_of_eq ?_) ((two_mul_le_sq (a (Z 0 ω) + a (Z (0 + t) ω)) (b (Z 0 ω) + b (Z (0 + t) ω))).trans (le_of_eq ?_)) <;> ring
  have p1 := (m0 ha).fun_mul (m0 hb); have p2 := (m0 ha).fun_mul (mt hb); have p3 := (m0 hb).fun_mul (mt ha); have p4 := (mt ha).fun_mul (mt hb)
  have q1 := (m0 ha).fun_mul (m0 ha); have q2 := (m0 ha).fun_mul (mt ha); have q3 := (mt ha).fun_mul (mt ha); have r1 := (m0 hb).fun_mul (m0 hb); have r2 := (m0 hb).fun_mul (mt hb); have r3 := (mt hb).fun_mul (mt hb)
  simp only [Pi.mul_def, Function.comp_def] at p1 p2 p3 p4 q1 q2 q3 r1 r2 r3
  rw [lintegral_const_mul _ ((p1.fun_add p2).fun_add (p3.fun_add p4)), lintegral_add_left (p1.fun_add p2), lintegral_add_left p1, lintegral_add_left p3,
    lintegral_add_left ((q1.fun_add (q2.const_mul 2)).fun_add q3), lintegral_add_left (q1.fun_add (q2.const_mul 2)), lintegral_add_left q1, lintegral_const_mul _ q2,
    lintegral_add_left (r1.fun_add (r2.const_mul 2)), lintegral_add_left r1, lintegral_const_mul _ r2,
    e0 ha hb, e2 ha hb, e2 hb ha, et ha hb, e0 ha ha, e2 ha ha, et ha ha, e0 hb hb, e2 hb hb, et hb hb] at key
  exact key

/-- The identity minus a step is positive. -/
theorem IsPath.diff_form (t : ℕ) (hn : t ≤ n) {a b : X → ℝ≥0∞} (ha : Measurable a) (hb : Measurable b) :
    2 * (∫⁻ x, a x * (stepOp ν step)^[t] a x ∂μ + ∫⁻ x, b x * (stepOp ν step)^[t] b x ∂μ + (∫⁻ x, a x * b x ∂μ + ∫⁻ x, a x * b x ∂μ)) ≤
      ∫⁻ x, a x * a x ∂μ + ∫⁻ x, a x * a x ∂μ + (∫⁻ x, b x * b x ∂μ + ∫⁻ x, b x * b x ∂μ) + 2 * (∫⁻ x, a x * (stepOp ν step)^[t] b x ∂μ + ∫⁻ x, b x * (stepOp ν step)^[t] a x ∂μ) := by
  have m0 := fun {f : X → ℝ≥0∞} (hf : Measurable f) => hf.comp (hZ.meas 0 (by omega))
  have mt := fun {f : X → ℝ≥0∞} (hf : Measurable f) => hf.comp (hZ.meas (0 + t) (by omega))
  have e2 := fun {f h : X → ℝ≥0∞} (hf : Measurable f) (hh : Measurable h) => hZ.two hm hinv 0 t (by omega) hf hh
  have e0 := fun {f h : X → ℝ≥0∞} (hf : Measurable f) (hh : Measurable h) => hZ.square hm hinv 0 (by omega) hf hh
  have et := fun {f h : X → ℝ≥0∞} (hf : Measurable f) (hh : Measurable h) => hZ.square hm hinv (0 + t) (by omega) hf hh
  have key : ∫⁻ ω, 2 * (a (Z 0 ω) * a (Z (0 + t) ω) + b (Z 0 ω) * b (Z (0 + t) ω) + (a (Z 0 ω) * b (Z 0 ω) + a (Z (0 + t) ω) * b (Z (0 + t) ω))) ∂P ≤
      ∫⁻ ω, a (Z 0 ω) * a (Z 0 ω) + a (Z (0 + t) ω) * a (Z (0 + t) ω) + (b (Z 0 ω) * b (Z 0 ω) + b (Z (0 + t) ω) * b (Z (0 + t) ω)) +
        2 * (a (Z 0 ω) * b (Z (0 + t) ω) + b (Z 0 ω) * a (Z (0 + t) ω)) ∂P := by
    refine lintegral_mono fun ω => ?_
    have := diff_sq_le (a (Z 0 ω)) (a (Z (0 + t) ω)) (b (Z 0 ω)) (b (Z (0 + t) ω))
    rwa [mul_comm (a (Z (0 + t) ω)) (b (Z 0 ω))] at this
  have p1 := (m0 ha).fun_mul (mt ha); have p2 := (m0 hb).fun_mul (mt hb); have p3 := (m0 ha).fun_mul (m0 hb); have p4 := (mt ha).fun_mul (mt hb)
  have q1 := (m0 ha).fun_mul (m0 ha); have q3 := (mt ha).fun_mul (mt ha); have r1 := (m0 hb).fun_mul (m0 hb); have r3 := (mt hb).fun_mul (mt hb); have c1 := (m0 ha).fun_mul (mt hb); have c2 := (m0 hb).fun_mul (mt ha)
  simp only [Pi.mul_def, Function.comp_def] at p1 p2 p3 p4 q1 q3 r1 r3 c1 c2
  rw [lintegral_const_mul _ ((p1.fun_add p2).fun_add (p3.fun_add p4)), lintegral_add_left (p1.fun_add p2), lintegral_add_left p1, lintegral_add_left p3,
    lintegral_add_left ((q1.fun_add q3).fun_add (r1.fun_add r3)), lintegral_add_left (q1.fun_add q3), lintegral_add_left q1, lintegral_add_left r1, lintegral_const_mul _ (c1.fun_add c2), lintegral_add_left c1,
    e2 ha ha, e2 hb hb, e0 ha hb, et ha hb, e0 ha ha, et ha ha, e0 hb hb, et hb hb, e2 ha hb, e2 hb ha] at key
  exact key
end

/-- The expectation of a product of a function now and another `l` steps later, in equilibrium. -/
noncomputable def lagInt (μ : Measure X) (ν : Measure N) (step : N → X → X) (l : ℕ) (f h : X → ℝ≥0∞) : ℝ≥0∞ := ∫⁻ x, f x * (stepOp ν step)^[l] h x ∂μ

section
variable [IsProbabilityMeasure ν] (hm : Measurable fun p : X × N => step p.2 p.1) {μ : Measure X} [SFinite μ]
include hm

theorem lagInt_symm (hrev : Reversible μ ν step) {f h : X → ℝ≥0∞} (hf : Measurable f) (hh : Measurable h) (l : ℕ) : lagInt μ ν step l f h = lagInt μ ν step l h f := by
  simp only [lagInt]
  rw [stepOp_adjoint hm hrev hf hh l]
  exact lintegral_congr fun x => mul_comm _ _

theorem lagInt_apart (hrev : Reversible μ ν step) {f h : X → ℝ≥0∞} (hf : Measurable f) (hh : Measurable h) (a l : ℕ) :
    ∫⁻ x, (stepOp ν step)^[a] f x * (stepOp ν step)^[l] ((stepOp ν step)^[a] h) x ∂μ = lagInt μ ν step (2 * a + l) f h := by
  rw [← Function.iterate_add_apply, stepOp_split hm hrev hf hh, lagInt, show a + (l + a) = 2 * a + l by ring]

theorem lagInt_together (hrev : Reversible μ ν step) {f h : X → ℝ≥0∞} (hf : Measurable f) (hh : Measurable h) (a : ℕ) :
    ∫⁻ x, (stepOp ν step)^[a] f x * (stepOp ν step)^[a] h x ∂μ = lagInt μ ν step (2 * a) f h := lagInt_apart hm hrev hf hh a 0

theorem lagInt_add (hrev : Reversible μ ν step) {f h : X → ℝ≥0∞} (hf : Measurable f) (hh : Measurable h) (t l : ℕ) :
    lagInt μ ν step l (f + (stepOp ν step)^[t] f) (h + (stepOp ν step)^[t] h) = lagInt μ ν step l f h + 2 * lagInt μ ν step (l + t) f h + lagInt μ ν step (l + t + t) f h := by
  have mf := stepOp_iterate_measurable (ν := ν) hm hf
  have mh := stepOp_iterate_measurable (ν := ν) hm hh
  have e1 : ∫⁻ x, f x * (stepOp ν step)^[l] ((stepOp ν step)^[t] h) x ∂μ = lagInt μ ν step (l + t) f h := by rw [← Function.iterate_add_apply, lagInt]
  have e2 : ∫⁻ x, (stepOp ν step)^[t] f x * (stepOp ν step)^[l] h x ∂μ = lagInt μ ν step (l + t) f h := by rw [stepOp_split hm hrev hf hh, lagInt, add_comm]
  have e3 : ∫⁻ x, (stepOp ν step)^[t] f x * (stepOp ν step)^[l] ((stepOp ν step)^[t] h) x ∂μ = lagInt μ ν step (l + t + t) f h := by
    rw [← Function.iterate_add_apply, stepOp_split hm hrev hf hh, lagInt, show t + (l + t) = l + t + t by ring]
  have m1 : Measurable fun x => f x * (stepOp ν step)^[l] h x := hf.mul (mh l)
  have m2 : Measurable fun x => f x * (stepOp ν step)^[l] ((stepOp ν step)^[t] h) x := hf.mul (stepOp_iterate_measurable (ν := ν) hm (mh t) l)
  have m3 : Measurable fun x => (stepOp ν step)^[t] f x * (stepOp ν step)^[l] h x := (mf t).mul (mh l)
  calc lagInt μ ν step l (f + (stepOp ν step)^[t] f) (h + (stepOp ν step)^[t] h)
      = ∫⁻ x, f x * (stepOp ν step)^[l] h x + f x * (stepOp ν step)^[l] ((stepOp ν step)^[t] h) x +
          ((stepOp ν step)^[t] f x * (stepOp ν step)^[l] h x + (stepOp ν step)^[t] f x * (stepOp ν step)^[l] ((stepOp ν step)^[t] h) x) ∂μ := by
        rw [lagInt, stepOp_add hm hh (mh t) l]
        refine lintegral_congr fun x => ?_
        simp only [Pi.add_apply]
        ring
    _ = _ := by
        rw [lintegral_add_left (m1.fun_add m2), lintegral_add_left m1, lintegral_add_left m3, e1, e2, e3, show ∫⁻ x, f x * (stepOp ν step)^[l] h x ∂μ = lagInt μ ν step l f h from rfl]
        ring

variable (hinv : stepLaw ν step μ = μ) {n : ℕ} {Z : ℕ → Ω → X} (hZ : IsPath P ν step μ n Z)
include hinv hZ

theorem IsPath.lag (i l : ℕ) (hn : i + l ≤ n) {f h : X → ℝ≥0∞} (hf : Measurable f) (hh : Measurable h) : ∫⁻ ω, f (Z i ω) * h (Z (i + l) ω) ∂P = lagInt μ ν step l f h :=
  hZ.two hm hinv i l hn hf hh

theorem IsPath.lag_finite (l : ℕ) (hn : l ≤ n) {f h : X → ℝ≥0∞} (hf : Measurable f) (hh : Measurable h) (ff : ∫⁻ x, f x * f x ∂μ ≠ ⊤) (fh : ∫⁻ x, h x * h x ∂μ ≠ ⊤) : lagInt μ ν step l f h ≠ ⊤ := by
  rw [← hZ.lag hm hinv 0 l (by omega) hf hh]
  rw [← hZ.square hm hinv 0 (by omega) hf hf] at ff
  rw [← hZ.square hm hinv (0 + l) (by omega) hh hh] at fh
  have q1 : Measurable fun ω => f (Z 0 ω) * f (Z 0 ω) := (hf.comp (hZ.meas 0 (by omega))).mul (hf.comp (hZ.meas 0 (by omega)))
  refine ne_of_lt (lt_of_le_of_lt (lintegral_mono (g := fun ω => f (Z 0 ω) * f (Z 0 ω) + h (Z (0 + l) ω) * h (Z (0 + l) ω)) fun ω => ?_) ?_)
  · refine le_trans ?_ (two_mul_le_sq _ _)
    rw [two_mul]
    exact le_self_add
  · rw [lintegral_add_left q1]
    exact ENNReal.add_lt_top.2 ⟨lt_top_iff_ne_top.2 ff, lt_top_iff_ne_top.2 fh⟩

variable (hrev : Reversible μ ν step) {f h : X → ℝ≥0∞} (hf : Measurable f) (hh : Measurable h)
include hrev hf hh

theorem IsPath.lag_even (a : ℕ) : 2 * lagInt μ ν step (2 * a) f h ≤ lagInt μ ν step (2 * a) f f + lagInt μ ν step (2 * a) h h := by
  rw [← lagInt_together hm hrev hf hh, ← lagInt_together hm hrev hf hf, ← lagInt_together hm hrev hh hh]
  exact sq_nonneg_form hm hinv hZ (stepOp_iterate_measurable hm hf a) (stepOp_iterate_measurable hm hh a)

theorem IsPath.lag_sum (a t : ℕ) (hn : t ≤ n) :
    4 * (lagInt μ ν step (2 * a) f h + lagInt μ ν step (2 * a + t) f h) ≤
      2 * (lagInt μ ν step (2 * a) f f + lagInt μ ν step (2 * a + t) f f + (lagInt μ ν step (2 * a) h h + lagInt μ ν step (2 * a + t) h h)) := by
  have e := hZ.sum_form hm hinv t hn (stepOp_iterate_measurable (ν := ν) hm hf a) (stepOp_iterate_measurable (ν := ν) hm hh a)
  rw [lagInt_together hm hrev hf hh, lagInt_together hm hrev hf hf, lagInt_together hm hrev hh hh, lagInt_apart hm hrev hf hh, lagInt_apart hm hrev hf hf, lagInt_apart hm hrev hh hh,
    lagInt_apart hm hrev hh hf, lagInt_symm hm hrev hh hf] at e
  refine le_trans (le_of_eq ?_) (e.trans (le_of_eq ?_)) <;> ring

theorem IsPath.lag_diff (a t : ℕ) (hn : t ≤ n) :
    2 * (lagInt μ ν step (2 * a + t) f f + lagInt μ ν step (2 * a + t) h h) + 4 * lagInt μ ν step (2 * a) f h ≤
      2 * (lagInt μ ν step (2 * a) f f + lagInt μ ν step (2 * a) h h) + 4 * lagInt μ ν step (2 * a + t) f h := by
  have e := hZ.diff_form hm hinv t hn (stepOp_iterate_measurable (ν := ν) hm hf a) (stepOp_iterate_measurable (ν := ν) hm hh a)
  rw [lagInt_together hm hrev hf hh, lagInt_together hm hrev hf hf, lagInt_together hm hrev hh hh, lagInt_apart hm hrev hf hh, lagInt_apart hm hrev hf hf, lagInt_apart hm hrev hh hh,
    lagInt_apart hm hrev hh hf, lagInt_symm hm hrev hh hf] at e
  refine le_trans (le_of_eq ?_) (e.trans (le_of_eq ?_)) <;> ring
end

/-! Real-valued functions. -/

theorem product_parts {u v : Ω → ℝ} (hu : Measurable u) (hv : Measurable v)
    (f1 : ∫⁻ ω, ENNReal.ofReal (u ω) * ENNReal.ofReal (v ω) ∂P ≠ ⊤) (f2 : ∫⁻ ω, ENNReal.ofReal (-u ω) * ENNReal.ofReal (-v ω) ∂P ≠ ⊤)
    (f3 : ∫⁻ ω, ENNReal.ofReal (u ω) * ENNReal.ofReal (-v ω) ∂P ≠ ⊤) (f4 : ∫⁻ ω, ENNReal.ofReal (-u ω) * ENNReal.ofReal (v ω) ∂P ≠ ⊤) :
    Integrable (fun ω => u ω * v ω) P ∧ ∫ ω, u ω * v ω ∂P =
      (∫⁻ ω, ENNReal.ofReal (u ω) * ENNReal.ofReal (v ω) ∂P).toReal + (∫⁻ ω, ENNReal.ofReal (-u ω) * ENNReal.ofReal (-v ω) ∂P).toReal -
        (∫⁻ ω, ENNReal.ofReal (u ω) * ENNReal.ofReal (-v ω) ∂P).toReal - (∫⁻ ω, ENNReal.ofReal (-u ω) * ENNReal.ofReal (v ω) ∂P).toReal := by
  have m1 : Measurable fun ω => ENNReal.ofReal (u ω) * ENNReal.ofReal (v ω) := hu.ennreal_ofReal.mul hv.ennreal_ofReal
  have m2 : Measurable fun ω => ENNReal.ofReal (-u ω) * ENNReal.ofReal (-v ω) := hu.neg.ennreal_ofReal.mul hv.neg.ennreal_ofReal
  have m3 : Measurable fun ω => ENNReal.ofReal (u ω) * ENNReal.ofReal (-v ω) := hu.ennreal_ofReal.mul hv.neg.ennreal_ofReal
  have m4 : Measurable fun ω => ENNReal.ofReal (-u ω) * ENNReal.ofReal (v ω) := hu.neg.ennreal_ofReal.mul hv.ennreal_ofReal
  have e : (fun ω => u ω * v ω) = fun ω => (ENNReal.ofReal (u ω) * ENNReal.ofReal (v ω)).toReal + (ENNReal.ofReal (-u ω) * ENNReal.ofReal (-v ω)).toReal -
      (ENNReal.ofReal (u ω) * ENNReal.ofReal (-v ω)).toReal - (ENNReal.ofReal (-u ω) * ENNReal.ofReal (v ω)).toReal := by
    funext ω
    simp only [ENNReal.toReal_mul, ENNReal.toReal_ofReal']
    have a1 : u ω = max (u ω) 0 - max (-u ω) 0 := by rcases le_total (u ω) 0 with h | h <;> simp [h]
    have a2 : v ω = max (v ω) 0 - max (-v ω) 0 := by rcases le_total (v ω) 0 with h | h <;> simp [h]
    calc u ω * v ω = (max (u ω) 0 - max (-u ω) 0) * (max (v ω) 0 - max (-v ω) 0) := by rw [← a1, ← a2]
      _ = _ := by ring
  have i1 := integrable_toReal_of_lintegral_ne_top m1.aemeasurable f1
  have i2 := integrable_toReal_of_lintegral_ne_top m2.aemeasurable f2
  have i3 := integrable_toReal_of_lintegral_ne_top m3.aemeasurable f3
  have i4 := integrable_toReal_of_lintegral_ne_top m4.aemeasurable f4
  rw [e]
  have j1 := Integrable.fun_add i1 i2
  have j2 := Integrable.sub j1 i3
  refine ⟨Integrable.sub j2 i4, ?_⟩
  rw [integral_sub (by exact j2) i4, integral_sub j1 i3, integral_add i1 i2, integral_toReal m1.aemeasurable (ae_lt_top m1 f1), integral_toReal m2.aemeasurable (ae_lt_top m2 f2),
    integral_toReal m3.aemeasurable (ae_lt_top m3 f3), integral_toReal m4.aemeasurable (ae_lt_top m4 f4)]

section
variable [IsProbabilityMeasure ν] (hm : Measurable fun p : X × N => step p.2 p.1) {μ : Measure X} [SFinite μ] (hinv : stepLaw ν step μ = μ) (hrev : Reversible μ ν step) {n : ℕ} {Z : ℕ → Ω → X}
  (hZ : IsPath P ν step μ n Z) {g : X → ℝ} (hg : Measurable g) (hg2 : Integrable (fun x => g x * g x) μ)

include hg2 in
theorem square_parts : ∫⁻ x, ENNReal.ofReal (g x) * ENNReal.ofReal (g x) ∂μ ≠ ⊤ ∧ ∫⁻ x, ENNReal.ofReal (-g x) * ENNReal.ofReal (-g x) ∂μ ≠ ⊤ := by
  have hb : ∫⁻ x, ENNReal.ofReal (g x * g x) ∂μ ≠ ⊤ := hg2.lintegral_lt_top.ne
  constructor <;> refine ne_top_of_le_ne_top hb (lintegral_mono fun x => ?_)
  · rcases le_total (g x) 0 with h | h
    · simp [ENNReal.ofReal_of_nonpos h]
    · rw [← ENNReal.ofReal_mul h]
  · rcases le_total (g x) 0 with h | h
    · rw [← ENNReal.ofReal_mul (by linarith), neg_mul_neg]
    · simp [ENNReal.ofReal_of_nonpos (neg_nonpos.2 h)]

include hm hinv hrev hZ hg hg2

/-- The autocovariance at lag `l`, by parts. -/
theorem IsPath.autocov (i l : ℕ) (hn : i + l ≤ n) : Integrable (fun ω => g (Z i ω) * g (Z (i + l) ω)) P ∧ ∫ ω, g (Z i ω) * g (Z (i + l) ω) ∂P =
    (lagInt μ ν step l (fun x => ENNReal.ofReal (g x)) (fun x => ENNReal.ofReal (g x))).toReal + (lagInt μ ν step l (fun x => ENNReal.ofReal (-g x)) (fun x => ENNReal.ofReal (-g x))).toReal -
      2 * (lagInt μ ν step l (fun x => ENNReal.ofReal (g x)) (fun x => ENNReal.ofReal (-g x))).toReal := by
  have hp := hg.ennreal_ofReal
  have hq := hg.neg.ennreal_ofReal
  obtain ⟨fp, fq⟩ := square_parts hg2
  have e1 := hZ.lag hm hinv i l hn hp hp
  have e2 := hZ.lag hm hinv i l hn hq hq
  have e3 := hZ.lag hm hinv i l hn hp hq
  have e4 := (hZ.lag hm hinv i l hn hq hp).trans (lagInt_symm hm hrev hq hp l)
  have hl : l ≤ n := by omega
  obtain ⟨h1, h2⟩ := product_parts (P := P) (u := fun ω => g (Z i ω)) (v := fun ω => g (Z (i + l) ω)) (hg.comp (hZ.meas i (by omega))) (hg.comp (hZ.meas _ hn))
    (e1.trans_ne (hZ.lag_finite hm hinv l hl hp hp fp fp)) (e2.trans_ne (hZ.lag_finite hm hinv l hl hq hq fq fq)) (e3.trans_ne (hZ.lag_finite hm hinv l hl hp hq fp fq)) (e4.trans_ne (hZ.lag_finite hm hinv l hl hp hq fp fq))
  refine ⟨h1, h2.trans ?_⟩
  simp only [Pi.neg_apply] at e2 e3 e4
  rw [e1, e2, e3, e4]
  ring

theorem IsPath.autocov_even (i a : ℕ) (hn : i + 2 * a ≤ n) : 0 ≤ ∫ ω, g (Z i ω) * g (Z (i + 2 * a) ω) ∂P := by
  have hp := hg.ennreal_ofReal
  have hq := hg.neg.ennreal_ofReal
  obtain ⟨fp, fq⟩ := square_parts hg2
  rw [(hZ.autocov hm hinv hrev hg hg2 i _ hn).2]
  have key := hZ.lag_even hm hinv hrev hp hq a
  have f1 := hZ.lag_finite hm hinv (2 * a) (by omega) hp hp fp fp
  have f2 := hZ.lag_finite hm hinv (2 * a) (by omega) hq hq fq fq
  have f3 := hZ.lag_finite hm hinv (2 * a) (by omega) hp hq fp fq
  simp only [Pi.neg_apply] at key f1 f2 f3
  rw [← ENNReal.coe_toNNReal f1, ← ENNReal.coe_toNNReal f2, ← ENNReal.coe_toNNReal f3] at key
  have key2 : ((_ : NNReal) : ℝ) ≤ ((_ : NNReal) : ℝ) := NNReal.coe_le_coe.2 (ENNReal.coe_le_coe.1 key)
  push_cast [ENNReal.coe_toNNReal_eq_toReal] at key2
  linarith

theorem IsPath.autocov_pairs (i a t : ℕ) (hn : i + 2 * a + t ≤ n) : 0 ≤ ∫ ω, g (Z i ω) * g (Z (i + 2 * a) ω) ∂P + ∫ ω, g (Z i ω) * g (Z (i + (2 * a + t)) ω) ∂P := by
  have hp := hg.ennreal_ofReal
  have hq := hg.neg.ennreal_ofReal
  obtain ⟨fp, fq⟩ := square_parts hg2
  rw [(hZ.autocov hm hinv hrev hg hg2 i (2 * a) (by omega)).2, (hZ.autocov hm hinv hrev hg hg2 i (2 * a + t) (by omega)).2]
  have key := hZ.lag_sum hm hinv hrev hp hq a t (by omega)
  have F1 := fun l (hl : l ≤ n) => hZ.lag_finite hm hinv l hl hp hp fp fp
  have F2 := fun l (hl : l ≤ n) => hZ.lag_finite hm hinv l hl hq hq fq fq
  have F3 := fun l (hl : l ≤ n) => hZ.lag_finite hm hinv l hl hp hq fp fq
  simp only [Pi.neg_apply] at key F1 F2 F3
  have f1 := F1 (2 * a) (by omega); have f2 := F2 (2 * a) (by omega); have f3 := F3 (2 * a) (by omega)
  have f4 := F1 (2 * a + t) (by omega); have f5 := F2 (2 * a + t) (by omega); have f6 := F3 (2 * a + t) (by omega)
  clear F1 F2 F3
  rw [← ENNReal.coe_toNNReal f1, ← ENNReal.coe_toNNReal f2, ← ENNReal.coe_toNNReal f3, ← ENNReal.coe_toNNReal f4, ← ENNReal.coe_toNNReal f5, ← ENNReal.coe_toNNReal f6] at key
  have key2 : ((_ : NNReal) : ℝ) ≤ ((_ : NNReal) : ℝ) := NNReal.coe_le_coe.2 (ENNReal.coe_le_coe.1 key)
  push_cast [ENNReal.coe_toNNReal_eq_toReal] at key2
  linarith

theorem IsPath.autocov_monotone (i a t : ℕ) (hn : i + 2 * a + t + t + t ≤ n) :
    ∫ ω, g (Z i ω) * g (Z (i + (2 * a + t + t)) ω) ∂P + ∫ ω, g (Z i ω) * g (Z (i + (2 * a + t + t + t)) ω) ∂P ≤
      ∫ ω, g (Z i ω) * g (Z (i + 2 * a) ω) ∂P + ∫ ω, g (Z i ω) * g (Z (i + (2 * a + t)) ω) ∂P := by
  have hp := hg.ennreal_ofReal
  have hq := hg.neg.ennreal_ofReal
  obtain ⟨fp, fq⟩ := square_parts hg2
  rw [(hZ.autocov hm hinv hrev hg hg2 i (2 * a) (by omega)).2, (hZ.autocov hm hinv hrev hg hg2 i (2 * a + t) (by omega)).2, (hZ.autocov hm hinv hrev hg hg2 i (2 * a + t + t) (by omega)).2,
    (hZ.autocov hm hinv hrev hg hg2 i (2 * a + t + t + t) (by omega)).2]
  have key := hZ.lag_diff hm hinv hrev (hp.add (stepOp_iterate_measurable (ν := ν) hm hp t)) (hq.add (stepOp_iterate_measurable (ν := ν) hm hq t)) a t (by omega)
  simp only [lagInt_add hm hrev hp hp, lagInt_add hm hrev hp hq, lagInt_add hm hrev hq hq] at key
  have F1 := fun l (hl : l ≤ n) => hZ.lag_finite hm hinv l hl hp hp fp fp
  have F2 := fun l (hl : l ≤ n) => hZ.lag_finite hm hinv l hl hq hq fq fq
  have F3 := fun l (hl : l ≤ n) => hZ.lag_finite hm hinv l hl hp hq fp fq
  simp only [Pi.neg_apply] at key F1 F2 F3
  have f1 := F1 (2 * a) (by omega); have f2 := F2 (2 * a) (by omega); have f3 := F3 (2 * a) (by omega)
  have f4 := F1 (2 * a + t) (by omega); have f5 := F2 (2 * a + t) (by omega); have f6 := F3 (2 * a + t) (by omega)
  have f7 := F1 (2 * a + t + t) (by omega); have f8 := F2 (2 * a + t + t) (by omega); have f9 := F3 (2 * a + t + t) (by omega)
  have g7 := F1 (2 * a + t + t + t) (by omega); have g8 := F2 (2 * a + t + t + t) (by omega); have g9 := F3 (2 * a + t + t + t) (by omega)
  clear F1 F2 F3
  rw [← ENNReal.coe_toNNReal f1, ← ENNReal.coe_toNNReal f2, ← ENNReal.coe_toNNReal f3, ← ENNReal.coe_toNNReal f4, ← ENNReal.coe_toNNReal f5, ← ENNReal.coe_toNNReal f6,
    ← ENNReal.coe_toNNReal f7, ← ENNReal.coe_toNNReal f8, ← ENNReal.coe_toNNReal f9, ← ENNReal.coe_toNNReal g7, ← ENNReal.coe_toNNReal g8, ← ENNReal.coe_toNNReal g9] at key
  have key2 : ((_ : NNReal) : ℝ) ≤ ((_ : NNReal) : ℝ) := NNReal.coe_le_coe.2 (ENNReal.coe_le_coe.1 key)
  push_cast [ENNReal.coe_toNNReal_eq_toReal] at key2
  linarith
end

end FlowMC
