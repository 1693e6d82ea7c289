import Verif.Lemmas.Sweep
import Verif.Lemmas.Ideal
/-
Distribution of a whole trajectory of a chain, and of the trajectory read backwards.  Nothing here models code of /repo.
-/
open MeasureTheory ProbabilityTheory
open scoped ENNReal
set_option linter.unusedSectionVars false
namespace FlowMC
open Spec

variable {X N : Type} [MeasurableSpace X] [MeasurableSpace N]

/-- Expected value of `f 0 (Z 0) * … * f n (Z n)` for a chain started at `x`. -/
noncomputable def pathWeight (ν : Measure N) (step : N → X → X) : ℕ → (ℕ → X → ℝ≥0∞) → X → ℝ≥0∞
  | 0, f, x => f 0 x
  | n + 1, f, x => f 0 x * ∫⁻ w, pathWeight ν step n (fun j => f (j + 1)) (step w x) ∂ν

variable {ν : Measure N} {step : N → X → X}

theorem stepInt_measurable [SFinite ν] (hm : Measurable fun p : X × N => step p.2 p.1) {g : X → ℝ≥0∞} (hg : Measurable g) : Measurable fun x => ∫⁻ w, g (step w x) ∂ν :=
  (hg.comp hm).lintegral_prod_right'

theorem pathWeight_measurable [SFinite ν] (hm : Measurable fun p : X × N => step p.2 p.1) (n : ℕ) (f : ℕ → X → ℝ≥0∞) (hf : ∀ j, Measurable (f j)) : Measurable (pathWeight ν step n f) := by
  induction n generalizing f with
  | zero => exact hf 0
  | succ n ih => exact (hf 0).mul (stepInt_measurable hm (ih _ fun j => hf (j + 1)))

theorem pathWeight_congr (n : ℕ) (f g : ℕ → X → ℝ≥0∞) (h : ∀ j ≤ n, f j = g j) : pathWeight ν step n f = pathWeight ν step n g := by
  induction n generalizing f g with
  | zero => funext x; simp only [pathWeight, h 0 le_rfl]
  | succ n ih =>
    funext x
    simp only [pathWeight, h 0 (Nat.zero_le _), ih (fun j => f (j + 1)) (fun j => g (j + 1)) fun j hj => h (j + 1) (by omega)]

/-- The first factor can be taken out. -/
theorem pathWeight_mul (n : ℕ) (f : ℕ → X → ℝ≥0∞) (u : X → ℝ≥0∞) (x : X) : u x * pathWeight ν step n f x = pathWeight ν step n (fun j y => if j = 0 then u y * f j y else f j y) x := by
  cases n with
  | zero => simp [pathWeight]
  | succ n => simp only [pathWeight, if_true, Nat.succ_ne_zero, if_false, mul_assoc]

/-- The last two factors can be merged. -/
theorem pathWeight_last (n : ℕ) (f : ℕ → X → ℝ≥0∞) :
    pathWeight ν step (n + 1) f = pathWeight ν step n (fun j x => if j = n then f j x * ∫⁻ w, f (n + 1) (step w x) ∂ν else f j x) := by
  induction n generalizing f with
  | zero => funext x; simp [pathWeight]
  | succ n ih =>
    funext x
    rw [pathWeight, ih]
    simp only [pathWeight]
    rw [if_neg (by omega)]
    simp only [Nat.add_right_cancel_iff]

/-- A last factor of one can be left out. -/
theorem pathWeight_trail [IsProbabilityMeasure ν] (n : ℕ) (f : ℕ → X → ℝ≥0∞) (h : f (n + 1) = fun _ => 1) : pathWeight ν step (n + 1) f = pathWeight ν step n f := by
  rw [pathWeight_last]
  congr 1
  funext j x
  split
  · simp [h]
  · rfl

/-- Trailing factors of one can be left out. -/
theorem pathWeight_trails [IsProbabilityMeasure ν] (A B : ℕ) (f : ℕ → X → ℝ≥0∞) (h : ∀ j, A < j → f j = fun _ => 1) : pathWeight ν step (A + B) f = pathWeight ν step A f := by
  induction B with
  | zero => rfl
  | succ B ih => rw [← add_assoc, pathWeight_trail _ _ (h _ (by omega)), ih]

/-- A first factor of one can be left out if the start has the stationary distribution. -/
theorem pathWeight_lead [SFinite ν] (hm : Measurable fun p : X × N => step p.2 p.1) {μ : Measure X} [SFinite μ] (hinv : stepLaw ν step μ = μ) (n : ℕ) (f : ℕ → X → ℝ≥0∞) (hf : ∀ j, Measurable (f j))
    (h : f 0 = fun _ => 1) : ∫⁻ x, pathWeight ν step (n + 1) f x ∂μ = ∫⁻ x, pathWeight ν step n (fun j => f (j + 1)) x ∂μ := by
  have hg := pathWeight_measurable (ν := ν) hm n (fun j => f (j + 1)) fun j => hf (j + 1)
  simp only [pathWeight, h, one_mul]
  have e : ∫⁻ x, pathWeight ν step n (fun j => f (j + 1)) x ∂(stepLaw ν step μ) = ∫⁻ x, ∫⁻ w, pathWeight ν step n (fun j => f (j + 1)) (step w x) ∂ν ∂μ := by
    rw [stepLaw, lintegral_map hg hm]
    exact lintegral_prod _ (hg.comp hm).aemeasurable
  rw [← e, hinv]

/-- Detailed balance: the step is self-adjoint. -/
theorem reversible_adjoint [SFinite ν] (hm : Measurable fun p : X × N => step p.2 p.1) {μ : Measure X} [SFinite μ] (hrev : Reversible μ ν step) {g h : X → ℝ≥0∞} (hg : Measurable g) (hh : Measurable h) :
    ∫⁻ x, g x * ∫⁻ w, h (step w x) ∂ν ∂μ = ∫⁻ x, (∫⁻ w, g (step w x) ∂ν) * h x ∂μ := by
  have hF : Measurable fun q : X × X => g q.1 * h q.2 := (hg.comp measurable_fst).mul (hh.comp measurable_snd)
  have h1 : Measurable fun p : X × N => (p.1, step p.2 p.1) := measurable_fst.prodMk hm
  have h2 : Measurable fun p : X × N => (step p.2 p.1, p.1) := hm.prodMk measurable_fst
  have e : ∫⁻ x, ∫⁻ w, g x * h (step w x) ∂ν ∂μ = ∫⁻ x, ∫⁻ w, g (step w x) * h x ∂ν ∂μ := by
    have e := congrArg (fun ρ => ∫⁻ q, g q.1 * h q.2 ∂ρ) hrev
    beta_reduce at e
    rw [lintegral_map hF h1, lintegral_map hF h2] at e
    exact (lintegral_prod _ (hF.comp h1).aemeasurable).symm.trans (e.trans (lintegral_prod _ (hF.comp h2).aemeasurable))
  have hx : ∀ x, Measurable fun w => step w x := fun x => hm.comp (measurable_const.prodMk measurable_id)
  calc _ = ∫⁻ x, ∫⁻ w, g x * h (step w x) ∂ν ∂μ := lintegral_congr fun x => (lintegral_const_mul _ (hh.comp (hx x))).symm
    _ = ∫⁻ x, ∫⁻ w, g (step w x) * h x ∂ν ∂μ := e
    _ = _ := lintegral_congr fun x => lintegral_mul_const _ (hg.comp (hx x))

/-- In equilibrium, and with detailed balance, a trajectory is distributed like the same trajectory read backwards. -/
theorem pathWeight_reverse [IsProbabilityMeasure ν] (hm : Measurable fun p : X × N => step p.2 p.1) {μ : Measure X} [SFinite μ] (hrev : Reversible μ ν step) (n : ℕ) (f : ℕ → X → ℝ≥0∞) (hf : ∀ j, Measurable (f j)) :
    ∫⁻ x, pathWeight ν step n f x ∂μ = ∫⁻ x, pathWeight ν step n (fun j => f (n - j)) x ∂μ := by
  induction n generalizing f with
  | zero => rfl
  | succ n ih =>
    have hk := stepInt_measurable (ν := ν) hm (hf 0)
    have e1 : ∫⁻ x, pathWeight ν step (n + 1) f x ∂μ = ∫⁻ x, pathWeight ν step n (fun j y => if j = 0 then (∫⁻ w, f 0 (step w y) ∂ν) * f (j + 1) y else f (j + 1) y) x ∂μ := by
      simp only [pathWeight]
      rw [reversible_adjoint hm hrev (hf 0) (pathWeight_measurable hm n _ fun j => hf (j + 1))]
      exact lintegral_congr fun x => pathWeight_mul n (fun j => f (j + 1)) (fun y => ∫⁻ w, f 0 (step w y) ∂ν) x
    rw [e1, ih _ (fun j => by
      by_cases hj : j = 0
      · simp only [hj, if_true]; exact hk.mul (hf _)
      · simp only [hj, if_false]; exact hf _)]
    rw [pathWeight_last]
    refine lintegral_congr fun x => congrFun (pathWeight_congr n _ _ fun j hj => ?_) x
    funext y
    by_cases h : j = n
    · subst h
      simp only [Nat.sub_self, if_true, Nat.zero_add, show j + 1 - j = 1 by omega, mul_comm]
    · rw [if_neg (by omega), if_neg h, show n - j + 1 = n + 1 - j by omega]

/-! ### Random trajectories -/

variable {Ω : Type} [MeasurableSpace Ω] {P : Measure Ω} [IsProbabilityMeasure P]

/-- `Z 0, …, Z n` is a trajectory of the chain with the step `step`, driven by fresh noise with distribution `ν`, whose start has distribution `μ`. -/
structure IsPath (P : Measure Ω) (ν : Measure N) (step : N → X → X) (μ : Measure X) (n : ℕ) (Z : ℕ → Ω → X) : Prop where
  meas : ∀ j ≤ n, Measurable (Z j)
  law : ∀ f : ℕ → X → ℝ≥0∞, (∀ j, Measurable (f j)) → ∫⁻ ω, ∏ j ∈ Finset.range (n + 1), f j (Z j ω) ∂P = ∫⁻ x, pathWeight ν step n f x ∂μ

/-- Finite families of random points are equally distributed if the probabilities of all boxes are the same. -/
theorem map_eq_of_boxes {m : ℕ} (Y Y' : Ω → Fin m → X) (hY : Measurable Y) (hY' : Measurable Y')
    (h : ∀ A : Fin m → Set X, (∀ j, MeasurableSet (A j)) → ∫⁻ ω, ∏ j, (A j).indicator 1 (Y ω j) ∂P = ∫⁻ ω, ∏ j, (A j).indicator (1 : X → ℝ≥0∞) (Y' ω j) ∂P) : P.map Y = P.map Y' := by
  haveI : IsProbabilityMeasure (P.map Y) := Measure.isProbabilityMeasure_map hY.aemeasurable
  haveI : IsProbabilityMeasure (P.map Y') := Measure.isProbabilityMeasure_map hY'.aemeasurable
  refine ext_of_generate_finite _ generateFrom_pi.symm isPiSystem_pi ?_ (by simp)
  rintro s ⟨A, hA, rfl⟩
  have hA' : ∀ j, MeasurableSet (A j) := fun j => hA j (Set.mem_univ j)
  have hs : MeasurableSet (Set.univ.pi A) := MeasurableSet.univ_pi hA'
  have e : ∀ V : Ω → Fin m → X, Measurable V → P (V ⁻¹' Set.univ.pi A) = ∫⁻ ω, ∏ j, (A j).indicator (1 : X → ℝ≥0∞) (V ω j) ∂P := by
    intro V hV
    rw [← lintegral_indicator_one (hV hs)]
    refine lintegral_congr fun ω => ?_
    by_cases hω : V ω ∈ Set.univ.pi A
    · rw [Set.indicator_of_mem (show ω ∈ V ⁻¹' Set.univ.pi A from hω)]
      have : ∀ j, (A j).indicator (1 : X → ℝ≥0∞) (V ω j) = 1 := fun j => by rw [Set.indicator_of_mem (hω j (Set.mem_univ j))]; rfl
      simp [this]
    · rw [Set.indicator_of_notMem (show ω ∉ V ⁻¹' Set.univ.pi A from hω)]
      simp only [Set.mem_univ_pi, not_forall] at hω
      obtain ⟨j, hj⟩ := hω
      exact (Finset.prod_eq_zero (Finset.mem_univ j) (Set.indicator_of_notMem hj _)).symm
  rw [Measure.map_apply hY hs, Measure.map_apply hY' hs, e Y hY, e Y' hY', h A hA']

/-- Leading factors of one. -/
theorem pathWeight_leads [SFinite ν] (hm : Measurable fun p : X × N => step p.2 p.1) {μ : Measure X} [SFinite μ] (hinv : stepLaw ν step μ = μ) (n c : ℕ) (f : ℕ → X → ℝ≥0∞) (hf : ∀ j, Measurable (f j))
    (h : ∀ j < c, f j = fun _ => 1) : ∫⁻ x, pathWeight ν step (n + c) f x ∂μ = ∫⁻ x, pathWeight ν step n (fun j => f (j + c)) x ∂μ := by
  induction c generalizing f with
  | zero => rfl
  | succ c ih =>
    rw [← add_assoc, pathWeight_lead hm hinv _ f hf (h 0 (Nat.succ_pos c)), ih (fun j => f (j + 1)) (fun j => hf _) fun j hj => h (j + 1) (by omega)]
    simp only [add_assoc, add_comm c 1]

/-- The probability that every `t`-th state of a trajectory in equilibrium, from the state `c` on, lies in given sets does not depend on `c`. -/
theorem IsPath.box [IsProbabilityMeasure ν] (hm : Measurable fun p : X × N => step p.2 p.1) {μ : Measure X} [SFinite μ] (hinv : stepLaw ν step μ = μ) {n : ℕ} {Z : ℕ → Ω → X}
    (hZ : IsPath P ν step μ n Z) (t m c : ℕ) (hm0 : 0 < m) (hn : ∀ j < m, j * t + c ≤ n) (B : Fin m → Set X) (hB : ∀ j, MeasurableSet (B j)) :
    ∫⁻ ω, ∏ j, (B j).indicator (1 : X → ℝ≥0∞) (Z (j * t + c) ω) ∂P =
      ∫⁻ x, pathWeight ν step ((m - 1) * t) (fun i y => ∏ j : Fin m, if i = j * t then (B j).indicator 1 y else 1) x ∂μ := by
  set F : ℕ → X → ℝ≥0∞ := fun i y => ∏ j : Fin m, if i = j * t + c then (B j).indicator 1 y else 1 with hF
  have hFm : ∀ i, Measurable (F i) := fun i => Finset.measurable_fun_prod _ fun j _ => by
    by_cases h : i = j * t + c
    · simp only [h, if_true]; exact measurable_one.indicator (hB j)
    · simp only [h, if_false]; exact measurable_const
  have e1 : ∀ ω, ∏ j, (B j).indicator (1 : X → ℝ≥0∞) (Z (j * t + c) ω) = ∏ i ∈ Finset.range (n + 1), F i (Z i ω) := by
    intro ω
    simp only [hF]
    rw [Finset.prod_comm]
    refine Finset.prod_congr rfl fun j _ => ?_
    rw [Finset.prod_ite_eq' (Finset.range (n + 1)) ((j : ℕ) * t + c) fun i => (B j).indicator (1 : X → ℝ≥0∞) (Z i ω), if_pos (Finset.mem_range.2 (Nat.lt_succ_of_le (hn j j.2)))]
  simp only [e1]
  rw [hZ.law F hFm]
  have hlast : (m - 1) * t + c ≤ n := hn (m - 1) (by omega)
  have e2 : ∀ q, pathWeight ν step ((m - 1) * t + c + q) F = pathWeight ν step ((m - 1) * t + c) F := by
    intro q
    induction q with
    | zero => rfl
    | succ q ih =>
      rw [← ih, ← add_assoc]
      refine pathWeight_trail _ _ ?_
      funext y
      refine Finset.prod_eq_one fun j _ => if_neg ?_
      have : (j : ℕ) * t ≤ (m - 1) * t := Nat.mul_le_mul_right _ (by omega)
      omega
  rw [show n = (m - 1) * t + c + (n - ((m - 1) * t + c)) by omega, e2, pathWeight_leads hm hinv _ c F hFm (fun i hi => by
    funext y
    exact Finset.prod_eq_one fun j _ => if_neg (by omega))]
  simp only [hF, Nat.add_right_cancel_iff]

/-- Every `t`-th state of a trajectory in equilibrium: the distribution of `m` of them does not depend on where one starts. -/
theorem IsPath.shift [IsProbabilityMeasure ν] (hm : Measurable fun p : X × N => step p.2 p.1) {μ : Measure X} [SFinite μ] (hinv : stepLaw ν step μ = μ) {n : ℕ} {Z : ℕ → Ω → X}
    (hZ : IsPath P ν step μ n Z) (t m c c' : ℕ) (hn : ∀ j < m, j * t + c ≤ n) (hn' : ∀ j < m, j * t + c' ≤ n) :
    P.map (fun ω (j : Fin m) => Z (j * t + c) ω) = P.map (fun ω (j : Fin m) => Z (j * t + c') ω) := by
  refine map_eq_of_boxes _ _ (measurable_pi_lambda _ fun j => hZ.meas _ (hn j j.2)) (measurable_pi_lambda _ fun j => hZ.meas _ (hn' j j.2)) fun A hA => ?_
  rcases Nat.eq_zero_or_pos m with rfl | hm0
  · simp
  rw [hZ.box hm hinv t m c hm0 hn A hA, hZ.box hm hinv t m c' hm0 hn' A hA]

/-- Every `t`-th state of a trajectory in equilibrium: read backwards it has the same distribution. -/
theorem IsPath.backwards [IsProbabilityMeasure ν] (hm : Measurable fun p : X × N => step p.2 p.1) {μ : Measure X} [SFinite μ] (hrev : Reversible μ ν step) (hinv : stepLaw ν step μ = μ) {n : ℕ} {Z : ℕ → Ω → X}
    (hZ : IsPath P ν step μ n Z) (t m c : ℕ) (hn : ∀ j < m, j * t + c ≤ n) :
    P.map (fun ω (j : Fin m) => Z (j * t + c) ω) = P.map (fun ω (j : Fin m) => Z (j.rev * t + c) ω) := by
  have hmeas : ∀ j : Fin m, Measurable (Z (j * t + c)) := fun j => hZ.meas _ (hn j j.2)
  refine map_eq_of_boxes _ _ (measurable_pi_lambda _ fun j => hmeas j) (measurable_pi_lambda _ fun j => hmeas j.rev) fun A hA => ?_
  rcases Nat.eq_zero_or_pos m with rfl | hm0
  · simp
  have key := hZ.box hm hinv t m c hm0 hn
  have e3 := key (fun j => A j.rev) fun j => hA _
  have e4 : ∀ ω, ∏ j, (A j).indicator (1 : X → ℝ≥0∞) (Z (j.rev * t + c) ω) = ∏ j : Fin m, (A j.rev).indicator 1 (Z (j * t + c) ω) := by
    intro ω
    refine Fintype.prod_equiv Fin.revPerm _ _ fun j => ?_
    simp
  simp only [e4]
  rw [e3, key A hA, pathWeight_reverse hm hrev _ _ (fun i => Finset.measurable_fun_prod _ fun j _ => by
      by_cases h : i = j * t
      · simp only [h, if_true]; exact measurable_one.indicator (hA j)
      · simp only [h, if_false]; exact measurable_const)]
  refine lintegral_congr fun x => congrFun (pathWeight_congr _ _ _ fun i hi => ?_) x
  funext y
  refine Fintype.prod_equiv Fin.revPerm _ _ fun j => ?_
  simp only [Fin.revPerm_apply, Fin.rev_rev]
  have hj := j.2
  have e5 : ((j.rev : Fin m) : ℕ) * t + j * t = (m - 1) * t := by
    rw [← Nat.add_mul, Fin.val_rev]
    congr 1
    omega
  by_cases h : (m - 1) * t - i = j * t
  · rw [if_pos h, if_pos (by omega)]
  · rw [if_neg h, if_neg (by omega)]

end FlowMC
