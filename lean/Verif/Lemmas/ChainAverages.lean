import Verif.Lemmas.Unbounded
import Verif.Lemmas.AnyOrder
/-
Averages over the rows of one chain of an exact, converging step: a weak law of large numbers for integrable functions, from every start.
-/
open MeasureTheory ProbabilityTheory Filter
open scoped ENNReal Topology
set_option linter.unusedSectionVars false
namespace FlowMC
open Spec

section
variable {Ω X N : Type} [MeasurableSpace Ω] {P : Measure Ω} [IsProbabilityMeasure P] [MeasurableSpace X] [MeasurableSpace N] {ν : Measure N} [IsProbabilityMeasure ν] {step : N → X → X}

/-- `Z 0, …, Z n` are successive states of a chain: each pair of states is distributed as if the later one were reached from the earlier one by fresh steps. -/
structure ChainRows (P : Measure Ω) (ν : Measure N) (step : N → X → X) (μ : Measure X) (n : ℕ) (Z : ℕ → Ω → X) : Prop where
  meas : ∀ j ≤ n, Measurable (Z j)
  law : ∀ j ≤ n, P.map (Z j) = (stepLaw ν step)^[j] μ
  pair : ∀ i j, i + j ≤ n → P.map (fun ω => (Z i ω, Z (i + j) ω)) = (stepLaw ν (onSnd step))^[j] (P.map fun ω => (Z i ω, Z i ω))

theorem iter_prob (hm : Measurable fun p : X × N => step p.2 p.1) (μ : Measure X) [IsProbabilityMeasure μ] (j : ℕ) : IsProbabilityMeasure ((stepLaw ν step)^[j] μ) := by
  induction j with
  | zero => assumption
  | succ j ih => rw [Function.iterate_succ_apply']; exact Measure.isProbabilityMeasure_map hm.aemeasurable

theorem iterMean_measurable (hm : Measurable fun p : X × N => step p.2 p.1) {f : X → ℝ} (hf : Measurable f) (j : ℕ) : Measurable ((stepMean ν step)^[j] f) := by
  induction j with
  | zero => exact hf
  | succ j ih => rw [Function.iterate_succ_apply']; exact stepMean_measurable hm ih

theorem iterMean_bdd {f : X → ℝ} {B : ℝ} (hB : ∀ x, |f x| ≤ B) (j : ℕ) : ∀ x, |(stepMean ν step)^[j] f x| ≤ B := by
  induction j with
  | zero => exact hB
  | succ j ih => rw [Function.iterate_succ_apply']; exact fun x => stepMean_bdd ih x

theorem integral_iter (hm : Measurable fun p : X × N => step p.2 p.1) {f : X → ℝ} (hf : Measurable f) {B : ℝ} (hB : ∀ x, |f x| ≤ B) (j : ℕ) (μ : Measure X) [IsProbabilityMeasure μ] :
    ∫ x, f x ∂((stepLaw ν step)^[j] μ) = ∫ x, (stepMean ν step)^[j] f x ∂μ := by
  induction j generalizing f with
  | zero => rfl
  | succ j ih =>
    haveI := iter_prob (ν := ν) hm μ j
    rw [Function.iterate_succ_apply', integral_stepLaw hm hf hB, ih (stepMean_measurable hm hf) (stepMean_bdd hB), Function.iterate_succ_apply]

theorem iterMean_dirac (hm : Measurable fun p : X × N => step p.2 p.1) {f : X → ℝ} (hf : Measurable f) {B : ℝ} (hB : ∀ x, |f x| ≤ B) (j : ℕ) (x : X) :
    (stepMean ν step)^[j] f x = ∫ y, f y ∂((stepLaw ν step)^[j] (Measure.dirac x)) := by
  rw [integral_iter hm hf hB, integral_dirac' _ _ (iterMean_measurable hm hf j).stronglyMeasurable]

theorem iterMean_onSnd {W : Type} [MeasurableSpace W] (g : W → ℝ) (f : X → ℝ) (j : ℕ) :
    (stepMean ν (onSnd (W := W) step))^[j] (fun p => g p.1 * f p.2) = fun p => g p.1 * (stepMean ν step)^[j] f p.2 := by
  induction j generalizing f with
  | zero => rfl
  | succ j ih =>
    rw [Function.iterate_succ_apply, Function.iterate_succ_apply, ← ih]
    congr 1
    funext p
    exact integral_const_mul (μ := ν) (g p.1) fun n => f (step n p.2)

/-- A step of the second component, seen on an event of the first component. -/
theorem onSnd_restrict {W : Type} [MeasurableSpace W] (hm : Measurable fun p : X × N => step p.2 p.1) (A : Set W) (hA : MeasurableSet A) (j : ℕ) (ρ : Measure (W × X)) [IsFiniteMeasure ρ] :
    (((stepLaw ν (onSnd step))^[j] ρ).restrict (Prod.fst ⁻¹' A)).map Prod.snd = (stepLaw ν step)^[j] ((ρ.restrict (Prod.fst ⁻¹' A)).map Prod.snd) := by
  induction j generalizing ρ with
  | zero => rfl
  | succ j ih =>
    have hos := onSnd_measurable (W := W) hm
    haveI : IsFiniteMeasure (stepLaw ν (onSnd step) ρ) := by unfold stepLaw; infer_instance
    rw [Function.iterate_succ_apply, ih, Function.iterate_succ_apply]
    congr 1
    have hA' : MeasurableSet (Prod.fst ⁻¹' A : Set (W × X)) := measurable_fst hA
    rw [stepLaw, Measure.restrict_map hos hA', Measure.map_map measurable_snd hos]
    have e : (fun p : (W × X) × N => onSnd step p.2 p.1) ⁻¹' (Prod.fst ⁻¹' A) = (Prod.fst ⁻¹' A : Set (W × X)) ×ˢ Set.univ := by
      ext p; simp [onSnd]
    rw [e, ← Measure.prod_restrict, Measure.restrict_univ, stepLaw]
    have e2 : (Prod.snd ∘ fun p : (W × X) × N => onSnd step p.2 p.1) = (fun p : X × N => step p.2 p.1) ∘ Prod.map Prod.snd id := rfl
    rw [e2, ← Measure.map_map hm (measurable_snd.prodMap measurable_id), ← Measure.map_prod_map _ _ measurable_snd measurable_id, Measure.map_id]

variable {π μ : Measure X} [IsProbabilityMeasure π] [IsProbabilityMeasure μ]

theorem ChainRows.dominated {n : ℕ} {Z : ℕ → Ω → X} (hZ : ChainRows P ν step μ n Z) (hm : Measurable fun p : X × N => step p.2 p.1) (hπ : stepLaw ν step π = π) {i : ℕ} (hi : i ≤ n) {A : Set X}
    (hA : MeasurableSet A) (hd : (P.map (Z i)).restrict A ≤ (2 : ℝ≥0∞) • π) (j : ℕ) (hij : i ≤ j) (hj : j ≤ n) : (P.restrict (Z i ⁻¹' A)).map (Z j) ≤ (2 : ℝ≥0∞) • π := by
  obtain ⟨r, rfl⟩ := Nat.exists_eq_add_of_le hij
  have hi' := hZ.meas i hi
  have hj' := hZ.meas (i + r) hj
  have hpm : Measurable fun ω => (Z i ω, Z (i + r) ω) := hi'.prodMk hj'
  have hA' : MeasurableSet (Prod.fst ⁻¹' A : Set (X × X)) := measurable_fst hA
  have e1 : (P.restrict (Z i ⁻¹' A)).map (Z (i + r)) = ((P.map fun ω => (Z i ω, Z (i + r) ω)).restrict (Prod.fst ⁻¹' A)).map Prod.snd := by
    rw [Measure.restrict_map hpm hA', Measure.map_map measurable_snd hpm]; rfl
  rw [e1, hZ.pair i r hj, onSnd_restrict hm A hA]
  refine ((stepLaw_exact ν step hm hπ).iterate r).bound 2 _ inferInstance (le_trans (le_of_eq ?_) hd)
  have hdm : Measurable fun ω => (Z i ω, Z i ω) := hi'.prodMk hi'
  rw [Measure.restrict_map hdm hA', Measure.map_map measurable_snd hdm, Measure.restrict_map hi' hA]
  rfl

/-- Later states are nearly uncorrelated with earlier ones. -/
theorem chain_cor (hm : Measurable fun p : X × N => step p.2 p.1) (hconv : ∀ x, TVConverges (fun n => (stepLaw ν step)^[n] (Measure.dirac x)) π) (hμ : TVConverges (fun n => (stepLaw ν step)^[n] μ) π)
    {f : X → ℝ} (hf : Measurable f) {B : ℝ} (hB0 : 0 < B) (hB : ∀ x, |f x| ≤ B) (hf0 : ∫ x, f x ∂π = 0) {η : ℝ} (hη : 0 < η) :
    ∃ L, ∀ n (Z : ℕ → Ω → X), ChainRows P ν step μ n Z → ∀ i j, L ≤ i → L ≤ j → i + j ≤ n → ∫ ω, f (Z i ω) * f (Z (i + j) ω) ∂P ≤ η := by
  set m : ℕ → X → ℝ := fun j => (stepMean ν step)^[j] f with hmd
  have mm : ∀ j, Measurable (m j) := iterMean_measurable hm hf
  have mb : ∀ j x, |m j x| ≤ B := iterMean_bdd hB
  have mlim : ∀ x, Tendsto (fun j => |m j x|) atTop (𝓝 0) := by
    intro x
    rw [Metric.tendsto_atTop]
    intro ε hε
    obtain ⟨K, hK⟩ := hconv x (ε / (4 * B)) (by positivity)
    refine ⟨K, fun j hj => ?_⟩
    haveI := iter_prob (ν := ν) hm (Measure.dirac x) j
    have := integral_near (fun A hA => hK j hj A hA) hf hB
    rw [hf0, sub_zero, ← iterMean_dirac hm hf hB] at this
    rw [Real.dist_eq, sub_zero, abs_abs]
    refine lt_of_le_of_lt this ?_
    have : 2 * B * (ε / (4 * B)) = ε / 2 := by field_simp; ring
    rw [this]; linarith
  have mint : Tendsto (fun j => ∫ x, |m j x| ∂π) atTop (𝓝 0) := by
    have := tendsto_integral_of_dominated_convergence (μ := π) (F := fun j x => |m j x|) (f := fun _ => 0) (fun _ => B) (fun j => (mm j).abs.aestronglyMeasurable) (integrable_const _)
      (fun j => ae_of_all _ fun x => by rw [Real.norm_eq_abs, abs_abs]; exact mb j x) (ae_of_all _ mlim)
    simpa using this
  obtain ⟨L1, hL1⟩ := (Metric.tendsto_atTop.1 mint) (η / (2 * B)) (by positivity)
  obtain ⟨L2, hL2⟩ := hμ (η / (4 * B ^ 2)) (by positivity)
  refine ⟨max L1 L2, fun n Z hZ i j hi hj hij => ?_⟩
  have hZi := hZ.meas i (by omega)
  have hZj := hZ.meas (i + j) hij
  have hprod : Measurable fun p : X × X => f p.1 * f p.2 := (hf.comp measurable_fst).mul (hf.comp measurable_snd)
  have hpb : ∀ p : X × X, |f p.1 * f p.2| ≤ B * B := fun p => by rw [abs_mul]; exact mul_le_mul (hB _) (hB _) (abs_nonneg _) hB0.le
  haveI : IsProbabilityMeasure (P.map fun ω => (Z i ω, Z i ω)) := Measure.isProbabilityMeasure_map (hZi.prodMk hZi).aemeasurable
  have e : ∫ ω, f (Z i ω) * f (Z (i + j) ω) ∂P = ∫ ω, f (Z i ω) * m j (Z i ω) ∂P := by
    have e1 : ∫ ω, f (Z i ω) * f (Z (i + j) ω) ∂P = ∫ p, f p.1 * f p.2 ∂(P.map fun ω => (Z i ω, Z (i + j) ω)) :=
      (integral_map (hZi.prodMk hZj).aemeasurable hprod.aestronglyMeasurable).symm
    rw [e1, hZ.pair i j hij, integral_iter (onSnd_measurable hm) hprod hpb, iterMean_onSnd f f j]
    exact integral_map (hZi.prodMk hZi).aemeasurable ((hf.comp measurable_fst).mul ((mm j).comp measurable_snd)).aestronglyMeasurable
  rw [e]
  have e3 : ∫ ω, f (Z i ω) * m j (Z i ω) ∂P ≤ B * ∫ x, |m j x| ∂(P.map (Z i)) := by
    rw [integral_map hZi.aemeasurable (mm j).abs.aestronglyMeasurable, ← integral_const_mul]
    refine integral_mono (integrable_bdd ((hf.comp hZi).mul ((mm j).comp hZi)) (B := B * B) fun ω => ?_) ((integrable_bdd ((mm j).abs.comp hZi) (B := B) fun ω => ?_).const_mul B) fun ω => ?_
    · simp only [Function.comp, abs_mul]; exact mul_le_mul (hB _) (mb _ _) (abs_nonneg _) hB0.le
    · simp only [Function.comp, abs_abs]; exact mb _ _
    · exact (le_abs_self _).trans (by rw [abs_mul]; exact mul_le_mul_of_nonneg_right (hB _) (abs_nonneg _))
  refine e3.trans ?_
  haveI : IsProbabilityMeasure (P.map (Z i)) := Measure.isProbabilityMeasure_map hZi.aemeasurable
  have near : Near (P.map (Z i)) π (η / (4 * B ^ 2)) := fun A hA => by
    rw [hZ.law i (by omega)]; exact hL2 i (le_trans (le_max_right _ _) hi) A hA
  have e4 := (abs_le.1 (integral_near near (mm j).abs (B := B) fun x => by rw [abs_abs]; exact mb j x)).2
  have e5 := hL1 j (le_trans (le_max_left _ _) hj)
  rw [Real.dist_eq, sub_zero] at e5
  have e6 := (abs_lt.1 e5).2
  have e7 : 2 * B * (η / (4 * B ^ 2)) = η / (2 * B) := by field_simp; ring
  rw [e7] at e4
  calc B * ∫ x, |m j x| ∂(P.map (Z i)) ≤ B * (η / (2 * B) + η / (2 * B)) := mul_le_mul_of_nonneg_left (by linarith) hB0.le
    _ = η := by field_simp; ring

/-- Averages of a bounded function. -/
theorem chain_lln_bdd (hm : Measurable fun p : X × N => step p.2 p.1) (hconv : ∀ x, TVConverges (fun n => (stepLaw ν step)^[n] (Measure.dirac x)) π) (hμ : TVConverges (fun n => (stepLaw ν step)^[n] μ) π)
    {f : X → ℝ} (hf : Measurable f) {B : ℝ} (hB : ∀ x, |f x| ≤ B) (t : ℕ) (ht : 0 < t) {δ ε : ℝ} (hδ : 0 < δ) (hε : 0 < ε) :
    ∃ L, ∀ n, L ≤ n → ∀ (len : ℕ) (Z : ℕ → Ω → X), ChainRows P ν step μ len Z → (∀ l < n, l * t + 1 ≤ len) →
      P.real {ω | δ < |(∑ j ∈ Finset.range n, f (Z (j * t + 1) ω)) / n - ∫ x, f x ∂π|} ≤ ε := by
  set a := ∫ x, f x ∂π with ha
  have hab : |a| ≤ B := abs_integral_bdd hB
  have hB' : 0 ≤ B := le_trans (abs_nonneg _) hab
  set g : X → ℝ := fun x => f x - a with hg
  have hgm : Measurable g := hf.sub_const a
  set C := 2 * B + 1 with hC
  have hC0 : 0 < C := by positivity
  have hgB : ∀ x, |g x| ≤ C := fun x => (abs_sub _ _).trans (by have := hB x; linarith)
  have hg0 : ∫ x, g x ∂π = 0 := by
    rw [hg, integral_sub (integrable_bdd hf hB) (integrable_const _)]
    simp [ha]
  have hη : 0 < ε * δ ^ 2 / 2 := by positivity
  obtain ⟨K, hK⟩ := chain_cor (P := P) hm hconv hμ hgm hC0 hgB hg0 hη
  obtain ⟨L, hL⟩ := exists_nat_ge ((4 * K + 1) * C ^ 2 / (ε * δ ^ 2 / 2))
  refine ⟨max L 1, fun n hn len Z hZ hle => ?_⟩
  have hn1 : 1 ≤ n := le_trans (le_max_right _ _) hn
  have hnp : (0 : ℝ) < n := by exact_mod_cast hn1
  have hUm : ∀ l < n, Measurable fun ω => g (Z (l * t + 1) ω) := fun l hl => hgm.comp (hZ.meas _ (hle l hl))
  have hsm := second_moment (P := P) (fun l ω => g (Z (l * t + 1) ω)) n hUm (C := C) (fun l _ ω => hgB _) hη.le K (by
    intro l l' h1 h2 h3
    obtain ⟨r, rfl⟩ := Nat.exists_eq_add_of_le h2.le
    have hr : K * t ≤ (K + r) * t := Nat.mul_le_mul_right t (by omega)
    have e : (l + K + r) * t + 1 = (l * t + 1) + (K + r) * t := by ring
    have hKt : K ≤ K * t := Nat.le_mul_of_pos_right K ht
    have hlt : l ≤ l * t := Nat.le_mul_of_pos_right l ht
    have := hK len Z hZ (l * t + 1) ((K + r) * t) (by omega) (by omega) (by rw [← e]; exact hle _ h3)
    rw [← e] at this
    exact this)
  have hZm : Measurable fun ω => (∑ l ∈ Finset.range n, g (Z (l * t + 1) ω)) / n := (Finset.measurable_sum _ fun l hl => hUm l (Finset.mem_range.1 hl)).div_const _
  have hZb : ∀ ω, |(∑ l ∈ Finset.range n, g (Z (l * t + 1) ω)) / n| ≤ C := fun ω => by
    rw [abs_div, Nat.abs_cast, div_le_iff₀ hnp]
    refine (Finset.abs_sum_le_sum_abs _ _).trans ((Finset.sum_le_sum fun l _ => hgB _).trans (le_of_eq ?_))
    simp [mul_comm]
  have hv : ∫ ω, ((∑ l ∈ Finset.range n, g (Z (l * t + 1) ω)) / n) ^ 2 ∂P ≤ ε * δ ^ 2 := by
    simp only [div_pow]
    rw [integral_div, div_le_iff₀ (by positivity)]
    refine hsm.trans ?_
    have hbig : (4 * K + 1) * C ^ 2 ≤ ε * δ ^ 2 / 2 * n := by
      have h1 : ((4 * K + 1) * C ^ 2 / (ε * δ ^ 2 / 2)) ≤ n := hL.trans (by exact_mod_cast le_trans (le_max_left _ _) hn)
      rw [div_le_iff₀ hη] at h1
      linarith
    have := mul_le_mul_of_nonneg_right hbig hnp.le
    nlinarith
  have := chebyshev_mean (P := P) _ hZm hZb hδ hv
  refine le_trans (le_of_eq ?_) (this.trans (le_of_eq (by field_simp)))
  congr 1
  ext ω
  have e : (∑ j ∈ Finset.range n, f (Z (j * t + 1) ω)) / n - a = (∑ l ∈ Finset.range n, g (Z (l * t + 1) ω)) / n := by
    simp only [hg, Finset.sum_sub_distrib, Finset.sum_const, Finset.card_range, nsmul_eq_mul]
    field_simp
  simp only [Set.mem_setOf_eq, e]

/-- Averages of an integrable function. -/
theorem chain_lln (hm : Measurable fun p : X × N => step p.2 p.1) (hπ : stepLaw ν step π = π) (hconv : ∀ x, TVConverges (fun n => (stepLaw ν step)^[n] (Measure.dirac x)) π)
    (hμ : TVConverges (fun n => (stepLaw ν step)^[n] μ) π) {f : X → ℝ} (hf : Measurable f) (hi : Integrable f π) (t : ℕ) (ht : 0 < t) {δ ε : ℝ} (hδ : 0 < δ) (hε : 0 < ε) :
    ∃ L, ∀ n, L ≤ n → ∀ (len : ℕ) (Z : ℕ → Ω → X), ChainRows P ν step μ len Z → (∀ l < n, l * t + 1 ≤ len) →
      P.real {ω | δ < |(∑ j ∈ Finset.range n, f (Z (j * t + 1) ω)) / n - ∫ x, f x ∂π|} ≤ ε := by
  -- split at a level
  set τ := min (δ / 3) (ε * δ / 48) with hτ
  have hτ0 : 0 < τ := lt_min (by positivity) (by positivity)
  obtain ⟨B, hB0, hB⟩ := tail_integral hf hi hτ0
  set f1 : X → ℝ := fun x => if |f x| ≤ B then f x else 0 with hf1
  set g : X → ℝ := fun x => if |f x| ≤ B then 0 else |f x| with hg
  have hset : MeasurableSet {x | |f x| ≤ B} := measurableSet_le hf.abs measurable_const
  have hf1m : Measurable f1 := Measurable.ite hset hf measurable_const
  have hgm : Measurable g := Measurable.ite hset measurable_const hf.abs
  have hf1b : ∀ x, |f1 x| ≤ B := fun x => by
    simp only [hf1]; split_ifs with h
    · exact h
    · simpa using hB0
  have hg0 : ∀ x, 0 ≤ g x := fun x => by
    simp only [hg]; split_ifs
    · exact le_rfl
    · exact abs_nonneg _
  have hfg : ∀ x, |f x - f1 x| = g x := fun x => by
    simp only [hf1, hg]; split_ifs <;> simp
  have hgi : Integrable g π := by
    refine hi.abs.mono' hgm.aestronglyMeasurable (ae_of_all _ fun x => ?_)
    rw [Real.norm_eq_abs, abs_of_nonneg (hg0 x)]
    simp only [hg]; split_ifs
    · exact abs_nonneg _
    · exact le_rfl
  have hmeans : |∫ x, f x ∂π - ∫ x, f1 x ∂π| ≤ δ / 3 := by
    rw [← integral_sub hi (integrable_bdd hf1m hf1b)]
    refine (abs_integral_le_integral_abs).trans ?_
    simp only [hfg]
    exact hB.trans (min_le_left _ _)
  have hδ3 : 0 < δ / 3 := by positivity
  obtain ⟨L1, hL1⟩ := chain_lln_bdd (P := P) hm hconv hμ hf1m hf1b t ht hδ3 (ε := ε / 2) (by positivity)
  -- the tail
  obtain ⟨i0, hi0⟩ := hμ (ε / 32) (by positivity)
  have hdom : ∃ A, MeasurableSet A ∧ ((stepLaw ν step)^[i0] μ).real Aᶜ ≤ ε / 16 ∧ ((stepLaw ν step)^[i0] μ).restrict A ≤ (2 : ℝ≥0∞) • π := by
    haveI := iter_prob (ν := ν) hm μ i0
    obtain ⟨A, h1, h2, h3⟩ := half_dominated (fun A hA => hi0 i0 le_rfl A hA : Near ((stepLaw ν step)^[i0] μ) π (ε / 32))
    exact ⟨A, h1, h2.trans (by linarith), h3⟩
  obtain ⟨A, hA, hA1, hA2⟩ := hdom
  have hη : 0 < ε / (16 * (i0 + 1)) := by positivity
  have tight : ∀ i, ∃ K : ℝ, 0 ≤ K ∧ ((stepLaw ν step)^[i] μ).real {x | K < g x} ≤ ε / (16 * (i0 + 1)) := fun i => by
    haveI := iter_prob (ν := ν) hm μ i
    exact tight_real _ hgm hη
  choose Kf hK0 hK1 using tight
  set K := ∑ i ∈ Finset.range (i0 * t + 2), Kf i with hK
  have hKle : ∀ i < i0 * t + 2, Kf i ≤ K := fun i hi => Finset.single_le_sum (f := Kf) (fun i _ => hK0 i) (Finset.mem_range.2 hi)
  have hK00 : 0 ≤ K := Finset.sum_nonneg fun i _ => hK0 i
  obtain ⟨L2, hL2⟩ := exists_nat_ge (i0 * K / (δ / 6))
  refine ⟨max (max L1 L2) (i0 + 1), fun n hn len Z hZ hle => ?_⟩
  have hn0 : i0 + 1 ≤ n := le_trans (le_max_right _ _) hn
  have hn1 : 0 < n := by omega
  have hnp : (0 : ℝ) < n := by exact_mod_cast hn1
  have b1 := hL1 n (le_trans (le_trans (le_max_left _ _) (le_max_left _ _)) hn) len Z hZ hle
  have hlen0 : i0 ≤ len := by
    have h1 := hle (n - 1) (by omega)
    have : (n - 1) * 1 ≤ (n - 1) * t := Nat.mul_le_mul_left _ ht
    omega
  have hZi := hZ.meas i0 hlen0
  have hE : MeasurableSet (Z i0 ⁻¹' A) := hZi hA
  have hEc : P.real (Z i0 ⁻¹' A)ᶜ ≤ ε / 16 := by
    rw [← hZ.law i0 hlen0, map_measureReal_apply hZi hA.compl] at hA1
    exact hA1
  have late : ∀ l < n, i0 ≤ l → ∀ r < 1, (P.restrict (Z i0 ⁻¹' A)).map (Z (l * t + 1)) ≤ (2 : ℝ≥0∞) • π := fun l hl hil r _ => by
    refine hZ.dominated hm hπ hlen0 hA ?_ _ ?_ (hle l hl)
    · rw [hZ.law i0 hlen0]; exact hA2
    · have : l * 1 ≤ l * t := Nat.mul_le_mul_left l ht
      omega
  have early : ∀ l < n, l < i0 → ∀ r < 1, P.real {ω | K < g (Z (l * t + 1) ω)} ≤ ε / (16 * (i0 + 1)) := fun l hl hil r _ => by
    have hk : l * t + 1 < i0 * t + 2 := by
      have : l * t ≤ i0 * t := Nat.mul_le_mul_right t hil.le
      omega
    have h1 := hK1 (l * t + 1)
    rw [← hZ.law _ (hle l hl), map_measureReal_apply (hZ.meas _ (hle l hl)) (measurableSet_lt measurable_const hgm)] at h1
    refine le_trans (measureReal_mono fun ω hω => ?_) h1
    exact lt_of_le_of_lt (hKle _ hk) hω
  have hlarge : (i0 : ℝ) * K / n ≤ δ / 3 / 2 := by
    have h2 : (L2 : ℝ) ≤ n := by exact_mod_cast le_trans (le_trans (le_max_right _ _) (le_max_left _ _)) hn
    have h3 := hL2.trans h2
    rw [div_le_iff₀ (by positivity)] at h3
    rw [div_le_iff₀ hnp]
    linarith
  have b2 := tail_average (P := P) π g hgm hg0 hgi n 1 hn1 one_pos (fun l _ => Z (l * t + 1)) (fun l hl r _ => hZ.meas _ (hle l hl)) i0 _ hE late K hK00 _ hη.le early (δ / 3) hδ3 hlarge
  have e1 : (i0 : ℝ) * (1 : ℕ) * (ε / (16 * (i0 + 1))) ≤ ε / 16 := by
    have h0 : (0 : ℝ) ≤ i0 := Nat.cast_nonneg _
    have : (i0 : ℝ) * (1 : ℕ) * (ε / (16 * (i0 + 1))) = (i0 / (i0 + 1)) * (ε / 16) := by
      push_cast
      field_simp
    rw [this]
    have h4 : (i0 : ℝ) / (i0 + 1) ≤ 1 := by rw [div_le_one (by positivity)]; linarith
    calc _ ≤ 1 * (ε / 16) := mul_le_mul_of_nonneg_right h4 (by positivity)
      _ = _ := one_mul _
  have e2 : 4 * (∫ x, g x ∂π) / (δ / 3) ≤ ε / 4 := by
    have : (∫ x, g x ∂π) ≤ ε * δ / 48 := hB.trans (min_le_right _ _)
    rw [div_le_iff₀ hδ3]
    linarith
  have b3 : P.real {ω | δ / 3 < (∑ l ∈ Finset.range n, g (Z (l * t + 1) ω)) / n} ≤ ε / 2 := by
    have : {ω | δ / 3 < (∑ l ∈ Finset.range n, g (Z (l * t + 1) ω)) / n} = {ω | δ / 3 < (∑ l ∈ Finset.range n, ∑ r ∈ Finset.range 1, g (Z (l * t + 1) ω)) / (n * (1 : ℕ) : ℝ)} := by
      simp
    rw [this]
    linarith
  refine le_trans (measureReal_mono (s₂ := {ω | δ / 3 < |(∑ j ∈ Finset.range n, f1 (Z (j * t + 1) ω)) / n - ∫ x, f1 x ∂π|} ∪ {ω | δ / 3 < (∑ l ∈ Finset.range n, g (Z (l * t + 1) ω)) / n}) fun ω hω => ?_)
    ((measureReal_union_le _ _).trans (by linarith))
  by_contra hne
  simp only [Set.mem_union, Set.mem_setOf_eq, not_or, not_lt] at hne
  obtain ⟨n1, n2⟩ := hne
  have hω' : δ < |(∑ j ∈ Finset.range n, f (Z (j * t + 1) ω)) / n - ∫ x, f x ∂π| := hω
  have n3 : |(∑ j ∈ Finset.range n, f (Z (j * t + 1) ω)) / n - (∑ j ∈ Finset.range n, f1 (Z (j * t + 1) ω)) / n| ≤ (∑ l ∈ Finset.range n, g (Z (l * t + 1) ω)) / n := by
    rw [← sub_div, ← Finset.sum_sub_distrib, abs_div, abs_of_pos hnp]
    refine div_le_div_of_nonneg_right ((Finset.abs_sum_le_sum_abs _ _).trans (Finset.sum_le_sum fun l _ => (hfg _).le)) hnp.le
  have := abs_sub_le ((∑ j ∈ Finset.range n, f (Z (j * t + 1) ω)) / n) ((∑ j ∈ Finset.range n, f1 (Z (j * t + 1) ω)) / n) (∫ x, f x ∂π)
  have := abs_sub_le ((∑ j ∈ Finset.range n, f1 (Z (j * t + 1) ω)) / n) (∫ x, f1 x ∂π) (∫ x, f x ∂π)
  rw [abs_sub_comm] at hmeans
  linarith

end
end FlowMC
