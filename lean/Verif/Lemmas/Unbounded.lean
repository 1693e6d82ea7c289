import Verif.Lemmas.ErrorBars
import Mathlib.MeasureTheory.Measure.Decomposition.Hahn
/-
Averages of unbounded functions: a law near `π` is, on an event of high probability, dominated by `2 π`; tails of averages.
-/
open MeasureTheory ProbabilityTheory Filter
open scoped ENNReal Topology
set_option linter.unusedSectionVars false
namespace FlowMC
open Spec

section
variable {X : Type} [MeasurableSpace X]

theorem half_dominated {μ π : Measure X} [IsProbabilityMeasure μ] [IsProbabilityMeasure π] {ε : ℝ} (h : Near μ π ε) :
    ∃ A, MeasurableSet A ∧ μ.real Aᶜ ≤ 2 * ε ∧ μ.restrict A ≤ (2 : ℝ≥0∞) • π := by
  haveI : IsFiniteMeasure ((2 : ℝ≥0∞) • π) := Measure.smul_finite π (by simp)
  obtain ⟨A, hA, h1, h2⟩ := hahn_decomposition ((2 : ℝ≥0∞) • π) μ
  refine ⟨A, hA, ?_, ?_⟩
  · have h3 := h2 Aᶜ hA.compl le_rfl
    have h4 := (abs_le.1 (h Aᶜ hA.compl)).2
    have h5 : 2 * π.real Aᶜ ≤ μ.real Aᶜ := by
      rw [measureReal_def, measureReal_def]
      have := ENNReal.toReal_mono (measure_ne_top μ _) h3
      simpa using this
    linarith
  · refine Measure.le_iff.2 fun B hB => ?_
    rw [Measure.restrict_apply hB]
    exact (h1 _ (hB.inter hA) Set.inter_subset_right).trans (measure_mono Set.inter_subset_left)

end

section
variable {Ω X : Type} [MeasurableSpace Ω] {P : Measure Ω} [IsProbabilityMeasure P] [MeasurableSpace X]

/-- A nonnegative function whose mean under `π` is small has a small average over rows that are, on an event of high probability and from the `N`-th loop on, dominated by `2 π`, and tight before. -/
theorem tail_average (π : Measure X) [IsProbabilityMeasure π] (g : X → ℝ) (hg : Measurable g) (hg0 : ∀ x, 0 ≤ g x) (hgi : Integrable g π) (n Q : ℕ) (hn : 0 < n) (hQ : 0 < Q)
    (Y : ℕ → ℕ → Ω → X) (hY : ∀ l < n, ∀ r < Q, Measurable (Y l r)) (N : ℕ) (E : Set Ω) (hE : MeasurableSet E)
    (late : ∀ l < n, N ≤ l → ∀ r < Q, (P.restrict E).map (Y l r) ≤ (2 : ℝ≥0∞) • π) (K : ℝ) (hK : 0 ≤ K) (η : ℝ) (hη : 0 ≤ η)
    (early : ∀ l < n, l < N → ∀ r < Q, P.real {ω | K < g (Y l r ω)} ≤ η) (δ : ℝ) (hδ : 0 < δ) (hlarge : N * K / n ≤ δ / 2) :
    P.real {ω | δ < (∑ l ∈ Finset.range n, ∑ r ∈ Finset.range Q, g (Y l r ω)) / (n * Q : ℝ)} ≤ P.real Eᶜ + N * Q * η + 4 * (∫ x, g x ∂π) / δ := by
  have hnp : (0 : ℝ) < n := by exact_mod_cast hn
  have hQp : (0 : ℝ) < Q := by exact_mod_cast hQ
  set S : Ω → ℝ := fun ω => (∑ l ∈ (Finset.range n).filter (N ≤ ·), ∑ r ∈ Finset.range Q, g (Y l r ω)) / (n * Q : ℝ) with hS
  have hS0 : ∀ ω, 0 ≤ S ω := fun ω => div_nonneg (Finset.sum_nonneg fun l _ => Finset.sum_nonneg fun r _ => hg0 _) (by positivity)
  have hcov : {ω | δ < (∑ l ∈ Finset.range n, ∑ r ∈ Finset.range Q, g (Y l r ω)) / (n * Q : ℝ)} ⊆
      (Eᶜ ∪ ⋃ l ∈ (Finset.range n).filter (· < N), ⋃ r ∈ Finset.range Q, {ω | K < g (Y l r ω)}) ∪ (E ∩ {ω | δ / 2 ≤ S ω}) := by
    intro ω hω
    by_contra hne
    simp only [Set.mem_union, Set.mem_iUnion, Set.mem_compl_iff, Set.mem_inter_iff, Set.mem_setOf_eq, not_or, not_not, not_exists, not_and, not_le, not_lt, exists_prop] at hne
    obtain ⟨⟨hωE, h1⟩, h2⟩ := hne
    have h3 := h2 hωE
    have h4 : (∑ l ∈ (Finset.range n).filter (· < N), ∑ r ∈ Finset.range Q, g (Y l r ω)) / (n * Q : ℝ) ≤ δ / 2 := by
      refine le_trans ?_ hlarge
      rw [div_le_div_iff₀ (by positivity) hnp]
      have hcard : ((Finset.range n).filter (· < N)).card ≤ N := by
        calc _ ≤ (Finset.range N).card := Finset.card_le_card fun l hl => Finset.mem_range.2 (Finset.mem_filter.1 hl).2
          _ = N := Finset.card_range N
      have : ∑ l ∈ (Finset.range n).filter (· < N), ∑ r ∈ Finset.range Q, g (Y l r ω) ≤ N * (Q * K) := by
        calc _ ≤ ∑ l ∈ (Finset.range n).filter (· < N), (Q * K : ℝ) := by
              refine Finset.sum_le_sum fun l hl => ?_
              calc _ ≤ ∑ r ∈ Finset.range Q, K := Finset.sum_le_sum fun r hr => h1 l hl r hr
                _ = _ := by simp
          _ = ((Finset.range n).filter (· < N)).card * (Q * K : ℝ) := by simp
          _ ≤ _ := mul_le_mul_of_nonneg_right (by exact_mod_cast hcard) (by positivity)
      nlinarith
    have h5 : (∑ l ∈ Finset.range n, ∑ r ∈ Finset.range Q, g (Y l r ω)) / (n * Q : ℝ) =
        (∑ l ∈ (Finset.range n).filter (· < N), ∑ r ∈ Finset.range Q, g (Y l r ω)) / (n * Q : ℝ) + S ω := by
      rw [hS, ← add_div]
      congr 1
      rw [← Finset.sum_filter_add_sum_filter_not (Finset.range n) (· < N)]
      simp only [not_lt]
    have hω' : δ < (∑ l ∈ Finset.range n, ∑ r ∈ Finset.range Q, g (Y l r ω)) / (n * Q : ℝ) := hω
    rw [h5] at hω'
    linarith
  refine (measureReal_mono hcov).trans ((measureReal_union_le _ _).trans (add_le_add ((measureReal_union_le _ _).trans (add_le_add le_rfl ?_)) ?_))
  · refine (measureReal_biUnion_finset_le _ _).trans ?_
    have hcard : ((Finset.range n).filter (· < N)).card ≤ N := by
      calc _ ≤ (Finset.range N).card := Finset.card_le_card fun l hl => Finset.mem_range.2 (Finset.mem_filter.1 hl).2
        _ = N := Finset.card_range N
    calc _ ≤ ∑ l ∈ (Finset.range n).filter (· < N), (Q * η : ℝ) := by
          refine Finset.sum_le_sum fun l hl => (measureReal_biUnion_finset_le _ _).trans ?_
          rw [Finset.mem_filter, Finset.mem_range] at hl
          calc _ ≤ ∑ r ∈ Finset.range Q, η := Finset.sum_le_sum fun r hr => early l hl.1 hl.2 r (Finset.mem_range.1 hr)
            _ = _ := by simp
      _ = ((Finset.range n).filter (· < N)).card * (Q * η : ℝ) := by simp
      _ ≤ N * (Q * η) := mul_le_mul_of_nonneg_right (by exact_mod_cast hcard) (by positivity)
      _ = _ := by ring
  · have hgi2 : Integrable g ((2 : ℝ≥0∞) • π) := hgi.smul_measure (by simp)
    have each : ∀ l ∈ (Finset.range n).filter (N ≤ ·), ∀ r ∈ Finset.range Q, Integrable (fun ω => g (Y l r ω)) (P.restrict E) ∧ ∫ ω, g (Y l r ω) ∂(P.restrict E) ≤ 2 * ∫ x, g x ∂π := by
      intro l hl r hr
      rw [Finset.mem_filter, Finset.mem_range] at hl
      rw [Finset.mem_range] at hr
      have hd := late l hl.1 hl.2 r hr
      have hm := hY l hl.1 r hr
      have i1 : Integrable g ((P.restrict E).map (Y l r)) := hgi2.mono_measure hd
      refine ⟨(integrable_map_measure hg.aestronglyMeasurable hm.aemeasurable).1 i1, ?_⟩
      have e : ∫ ω, g (Y l r ω) ∂(P.restrict E) = ∫ x, g x ∂((P.restrict E).map (Y l r)) := (integral_map hm.aemeasurable hg.aestronglyMeasurable).symm
      rw [e]
      refine (integral_mono_measure hd (ae_of_all _ hg0) hgi2).trans (le_of_eq ?_)
      rw [integral_smul_measure]; simp
    have hSi : Integrable S (P.restrict E) := (integrable_finset_sum _ fun l hl => integrable_finset_sum _ fun r hr => (each l hl r hr).1).div_const _
    have hSm : ∫ ω, S ω ∂(P.restrict E) ≤ 2 * ∫ x, g x ∂π := by
      simp only [hS]
      rw [integral_div, div_le_iff₀ (by positivity), integral_finset_sum _ fun l hl => integrable_finset_sum _ fun r hr => (each l hl r hr).1]
      have hcard : ((Finset.range n).filter (N ≤ ·)).card ≤ n := by
        calc _ ≤ (Finset.range n).card := Finset.card_filter_le _ _
          _ = n := Finset.card_range n
      have hg1 : 0 ≤ ∫ x, g x ∂π := integral_nonneg hg0
      calc _ ≤ ∑ l ∈ (Finset.range n).filter (N ≤ ·), (Q * (2 * ∫ x, g x ∂π)) := by
            refine Finset.sum_le_sum fun l hl => ?_
            rw [integral_finset_sum _ fun r hr => (each l hl r hr).1]
            calc _ ≤ ∑ r ∈ Finset.range Q, (2 * ∫ x, g x ∂π) := Finset.sum_le_sum fun r hr => (each l hl r hr).2
              _ = _ := by simp
        _ = ((Finset.range n).filter (N ≤ ·)).card * (Q * (2 * ∫ x, g x ∂π)) := by simp
        _ ≤ n * (Q * (2 * ∫ x, g x ∂π)) := mul_le_mul_of_nonneg_right (by exact_mod_cast hcard) (by positivity)
        _ = _ := by ring
    have mk := mul_meas_ge_le_integral_of_nonneg (ae_of_all _ hS0) hSi (δ / 2)
    have e : P.real (E ∩ {ω | δ / 2 ≤ S ω}) = (P.restrict E).real {ω | δ / 2 ≤ S ω} := by
      rw [measureReal_restrict_apply' hE, Set.inter_comm]
    rw [e, le_div_iff₀ hδ]
    have : δ / 2 * (P.restrict E).real {ω | δ / 2 ≤ S ω} ≤ 2 * ∫ x, g x ∂π := mk.trans hSm
    linarith

end
section
variable {X : Type} [MeasurableSpace X]

/-- A real function of a random point is tight. -/
theorem tight_real (Λ : Measure X) [IsFiniteMeasure Λ] {g : X → ℝ} (hg : Measurable g) {η : ℝ} (hη : 0 < η) : ∃ K : ℝ, 0 ≤ K ∧ Λ.real {x | K < g x} ≤ η := by
  have hmeas : ∀ n : ℕ, MeasurableSet {x | (n : ℝ) < g x} := fun n => measurableSet_lt measurable_const hg
  have hanti : Antitone fun n : ℕ => {x | (n : ℝ) < g x} := fun n m hnm x hx => by
    have h1 : (n : ℝ) ≤ m := by exact_mod_cast hnm
    have h2 : (m : ℝ) < g x := hx
    exact (lt_of_le_of_lt h1 h2 : (n : ℝ) < g x)
  have hlim := tendsto_measure_iInter_atTop (μ := Λ) (fun n => (hmeas n).nullMeasurableSet) hanti ⟨0, measure_ne_top _ _⟩
  have hempty : ⋂ n : ℕ, {x | (n : ℝ) < g x} = ∅ := by
    ext x
    simp only [Set.mem_iInter, Set.mem_setOf_eq, Set.mem_empty_iff_false, iff_false, not_forall, not_lt]
    exact exists_nat_ge (g x)
  rw [hempty, measure_empty] at hlim
  have hη' : (0 : ℝ≥0∞) < ENNReal.ofReal η := ENNReal.ofReal_pos.2 hη
  obtain ⟨n, hn⟩ := (hlim.eventually_lt_const hη').exists
  refine ⟨n, by positivity, ?_⟩
  rw [measureReal_def]
  exact ENNReal.toReal_le_of_le_ofReal hη.le hn.le

/-- The part of an integrable function above a high level has a small mean. -/
theorem tail_integral {π : Measure X} {f : X → ℝ} (hf : Measurable f) (hi : Integrable f π) {τ : ℝ} (hτ : 0 < τ) : ∃ B : ℝ, 0 ≤ B ∧ ∫ x, (if |f x| ≤ B then 0 else |f x|) ∂π ≤ τ := by
  have hlim : Tendsto (fun n : ℕ => ∫ x, (if |f x| ≤ n then 0 else |f x|) ∂π) atTop (𝓝 (∫ x, (0 : ℝ) ∂π)) := by
    refine tendsto_integral_of_dominated_convergence (fun x => |f x|) (fun n => ?_) hi.abs (fun n => ae_of_all _ fun x => ?_) (ae_of_all _ fun x => ?_)
    · exact (Measurable.ite (measurableSet_le hf.abs measurable_const) measurable_const hf.abs).aestronglyMeasurable
    · simp only [Real.norm_eq_abs]
      split_ifs
      · simp
      · rw [abs_abs]
    · obtain ⟨N, hN⟩ := exists_nat_ge |f x|
      refine tendsto_const_nhds.congr' ?_
      filter_upwards [eventually_ge_atTop N] with n hn
      rw [if_pos (hN.trans (by exact_mod_cast hn))]
  rw [integral_zero] at hlim
  obtain ⟨n, hn⟩ := (hlim.eventually_lt_const hτ).exists
  exact ⟨n, by positivity, hn.le⟩

end

end FlowMC
