import Mathlib.MeasureTheory.Measure.Typeclasses.Probability
import Mathlib.MeasureTheory.Constructions.BorelSpace.Basic
import Mathlib.MeasureTheory.Constructions.BorelSpace.Real
import Mathlib.MeasureTheory.Measure.Real
import Mathlib.Analysis.SpecificLimits.Basic
import Mathlib.Topology.Instances.Real.Lemmas
/-
Distribution functions that are close at finitely many points are close everywhere (the deterministic part of the Glivenko–Cantelli theorem).
-/
open MeasureTheory Filter
open scoped ENNReal Topology
namespace FlowMC

variable (ρ : Measure ℝ) [IsProbabilityMeasure ρ]

theorem tendsto_Iic_right (t : ℝ) : Tendsto (fun n : ℕ => ρ.real (Set.Iic (t + 1 / (n + 1)))) atTop (𝓝 (ρ.real (Set.Iic t))) := by
  have e : Set.Iic t = ⋂ n : ℕ, Set.Iic (t + 1 / ((n : ℝ) + 1)) := by
    ext x
    simp only [Set.mem_Iic, Set.mem_iInter]
    refine ⟨fun h n => h.trans (by linarith [Nat.one_div_pos_of_nat (α := ℝ) (n := n)]), fun h => ?_⟩
    refine ge_of_tendsto' (x := atTop) (f := fun n : ℕ => t + 1 / ((n : ℝ) + 1)) ?_ h
    simpa using (tendsto_const_nhds (x := t)).add (tendsto_one_div_add_atTop_nhds_zero_nat (𝕜 := ℝ))
  have := tendsto_measure_iInter_atTop (μ := ρ) (s := fun n : ℕ => Set.Iic (t + 1 / ((n : ℝ) + 1))) (fun n => measurableSet_Iic.nullMeasurableSet)
    (fun a b h => Set.Iic_subset_Iic.2 (by have := Nat.one_div_le_one_div (α := ℝ) h; linarith)) ⟨0, measure_ne_top _ _⟩
  rw [← e] at this
  exact (ENNReal.tendsto_toReal (measure_ne_top _ _)).comp this

theorem tendsto_Iic_left (t : ℝ) : Tendsto (fun n : ℕ => ρ.real (Set.Iic (t - 1 / (n + 1)))) atTop (𝓝 (ρ.real (Set.Iio t))) := by
  have e : Set.Iio t = ⋃ n : ℕ, Set.Iic (t - 1 / ((n : ℝ) + 1)) := by
    ext x
    simp only [Set.mem_Iio, Set.mem_iUnion, Set.mem_Iic]
    refine ⟨fun h => ?_, fun ⟨n, h⟩ => by linarith [Nat.one_div_pos_of_nat (α := ℝ) (n := n)]⟩
    obtain ⟨n, hn⟩ := exists_nat_one_div_lt (sub_pos.2 h)
    exact ⟨n, by linarith⟩
  have := tendsto_measure_iUnion_atTop (μ := ρ) (s := fun n : ℕ => Set.Iic (t - 1 / ((n : ℝ) + 1)))
    (fun a b h => Set.Iic_subset_Iic.2 (by have := Nat.one_div_le_one_div (α := ℝ) h; linarith))
  rw [← e] at this
  exact (ENNReal.tendsto_toReal (measure_ne_top _ _)).comp this

theorem tendsto_Iic_top : Tendsto (fun n : ℕ => ρ.real (Set.Iic (n : ℝ))) atTop (𝓝 1) := by
  have e : (Set.univ : Set ℝ) = ⋃ n : ℕ, Set.Iic (n : ℝ) := by
    ext x; simp only [Set.mem_univ, Set.mem_iUnion, Set.mem_Iic, true_iff]; exact exists_nat_ge x
  have := tendsto_measure_iUnion_atTop (μ := ρ) (s := fun n : ℕ => Set.Iic (n : ℝ)) (fun a b h => Set.Iic_subset_Iic.2 (by exact_mod_cast h))
  rw [← e] at this
  have h2 := (ENNReal.tendsto_toReal (measure_ne_top _ _)).comp this
  rw [measure_univ, ENNReal.toReal_one] at h2
  exact h2

theorem tendsto_Iic_bot : Tendsto (fun n : ℕ => ρ.real (Set.Iic (-(n : ℝ)))) atTop (𝓝 0) := by
  have e : (∅ : Set ℝ) = ⋂ n : ℕ, Set.Iic (-(n : ℝ)) := by
    ext x; simp only [Set.mem_empty_iff_false, Set.mem_iInter, Set.mem_Iic, false_iff, not_forall, not_le]
    obtain ⟨n, hn⟩ := exists_nat_gt (-x); exact ⟨n, by linarith⟩
  have := tendsto_measure_iInter_atTop (μ := ρ) (s := fun n : ℕ => Set.Iic (-(n : ℝ))) (fun n => measurableSet_Iic.nullMeasurableSet)
    (fun a b h => Set.Iic_subset_Iic.2 (by have : (a : ℝ) ≤ b := by exact_mod_cast h
                                           linarith)) ⟨0, measure_ne_top _ _⟩
  rw [← e] at this
  have h2 := (ENNReal.tendsto_toReal (measure_ne_top _ _)).comp this
  rw [measure_empty, ENNReal.toReal_zero] at h2
  exact h2

theorem Iic_mono {s t : ℝ} (h : s ≤ t) : ρ.real (Set.Iic s) ≤ ρ.real (Set.Iic t) := measureReal_mono (Set.Iic_subset_Iic.2 h)

/-- Quantiles. -/
theorem exists_quantile (p : ℝ) (h0 : 0 < p) (h1 : p < 1) : ∃ t, p ≤ ρ.real (Set.Iic t) ∧ ρ.real (Set.Iio t) ≤ p ∧ ∀ u, p ≤ ρ.real (Set.Iic u) → t ≤ u := by
  set A := {t | p ≤ ρ.real (Set.Iic t)} with hA
  have hne : A.Nonempty := by
    obtain ⟨n, hn⟩ := ((tendsto_Iic_top ρ).eventually (lt_mem_nhds h1)).exists
    exact ⟨n, le_of_lt hn⟩
  have hbd : BddBelow A := by
    obtain ⟨n, hn⟩ := ((tendsto_Iic_bot ρ).eventually (gt_mem_nhds h0)).exists
    refine ⟨-(n : ℝ), fun u hu => ?_⟩
    by_contra hc
    push Not at hc
    exact absurd (le_trans hu (Iic_mono ρ hc.le)) (not_le.2 hn)
  refine ⟨sInf A, ?_, ?_, fun u hu => csInf_le hbd hu⟩
  · refine ge_of_tendsto' (tendsto_Iic_right ρ (sInf A)) fun n => ?_
    obtain ⟨u, hu, hlt⟩ := exists_lt_of_csInf_lt hne (show sInf A < sInf A + 1 / ((n : ℝ) + 1) by linarith [Nat.one_div_pos_of_nat (α := ℝ) (n := n)])
    exact le_trans hu (Iic_mono ρ hlt.le)
  · refine le_of_tendsto' (tendsto_Iic_left ρ (sInf A)) fun n => ?_
    by_contra hc
    push Not at hc
    have := csInf_le hbd (show sInf A - 1 / ((n : ℝ) + 1) ∈ A from hc.le)
    linarith [Nat.one_div_pos_of_nat (α := ℝ) (n := n)]

theorem Iic_lt_of_Iio {p t : ℝ} (h : p < ρ.real (Set.Iio t)) : ∃ s < t, p < ρ.real (Set.Iic s) := by
  obtain ⟨n, hn⟩ := ((tendsto_Iic_left ρ t).eventually (lt_mem_nhds h)).exists
  exact ⟨_, by linarith [Nat.one_div_pos_of_nat (α := ℝ) (n := n)], hn⟩

/-- Two distributions on the line are close on all half lines if they are close at finitely many half lines, which depend only on one of them. -/
theorem uniform_of_finite (ε : ℝ) (hε : 0 < ε) : ∃ T : Finset ℝ, ∀ (η : Measure ℝ) [IsProbabilityMeasure η],
    (∀ t ∈ T, |η.real (Set.Iic t) - ρ.real (Set.Iic t)| ≤ ε ∧ |η.real (Set.Iio t) - ρ.real (Set.Iio t)| ≤ ε) →
    ∀ t, |η.real (Set.Iic t) - ρ.real (Set.Iic t)| ≤ 2 * ε ∧ |η.real (Set.Iio t) - ρ.real (Set.Iio t)| ≤ 2 * ε := by
  obtain ⟨N, hN⟩ := exists_nat_gt (1 / ε)
  have hN0 : (0 : ℝ) < N := lt_trans (one_div_pos.2 hε) hN
  have hNε : 1 / (N : ℝ) ≤ ε := by rw [div_le_iff₀ hN0]; rw [div_lt_iff₀ hε] at hN; linarith
  have q : ∀ k : ℕ, ∃ t, 0 < k → k < N → (k : ℝ) / N ≤ ρ.real (Set.Iic t) ∧ ρ.real (Set.Iio t) ≤ k / N ∧ ∀ u, (k : ℝ) / N ≤ ρ.real (Set.Iic u) → t ≤ u := by
    intro k
    by_cases hk : 0 < k ∧ k < N
    · obtain ⟨t, ht⟩ := exists_quantile ρ ((k : ℝ) / N) (div_pos (by exact_mod_cast hk.1) hN0) ((div_lt_one hN0).2 (by exact_mod_cast hk.2))
      exact ⟨t, fun _ _ => ht⟩
    · exact ⟨0, fun h h' => absurd ⟨h, h'⟩ hk⟩
  choose t ht using q
  refine ⟨(Finset.range N).image t, fun η _ hη x => ?_⟩
  have near : ∀ k, k < N → |η.real (Set.Iic (t k)) - ρ.real (Set.Iic (t k))| ≤ ε ∧ |η.real (Set.Iio (t k)) - ρ.real (Set.Iio (t k))| ≤ ε := fun k hk =>
    hη _ (Finset.mem_image_of_mem _ (Finset.mem_range.2 hk))
  -- from above, with `k = ⌊N p⌋ + 1`
  have up : ∀ (p a : ℝ), 0 ≤ p → a ≤ 1 → (∀ k, 0 < k → k < N → p < (k : ℝ) / N → a ≤ η.real (Set.Iio (t k))) → a - p ≤ 2 * ε := by
    intro p a hp ha h
    set k := ⌊N * p⌋₊ + 1 with hk
    have h1 : (⌊N * p⌋₊ : ℝ) ≤ N * p := Nat.floor_le (by positivity)
    have h2 : N * p < ⌊N * p⌋₊ + 1 := Nat.lt_floor_add_one _
    have h3 : (k : ℝ) / N ≤ p + 1 / N := by rw [div_le_iff₀ hN0, add_mul, one_div_mul_cancel hN0.ne']; push_cast [hk]; linarith
    by_cases hkN : k < N
    · have h4 := h k (by omega) hkN (by rw [lt_div_iff₀ hN0]; push_cast [hk]; linarith)
      have h5 := (abs_le.1 (near k hkN).2).2
      have h6 := (ht k (by omega) hkN).2.1
      linarith
    · have : (1 : ℝ) ≤ k / N := by rw [le_div_iff₀ hN0]; push Not at hkN; rw [one_mul]; exact_mod_cast hkN
      linarith
  -- from below, with the largest `k < N` such that `k / N < p` or `k / N ≤ p`
  have down : ∀ (p a : ℝ), p ≤ 1 → 0 ≤ a → (∀ k, 0 < k → k < N → (k : ℝ) / N < p → η.real (Set.Iic (t k)) ≤ a) → p - a ≤ 2 * ε := by
    intro p a hp ha h
    set k := ⌈N * p⌉₊ - 1 with hk
    have h1 : N * p ≤ ⌈N * p⌉₊ := Nat.le_ceil _
    rcases Nat.eq_zero_or_pos k with h0 | h0
    · have : (⌈N * p⌉₊ : ℝ) ≤ 1 := by exact_mod_cast (by omega : ⌈N * p⌉₊ ≤ 1)
      have : p ≤ 1 / N := by rw [le_div_iff₀ hN0]; linarith
      linarith
    · have hc : ⌈N * p⌉₊ = k + 1 := by omega
      have h2 : (k : ℝ) < N * p := by
        have := Nat.lt_ceil.1 (show k < ⌈N * p⌉₊ by omega); exact this
      have hkN : k < N := by
        have : (k : ℝ) < N := by nlinarith
        exact_mod_cast this
      have h3 : (k : ℝ) / N < p := by rw [div_lt_iff₀ hN0]; linarith
      have h4 := h k h0 hkN h3
      have h5 := (abs_le.1 (near k hkN).1).1
      have h6 := (ht k h0 hkN).1
      have h7 : p - 1 / N ≤ k / N := by
        rw [le_div_iff₀ hN0, sub_mul, one_div_mul_cancel hN0.ne']
        rw [hc] at h1; push_cast at h1; linarith
      linarith
  have lt_le : ∀ {s u : ℝ}, s < u → η.real (Set.Iic s) ≤ η.real (Set.Iio u) := fun h => measureReal_mono fun y hy => lt_of_le_of_lt hy h
  have ltt : ∀ u, η.real (Set.Iio u) ≤ η.real (Set.Iic u) := fun u => measureReal_mono Set.Iio_subset_Iic_self
  constructor
  · rw [abs_sub_le_iff]
    constructor
    · refine up _ _ measureReal_nonneg measureReal_le_one fun k h0 hk hlt => lt_le ?_
      by_contra hc
      push Not at hc
      exact absurd ((ht k h0 hk).1.trans (Iic_mono ρ hc)) (not_le.2 hlt)
    · exact down _ _ measureReal_le_one measureReal_nonneg fun k h0 hk hlt => Iic_mono η ((ht k h0 hk).2.2 x hlt.le)
  · rw [abs_sub_le_iff]
    constructor
    · refine up _ _ measureReal_nonneg measureReal_le_one fun k h0 hk hlt => measureReal_mono (Set.Iio_subset_Iio ?_)
      by_contra hc
      push Not at hc
      refine absurd ((ht k h0 hk).1.trans (measureReal_mono fun y hy => lt_of_le_of_lt hy hc)) (not_le.2 hlt)
    · refine down _ _ measureReal_le_one measureReal_nonneg fun k h0 hk hlt => ?_
      obtain ⟨s, hs, hps⟩ := Iic_lt_of_Iio ρ hlt
      exact lt_le (lt_of_le_of_lt ((ht k h0 hk).2.2 s hps.le) hs)

/-- Closed intervals. -/
theorem interval_of_half (η : Measure ℝ) [IsProbabilityMeasure η] {ε : ℝ} (h : ∀ t, |η.real (Set.Iic t) - ρ.real (Set.Iic t)| ≤ ε ∧ |η.real (Set.Iio t) - ρ.real (Set.Iio t)| ≤ ε) (a b : ℝ) :
    |η.real (Set.Icc a b) - ρ.real (Set.Icc a b)| ≤ 2 * ε := by
  have h0 : 0 ≤ ε := (abs_nonneg _).trans (h 0).1
  rcases lt_or_ge b a with hlt | hle
  · simp [Set.Icc_eq_empty (not_le.2 hlt), h0]
  · have e : ∀ (κ : Measure ℝ) [IsProbabilityMeasure κ], κ.real (Set.Icc a b) = κ.real (Set.Iic b) - κ.real (Set.Iio a) := fun κ _ => by
      have : Set.Icc a b = Set.Iic b \ Set.Iio a := by ext x; simp [and_comm]
      rw [this, measureReal_diff (show Set.Iio a ⊆ Set.Iic b from fun x hx => (le_of_lt hx).trans hle) measurableSet_Iio]
    rw [e η, e ρ]
    have h1 := abs_le.1 (h b).1; have h2 := abs_le.1 (h a).2
    rw [abs_le]; constructor <;> linarith

end FlowMC
