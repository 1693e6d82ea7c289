import Verif.Lemmas.Ideal
import Mathlib.Analysis.SpecificLimits.Basic
/-
A sequence of accept/reject decisions about the same fixed exchange, with fresh uniform numbers each time.
-/
open MeasureTheory ProbabilityTheory
open scoped ENNReal
set_option linter.unusedSectionVars false
namespace FlowMC
open Spec

variable {Ω A W : Type} [MeasurableSpace A] [MeasurableSpace W] [mΩ : MeasurableSpace Ω] {P : Measure Ω} [IsProbabilityMeasure P]

/-- Probability that `W ∈ D` and a fresh uniform number passes the test at level `f W`. -/
theorem decide_pass {V : Ω → W} {U : Ω → ℝ} (hV : Measurable V) (hU : Measurable U) (hj : P.map (fun ω => (V ω, U ω)) = (P.map V).prod unif) {f : W → ℝ} (hf : Measurable f)
    {B : Set W} (hB : MeasurableSet B) : P {ω | V ω ∈ B ∧ Real.log (U ω) < f (V ω)} = ∫⁻ w in B, ENNReal.ofReal (min 1 (Real.exp (f w))) ∂(P.map V) := by
  have hs : MeasurableSet {p : W × ℝ | p.1 ∈ B ∧ Real.log p.2 < f p.1} :=
    (measurable_fst hB).inter (measurableSet_lt (Real.measurable_log.comp measurable_snd) (hf.comp measurable_fst))
  have e : {ω | V ω ∈ B ∧ Real.log (U ω) < f (V ω)} = (fun ω => (V ω, U ω)) ⁻¹' {p : W × ℝ | p.1 ∈ B ∧ Real.log p.2 < f p.1} := rfl
  haveI : SFinite unif := by unfold unif; infer_instance
  rw [e, ← Measure.map_apply (hV.prodMk hU) hs, hj, Measure.prod_apply hs, ← lintegral_indicator hB]
  refine lintegral_congr fun w => ?_
  by_cases hw : w ∈ B
  · simp only [Set.indicator_of_mem hw, Set.preimage_setOf_eq, hw, true_and, unif_accept]
  · simp [Set.indicator_of_notMem hw, hw]

theorem decide_fail {V : Ω → W} {U : Ω → ℝ} (hV : Measurable V) (hU : Measurable U) (hj : P.map (fun ω => (V ω, U ω)) = (P.map V).prod unif) {f : W → ℝ} (hf : Measurable f)
    {B : Set W} (hB : MeasurableSet B) : P {ω | V ω ∈ B ∧ ¬ Real.log (U ω) < f (V ω)} = ∫⁻ w in B, (1 - ENNReal.ofReal (min 1 (Real.exp (f w)))) ∂(P.map V) := by
  have hs : MeasurableSet {p : W × ℝ | p.1 ∈ B ∧ ¬ Real.log p.2 < f p.1} :=
    (measurable_fst hB).inter (measurableSet_lt (Real.measurable_log.comp measurable_snd) (hf.comp measurable_fst)).compl
  have e : {ω | V ω ∈ B ∧ ¬ Real.log (U ω) < f (V ω)} = (fun ω => (V ω, U ω)) ⁻¹' {p : W × ℝ | p.1 ∈ B ∧ ¬ Real.log p.2 < f p.1} := rfl
  haveI : SFinite unif := by unfold unif; infer_instance
  haveI : IsProbabilityMeasure unif := by constructor; simp [unif]
  rw [e, ← Measure.map_apply (hV.prodMk hU) hs, hj, Measure.prod_apply hs, ← lintegral_indicator hB]
  refine lintegral_congr fun w => ?_
  by_cases hw : w ∈ B
  · simp only [Set.indicator_of_mem hw, Set.preimage_setOf_eq, hw, true_and]
    have : {u : ℝ | ¬ Real.log u < f w} = {u : ℝ | Real.log u < f w}ᶜ := rfl
    rw [this, prob_compl_eq_one_sub (measurableSet_lt Real.measurable_log measurable_const), unif_accept]
  · simp [Set.indicator_of_notMem hw, hw]

/-- Independence of the `N`-th uniform number from the exchange and the earlier ones. -/
structure FreshTests (P : Measure Ω) (Z : Ω → A) (U : ℕ → Ω → ℝ) (G : ℕ → MeasurableSpace Ω) : Prop where
  le : ∀ N, G N ≤ mΩ
  mono : ∀ N, G N ≤ G (N + 1)
  start : Measurable[G 0] Z
  meas : ∀ N, Measurable[G (N + 1)] (U N)
  fresh : ∀ N (V : Ω → A × Bool), Measurable[G N] V → P.map (fun ω => (V ω, U N ω)) = (P.map V).prod unif
  law : ∀ N, P.map (U N) = unif

/-- Whether one of the first `N` tests passed. -/
noncomputable def passed (f : A → ℝ) (Z : Ω → A) (U : ℕ → Ω → ℝ) : ℕ → Ω → Bool
  | 0, _ => false
  | N + 1, ω => passed f Z U N ω || decide (Real.log (U N ω) < f (Z ω))

variable {Z : Ω → A} {U : ℕ → Ω → ℝ} {G : ℕ → MeasurableSpace Ω} {f : A → ℝ}

theorem FreshTests.known (h : FreshTests P Z U G) (N : ℕ) : Measurable[G N] Z := by
  induction N with
  | zero => exact h.start
  | succ N ih => exact ih.mono (h.mono N) le_rfl

theorem passed_meas (h : FreshTests P Z U G) (hf : Measurable f) (N : ℕ) : Measurable[G N] (passed f Z U N) := by
  induction N with
  | zero => exact measurable_const
  | succ N ih =>
    have h1 : Measurable[G (N + 1)] (passed f Z U N) := ih.mono (h.mono N) le_rfl
    have h2 : MeasurableSet[G (N + 1)] {ω | Real.log (U N ω) < f (Z ω)} :=
      measurableSet_lt (Real.measurable_log.comp (h.meas N)) (hf.comp (h.known (N + 1)))
    have h3 : MeasurableSet[G (N + 1)] {ω | passed f Z U N ω = true} := h1 (measurableSet_singleton true)
    refine @measurable_to_bool _ (G (N + 1)) _ ?_
    have : passed f Z U (N + 1) ⁻¹' {true} = {ω | passed f Z U N ω = true} ∪ {ω | Real.log (U N ω) < f (Z ω)} := by
      ext ω; simp [passed]
    rw [this]
    exact MeasurableSet.union h3 h2

/-- A pair that can be exchanged, and can be refused, is refused `N` times and then exchanged with positive probability. -/
theorem waits_then_passes (h : FreshTests P Z U G) (hf : Measurable f) {B : Set A} (hB : MeasurableSet B) (hneg : ∀ z ∈ B, f z < 0) (hpos : P {ω | Z ω ∈ B} ≠ 0) (N : ℕ) :
    P {ω | passed f Z U N ω = false ∧ Z ω ∈ B} ≠ 0 ∧ P {ω | (passed f Z U N ω = false ∧ Z ω ∈ B) ∧ Real.log (U N ω) < f (Z ω)} ≠ 0 := by
  have key : ∀ N, P {ω | passed f Z U N ω = false ∧ Z ω ∈ B} ≠ 0 → P {ω | (passed f Z U N ω = false ∧ Z ω ∈ B) ∧ Real.log (U N ω) < f (Z ω)} ≠ 0 ∧
      P {ω | (passed f Z U N ω = false ∧ Z ω ∈ B) ∧ ¬ Real.log (U N ω) < f (Z ω)} ≠ 0 := by
    intro N hN
    have hVG : Measurable[G N] (fun ω => (Z ω, passed f Z U N ω)) := (h.known N).prodMk (passed_meas h hf N)
    have hV : Measurable (fun ω => (Z ω, passed f Z U N ω)) := hVG.mono (h.le N) le_rfl
    have hU : Measurable (U N) := (h.meas N).mono (h.le _) le_rfl
    have hD : MeasurableSet {p : A × Bool | p.2 = false ∧ p.1 ∈ B} := (measurable_snd (measurableSet_singleton false)).inter (measurable_fst hB)
    have hg : Measurable (fun p : A × Bool => f p.1) := hf.comp measurable_fst
    have h1 := decide_pass (f := fun p : A × Bool => f p.1) hV hU (h.fresh N _ hVG) hg hD
    have h2 := decide_fail (f := fun p : A × Bool => f p.1) hV hU (h.fresh N _ hVG) hg hD
    have hm : (P.map (fun ω => (Z ω, passed f Z U N ω))) {p : A × Bool | p.2 = false ∧ p.1 ∈ B} ≠ 0 := by
      rw [Measure.map_apply hV hD]; exact hN
    have hmq : Measurable (fun w : A × Bool => ENNReal.ofReal (min 1 (Real.exp (f w.1)))) := (measurable_const.min (Real.measurable_exp.comp hg)).ennreal_ofReal
    constructor
    · refine (ne_of_eq_of_ne h1 ?_)
      rw [← pos_iff_ne_zero, setLIntegral_pos_iff hmq]
      have : Function.support (fun w : A × Bool => ENNReal.ofReal (min 1 (Real.exp (f w.1)))) = Set.univ := by
        ext w; simp [Real.exp_pos]
      rw [this, Set.univ_inter]
      exact pos_iff_ne_zero.2 hm
    · refine (ne_of_eq_of_ne h2 ?_)
      have hmr : Measurable (fun w : A × Bool => 1 - ENNReal.ofReal (min 1 (Real.exp (f w.1)))) := measurable_const.sub hmq
      rw [← pos_iff_ne_zero, setLIntegral_pos_iff hmr]
      refine lt_of_lt_of_le (pos_iff_ne_zero.2 hm) (measure_mono ?_)
      rintro ⟨z, b⟩ ⟨hb, hz⟩
      refine ⟨?_, hb, hz⟩
      simp only [Function.mem_support, ne_eq, tsub_eq_zero_iff_le, not_le]
      rw [← ENNReal.ofReal_one]
      refine (ENNReal.ofReal_lt_ofReal_iff one_pos).2 (lt_of_le_of_lt (min_le_right _ _) ?_)
      rw [← Real.exp_zero]
      exact Real.exp_lt_exp.2 (hneg z hz)
  have base : ∀ N, P {ω | passed f Z U N ω = false ∧ Z ω ∈ B} ≠ 0 := by
    intro N
    induction N with
    | zero => simpa [passed] using hpos
    | succ N ih =>
      have e : {ω | passed f Z U (N + 1) ω = false ∧ Z ω ∈ B} = {ω | (passed f Z U N ω = false ∧ Z ω ∈ B) ∧ ¬ Real.log (U N ω) < f (Z ω)} := by
        ext ω; simp only [passed, Set.mem_setOf_eq, Bool.or_eq_false_iff, decide_eq_false_iff_not]; tauto
      rw [e]
      exact (key N ih).2
  exact ⟨base N, (key N (base N)).1⟩

/-- Sooner or later every exchange passes. -/
theorem passes_eventually (h : FreshTests P Z U G) (hf : Measurable f) (ε : ℝ) (hε : 0 < ε) : ∃ N0, ∀ N, N0 ≤ N → P.real {ω | passed f Z U N ω = false} ≤ ε := by
  have hZ : Measurable Z := (h.known 0).mono (h.le 0) le_rfl
  -- the exchanges that pass with probability less than `δ` are rare
  obtain ⟨δ, hδ0, hδ1, hδ⟩ : ∃ δ : ℝ, 0 < δ ∧ δ ≤ 1 ∧ P.real {ω | Real.exp (f (Z ω)) < δ} ≤ ε / 2 := by
    have hanti : Antitone (fun n : ℕ => {ω | Real.exp (f (Z ω)) < 1 / ((n : ℝ) + 1)}) := by
      intro a b hab ω hω
      have hab' : (a : ℝ) + 1 ≤ b + 1 := by
        have : (a : ℝ) ≤ b := by exact_mod_cast hab
        linarith
      have hpos : (0 : ℝ) < (a : ℝ) + 1 := by positivity
      exact lt_of_lt_of_le hω (one_div_le_one_div_of_le hpos hab')
    have hmeas : ∀ n : ℕ, MeasurableSet {ω | Real.exp (f (Z ω)) < 1 / ((n : ℝ) + 1)} := fun n =>
      measurableSet_lt (Real.measurable_exp.comp (hf.comp hZ)) measurable_const
    have hlim := tendsto_measure_iInter_atTop (μ := P) (fun n => (hmeas n).nullMeasurableSet) hanti ⟨0, measure_ne_top _ _⟩
    have hempty : (⋂ n : ℕ, {ω | Real.exp (f (Z ω)) < 1 / ((n : ℝ) + 1)}) = ∅ := by
      ext ω
      simp only [Set.mem_iInter, Set.mem_setOf_eq, Set.mem_empty_iff_false, iff_false, not_forall, not_lt]
      obtain ⟨n, hn⟩ := exists_nat_one_div_lt (Real.exp_pos (f (Z ω)))
      exact ⟨n, hn.le⟩
    rw [hempty, measure_empty] at hlim
    have hlim' : Filter.Tendsto (fun n : ℕ => P.real {ω | Real.exp (f (Z ω)) < 1 / ((n : ℝ) + 1)}) Filter.atTop (nhds 0) := by
      have := (ENNReal.tendsto_toReal ENNReal.zero_ne_top).comp hlim
      simpa [Measure.real, Function.comp_def] using this
    obtain ⟨n, hn⟩ := (hlim'.eventually_le_const (show (0 : ℝ) < ε / 2 by linarith)).exists
    refine ⟨1 / ((n : ℝ) + 1), by positivity, ?_, hn⟩
    rw [div_le_one (by positivity)]
    have : (0 : ℝ) ≤ n := by positivity
    linarith
  have hgeo : ∀ N, P {ω | passed f Z U N ω = false ∧ δ ≤ Real.exp (f (Z ω))} ≤ ENNReal.ofReal (1 - δ) ^ N := by
    intro N
    induction N with
    | zero => simpa using prob_le_one
    | succ N ih =>
      have hVG : Measurable[G N] (fun ω => (Z ω, passed f Z U N ω)) := (h.known N).prodMk (passed_meas h hf N)
      have hV : Measurable (fun ω => (Z ω, passed f Z U N ω)) := hVG.mono (h.le N) le_rfl
      have hU : Measurable (U N) := (h.meas N).mono (h.le _) le_rfl
      have hg : Measurable (fun p : A × Bool => f p.1) := hf.comp measurable_fst
      have hD : MeasurableSet {p : A × Bool | p.2 = false ∧ δ ≤ Real.exp (f p.1)} :=
        (measurable_snd (measurableSet_singleton false)).inter (measurableSet_le measurable_const (Real.measurable_exp.comp hg))
      have h2 := decide_fail (f := fun p : A × Bool => f p.1) hV hU (h.fresh N _ hVG) hg hD
      have e : {ω | passed f Z U (N + 1) ω = false ∧ δ ≤ Real.exp (f (Z ω))} =
          {ω | (Z ω, passed f Z U N ω) ∈ {p : A × Bool | p.2 = false ∧ δ ≤ Real.exp (f p.1)} ∧ ¬ Real.log (U N ω) < f (Z ω)} := by
        ext ω; simp only [passed, Set.mem_setOf_eq, Bool.or_eq_false_iff, decide_eq_false_iff_not]; tauto
      rw [e, h2, pow_succ, mul_comm]
      refine (setLIntegral_mono (measurable_const (a := ENNReal.ofReal (1 - δ))) ?_).trans ?_
      · rintro ⟨z, b⟩ ⟨-, hz⟩
        rw [ENNReal.ofReal_sub _ hδ0.le, ENNReal.ofReal_one]
        exact tsub_le_tsub_left (ENNReal.ofReal_le_ofReal (le_min hδ1 hz)) _
      · rw [setLIntegral_const, Measure.map_apply hV hD]
        exact mul_le_mul_right ih _
  obtain ⟨N0, hN0⟩ := exists_pow_lt_of_lt_one (show (0 : ℝ) < ε / 2 by linarith) (show 1 - δ < 1 by linarith)
  refine ⟨N0, fun N hN => ?_⟩
  have hsub : {ω | passed f Z U N ω = false} ⊆ {ω | Real.exp (f (Z ω)) < δ} ∪ {ω | passed f Z U N ω = false ∧ δ ≤ Real.exp (f (Z ω))} := by
    intro ω hω
    by_cases hq : Real.exp (f (Z ω)) < δ
    · exact Or.inl hq
    · exact Or.inr ⟨hω, not_lt.1 hq⟩
  have h1 : P.real {ω | passed f Z U N ω = false ∧ δ ≤ Real.exp (f (Z ω))} ≤ (1 - δ) ^ N := by
    rw [Measure.real]
    refine ENNReal.toReal_le_of_le_ofReal (pow_nonneg (by linarith) _) ?_
    rw [ENNReal.ofReal_pow (by linarith)]
    exact hgeo N
  have h2 : (1 - δ) ^ N ≤ (1 - δ) ^ N0 := pow_le_pow_of_le_one (by linarith) (by linarith) hN
  calc P.real {ω | passed f Z U N ω = false} ≤ _ := measureReal_mono hsub
    _ ≤ _ := measureReal_union_le _ _
    _ ≤ ε / 2 + ε / 2 := add_le_add hδ (by linarith)
    _ = ε := by ring

end FlowMC
