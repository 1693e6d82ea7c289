import Verif.Lemmas.ChainAverages
import Verif.Props.AdaptiveAverages
/-
Averages over the rows of a chain that repeats loops of two kinds of steps, which depend on something known at the start (the flow): a weak law of large numbers for integrable functions.
-/
open MeasureTheory ProbabilityTheory Filter
open scoped ENNReal Topology
set_option linter.unusedSectionVars false
namespace FlowMC
open Spec

section
variable {X W V : Type} [MeasurableSpace X] [MeasurableSpace W] [MeasurableSpace V]
variable {N1 N2 : Type} [MeasurableSpace N1] [MeasurableSpace N2] {ν1 : Measure N1} [IsProbabilityMeasure ν1] {ν2 : Measure N2} [IsProbabilityMeasure ν2]
  {s1 : W → N1 → X → X} {s2 : W → N2 → X → X}

theorem stepLaw_onSndAt_fiber {N : Type} [MeasurableSpace N] {ν : Measure N} [IsProbabilityMeasure ν] {s : W → N → X → X} (hs : Measurable fun p : (W × X) × N => s p.1.1 p.2 p.1.2)
    (q : V → W) (hq : Measurable q) (E : Set V) (hE : MeasurableSet E) (ρ : Measure (V × X)) [IsFiniteMeasure ρ] :
    ((stepLaw ν (onSndAt fun v => s (q v)) ρ).restrict (Prod.fst ⁻¹' E)).map (fun p => (q p.1, p.2)) = stepLaw ν (onSndAt s) ((ρ.restrict (Prod.fst ⁻¹' E)).map fun p => (q p.1, p.2)) := by
  have hs' : Measurable fun p : (V × X) × N => s (q p.1.1) p.2 p.1.2 :=
    hs.comp ((((hq.comp measurable_fst).prodMk measurable_snd).comp measurable_fst).prodMk measurable_snd)
  have ho := onSndAt_measurable (step := fun v => s (q v)) hs'
  have ho' := onSndAt_measurable hs
  have hE' : MeasurableSet (Prod.fst ⁻¹' E : Set (V × X)) := measurable_fst hE
  have hqm : Measurable fun p : V × X => (q p.1, p.2) := (hq.comp measurable_fst).prodMk measurable_snd
  rw [stepLaw, Measure.restrict_map ho hE', Measure.map_map hqm ho]
  have e : (fun p : (V × X) × N => onSndAt (fun v => s (q v)) p.2 p.1) ⁻¹' (Prod.fst ⁻¹' E) = (Prod.fst ⁻¹' E : Set (V × X)) ×ˢ Set.univ := by
    ext p; simp [onSndAt]
  rw [e, ← Measure.prod_restrict, Measure.restrict_univ, stepLaw]
  have e2 : ((fun p : V × X => (q p.1, p.2)) ∘ fun p : (V × X) × N => onSndAt (fun v => s (q v)) p.2 p.1) = (fun p : (W × X) × N => onSndAt s p.2 p.1) ∘ Prod.map (fun p : V × X => (q p.1, p.2)) id := rfl
  rw [e2, ← Measure.map_map ho' (hqm.prodMap measurable_id), ← Measure.map_prod_map _ _ hqm measurable_id, Measure.map_id]

/-- Steps, seen on an event of the passenger, with the passenger reduced to what matters to the steps. -/
theorem histLaw_onSndAt_fiber (h1 : Measurable fun p : (W × X) × N1 => s1 p.1.1 p.2 p.1.2) (h2 : Measurable fun p : (W × X) × N2 => s2 p.1.1 p.2 p.1.2)
    (q : V → W) (hq : Measurable q) (E : Set V) (hE : MeasurableSet E) (h : List Bool) (ρ : Measure (V × X)) [IsProbabilityMeasure ρ] :
    ((histLaw (stepLaw ν1 (onSndAt fun v => s1 (q v))) (stepLaw ν2 (onSndAt fun v => s2 (q v))) h ρ).restrict (Prod.fst ⁻¹' E)).map (fun p => (q p.1, p.2)) =
      histLaw (stepLaw ν1 (onSndAt s1)) (stepLaw ν2 (onSndAt s2)) h ((ρ.restrict (Prod.fst ⁻¹' E)).map fun p => (q p.1, p.2)) := by
  have hr : ∀ {N : Type} [MeasurableSpace N], Measurable fun p : (V × X) × N => ((q p.1.1, p.1.2), p.2) := fun {N} _ =>
    (((hq.comp measurable_fst).prodMk measurable_snd).comp measurable_fst).prodMk measurable_snd
  have m1 := onSndAt_measurable (step := fun v => s1 (q v)) (h1.comp hr)
  have m2 := onSndAt_measurable (step := fun v => s2 (q v)) (h2.comp hr)
  induction h with
  | nil => rfl
  | cons b h ih =>
    haveI := histLaw_prob (ν1 := ν1) (ν2 := ν2) m1 m2 h ρ
    cases b
    · rw [histLaw, stepLaw_onSndAt_fiber h2 q hq E hE, ih]; rfl
    · rw [histLaw, stepLaw_onSndAt_fiber h1 q hq E hE, ih]; rfl

theorem onSndAt_fixed {N : Type} [MeasurableSpace N] {ν : Measure N} [IsProbabilityMeasure ν] {s : W → N → X → X} (hs : Measurable fun p : (W × X) × N => s p.1.1 p.2 p.1.2)
    (α : Measure W) [IsProbabilityMeasure α] (π : Measure X) [IsProbabilityMeasure π] (hπ : ∀ w, stepLaw ν (s w) π = π) : stepLaw ν (onSndAt s) (α.prod π) = α.prod π := by
  have ho := onSndAt_measurable hs
  refine Measure.ext fun E hE => ?_
  rw [stepLaw, Measure.map_apply ho hE, Measure.prod_apply (ho hE), Measure.prod_apply hE]
  have hin : Measurable fun p : W × X => ν (Prod.mk p ⁻¹' ((fun p : (W × X) × N => onSndAt s p.2 p.1) ⁻¹' E)) := measurable_measure_prodMk_left (ho hE)
  rw [lintegral_prod _ hin.aemeasurable]
  refine lintegral_congr fun w => ?_
  have hsw := onSndAt_section hs w
  have hEw : MeasurableSet (Prod.mk w ⁻¹' E) := measurable_prodMk_left hE
  conv_rhs => rw [← hπ w, stepLaw, Measure.map_apply hsw hEw, Measure.prod_apply (hsw hEw)]
  rfl

theorem histLaw_exact {Y : Type} [MeasurableSpace Y] {π : Measure Y} [IsProbabilityMeasure π] {Q R : Measure Y → Measure Y} (hQ : ExactMap π Q) (hR : ExactMap π R) (h : List Bool) : ExactMap π (histLaw Q R h) := by
  induction h with
  | nil => exact ExactMap.id
  | cons b h ih => cases b
                   · exact hR.comp ih
                   · exact hQ.comp ih

/-! ### a weak law of large numbers -/

variable {Ω : Type} [MeasurableSpace Ω] {P : Measure Ω} [IsProbabilityMeasure P]

/-- `Y l r` is row `r` of loop `l` of a chain whose steps depend on `A`, `St l` the state before loop `l`: everything later is distributed as if reached by fresh steps. -/
structure LoopRows (P : Measure Ω) (ν1 : Measure N1) (ν2 : Measure N2) (s1 : W → N1 → X → X) (s2 : W → N2 → X → X) (A : Ω → W) (loops pre : ℕ → List Bool) (μ : Measure (W × X)) (n Q : ℕ)
    (St : ℕ → Ω → X) (Y : ℕ → ℕ → Ω → X) : Prop where
  stMeas : ∀ l ≤ n, Measurable (St l)
  rowMeas : ∀ l < n, ∀ r < Q, Measurable (Y l r)
  st : ∀ l ≤ n, P.map (fun ω => (A ω, St l ω)) = histLaw (stepLaw ν1 (onSndAt s1)) (stepLaw ν2 (onSndAt s2)) (loops l) μ
  row : ∀ l < n, ∀ r < Q, P.map (fun ω => (A ω, Y l r ω)) = histLaw (stepLaw ν1 (onSndAt s1)) (stepLaw ν2 (onSndAt s2)) (pre r ++ loops l) μ
  fromSt : ∀ l l', l + l' < n → ∀ r < Q, P.map (fun ω => ((A ω, St l ω), Y (l + l') r ω)) =
    histLaw (stepLaw ν1 (onSndAt fun p : W × X => s1 p.1)) (stepLaw ν2 (onSndAt fun p : W × X => s2 p.1)) (pre r ++ loops l') (P.map fun ω => ((A ω, St l ω), St l ω))
  fromRow : ∀ l l', l + 1 + l' < n → ∀ r < Q, ∀ r' < Q, P.map (fun ω => ((A ω, Y l r ω), Y (l + 1 + l') r' ω)) =
    histLaw (stepLaw ν1 (onSndAt fun p : W × X => s1 p.1)) (stepLaw ν2 (onSndAt fun p : W × X => s2 p.1)) (pre r' ++ loops l') (P.map fun ω => ((A ω, Y l r ω), St (l + 1) ω))

/-- Whatever the parameters and the start, the chain approaches `π`. -/
def LoopsNear (ν1 : Measure N1) (ν2 : Measure N2) (s1 : W → N1 → X → X) (s2 : W → N2 → X → X) (loops : ℕ → List Bool) (π : Measure X) : Prop :=
  ∀ (w : W) (x : X) (ε : ℝ), 0 < ε → ∃ N, ∀ l, N ≤ l → ∀ pre, Near (histLaw (stepLaw ν1 (s1 w)) (stepLaw ν2 (s2 w)) (pre ++ loops l) (Measure.dirac x)) π ε

variable {loops pre : ℕ → List Bool} {A : Ω → W} {μ : Measure (W × X)} [IsProbabilityMeasure μ] {π : Measure X} [IsProbabilityMeasure π] {Q : ℕ}

/-- Rows of later loops forget rows of earlier ones. -/
theorem loop_cor (h1 : Measurable fun p : (W × X) × N1 => s1 p.1.1 p.2 p.1.2) (h2 : Measurable fun p : (W × X) × N2 => s2 p.1.1 p.2 p.1.2) (hA : Measurable A) (near : LoopsNear ν1 ν2 s1 s2 loops π)
    {f : X → ℝ} (hf : Measurable f) {B : ℝ} (hB0 : 0 < B) (hB : ∀ x, |f x| ≤ B) (hf0 : ∫ x, f x ∂π = 0) {η : ℝ} (hη : 0 < η) :
    ∃ N, ∀ n St Y, LoopRows P ν1 ν2 s1 s2 A loops pre μ n Q St Y → ∀ l l', N ≤ l → l + N < l' → l' < n → ∀ r < Q, ∀ r' < Q, ∫ ω, f (Y l r ω) * f (Y l' r' ω) ∂P ≤ η := by
  set m : List Bool → W × X → ℝ := fun h p => histMean (stepMean ν1 (s1 p.1)) (stepMean ν2 (s2 p.1)) h f p.2 with hm
  have mm : ∀ h, Measurable (m h) := fun h => histMean_at_measurable h1 h2 h hf
  have mb : ∀ h p, |m h p| ≤ B := fun h p => histMean_bdd h hB p.2
  set Dev : ℕ → W × X → ℝ := fun l p => ∑ r ∈ Finset.range Q, |m (pre r ++ loops l) p| with hDev
  have Dm : ∀ l, Measurable (Dev l) := fun l => Finset.measurable_sum _ fun r _ => (mm _).abs
  have D0 : ∀ l p, 0 ≤ Dev l p := fun l p => Finset.sum_nonneg fun r _ => abs_nonneg _
  have Db : ∀ l p, |Dev l p| ≤ Q * B + 1 := fun l p => by
    rw [abs_of_nonneg (D0 l p)]
    calc Dev l p ≤ ∑ r ∈ Finset.range Q, B := Finset.sum_le_sum fun r _ => mb _ _
      _ = Q * B := by simp
      _ ≤ _ := by linarith
  have Dlim : ∀ p, Tendsto (fun l => Dev l p) atTop (𝓝 0) := by
    intro p
    have : Tendsto (fun l => ∑ r ∈ Finset.range Q, |m (pre r ++ loops l) p|) atTop (𝓝 (∑ r ∈ Finset.range Q, 0)) := by
      refine tendsto_finset_sum _ fun r _ => ?_
      rw [Metric.tendsto_atTop]
      intro ε hε
      obtain ⟨N, hN⟩ := near p.1 p.2 (ε / (4 * B)) (by positivity)
      refine ⟨N, fun l hl => ?_⟩
      have hn := hN l hl (pre r)
      haveI := histLaw_prob (ν1 := ν1) (ν2 := ν2) (onSndAt_section h1 p.1) (onSndAt_section h2 p.1) (pre r ++ loops l) (Measure.dirac p.2)
      have := integral_near hn hf hB
      rw [hf0, sub_zero] at this
      rw [Real.dist_eq, sub_zero, abs_abs]
      simp only [hm]
      rw [histMean_eq (onSndAt_section h1 p.1) (onSndAt_section h2 p.1) _ hf hB]
      refine lt_of_le_of_lt this ?_
      have : 2 * B * (ε / (4 * B)) = ε / 2 := by field_simp; ring
      rw [this]; linarith
    simpa using this
  obtain ⟨N, hN⟩ := dev_small (ν1 := ν1) (ν2 := ν2) h1 h2 μ π loops
    (fun w x ε hε => by obtain ⟨N, hN⟩ := near w x ε hε; exact ⟨N, fun l hl => hN l hl []⟩) Dev Dm (Q * B + 1) (by positivity) Db Dlim (η / B) (by positivity)
  refine ⟨N, fun n St Y hY l l' hl hll hl' r hr r' hr' => ?_⟩
  obtain ⟨l'', rfl⟩ : ∃ l'', l' = l + 1 + l'' := ⟨l' - (l + 1), by omega⟩
  have hYl := hY.rowMeas l (by omega) r hr
  have hYl' := hY.rowMeas _ hl' r' hr'
  have hSt := hY.stMeas (l + 1) (by omega)
  have hJm : Measurable fun ω => ((A ω, Y l r ω), St (l + 1) ω) := (hA.prodMk hYl).prodMk hSt
  set J := P.map (fun ω => ((A ω, Y l r ω), St (l + 1) ω)) with hJ
  haveI : IsProbabilityMeasure J := Measure.isProbabilityMeasure_map hJm.aemeasurable
  have pm : Measurable fun p : (W × X) × X => (p.1.1, p.2) := (measurable_fst.comp measurable_fst).prodMk measurable_snd
  have hJs : J.map (fun p => (p.1.1, p.2)) = histLaw (stepLaw ν1 (onSndAt s1)) (stepLaw ν2 (onSndAt s2)) (loops (l + 1)) μ := by
    rw [hJ, Measure.map_map pm hJm, ← hY.st (l + 1) (by omega)]; rfl
  have hm2 : Measurable (fun ω => ((A ω, Y l r ω), Y (l + 1 + l'') r' ω)) := (hA.prodMk hYl).prodMk hYl'
  have e : ∫ ω, f (Y l r ω) * f (Y (l + 1 + l'') r' ω) ∂P = ∫ p, f p.1.2 * f p.2 ∂(P.map fun ω => ((A ω, Y l r ω), Y (l + 1 + l'') r' ω)) := by
    rw [integral_map hm2.aemeasurable]
    exact ((hf.comp (measurable_snd.comp measurable_fst)).mul (hf.comp measurable_snd)).aestronglyMeasurable
  have hr1 : ∀ {N : Type} [MeasurableSpace N], Measurable fun p : ((W × X) × X) × N => ((p.1.1.1, p.1.2), p.2) := fun {N} _ => (pm.comp measurable_fst).prodMk measurable_snd
  rw [e, hY.fromRow l l'' hl' r hr r' hr', integral_onSndAt (s1 := fun p : W × X => s1 p.1) (s2 := fun p : W × X => s2 p.1) (h1.comp hr1) (h2.comp hr1) _ (g := fun p : W × X => f p.2) (hf.comp measurable_snd)
    (fun p => hB p.2) hf hB]
  have small := hN (l + 1) (by omega) l'' (by omega)
  rw [← hJs, integral_map pm.aemeasurable (Dm l'').aestronglyMeasurable] at small
  have e3 : |∫ p, f p.1.2 * m (pre r' ++ loops l'') (p.1.1, p.2) ∂J| ≤ B * ∫ p, Dev l'' (p.1.1, p.2) ∂J := by
    rw [← integral_const_mul]
    refine (abs_integral_le_integral_abs).trans ?_
    refine integral_mono_of_nonneg (ae_of_all _ fun p => abs_nonneg _) ?_ (ae_of_all _ fun p => ?_)
    · exact (integrable_bdd ((Dm l'').comp pm) (fun p => Db l'' (p.1.1, p.2))).const_mul B
    · simp only [abs_mul]
      refine mul_le_mul (hB _) ?_ (abs_nonneg _) hB0.le
      exact Finset.single_le_sum (f := fun r => |m (pre r ++ loops l'') (p.1.1, p.2)|) (fun r _ => abs_nonneg _) (Finset.mem_range.2 hr')
  refine (le_abs_self _).trans (e3.trans ?_)
  calc B * ∫ p, Dev l'' (p.1.1, p.2) ∂J ≤ B * (η / B) := mul_le_mul_of_nonneg_left small hB0.le
    _ = η := by field_simp

/-- Averages of a bounded function. -/
theorem loop_lln_bdd (h1 : Measurable fun p : (W × X) × N1 => s1 p.1.1 p.2 p.1.2) (h2 : Measurable fun p : (W × X) × N2 => s2 p.1.1 p.2 p.1.2) (hA : Measurable A) (near : LoopsNear ν1 ν2 s1 s2 loops π)
    (hQ : 0 < Q) {f : X → ℝ} (hf : Measurable f) {B : ℝ} (hB : ∀ x, |f x| ≤ B) {δ ε : ℝ} (hδ : 0 < δ) (hε : 0 < ε) :
    ∃ L, ∀ n, L ≤ n → ∀ St Y, LoopRows P ν1 ν2 s1 s2 A loops pre μ n Q St Y →
      P.real {ω | δ < |(∑ l ∈ Finset.range n, ∑ r ∈ Finset.range Q, f (Y l r ω)) / (n * Q : ℝ) - ∫ x, f x ∂π|} ≤ ε := by
  set a := ∫ x, f x ∂π with ha
  have hab : |a| ≤ B := abs_integral_bdd hB
  have hB' : 0 ≤ B := le_trans (abs_nonneg _) hab
  set g : X → ℝ := fun x => f x - a with hg
  have hgm : Measurable g := hf.sub_const a
  set C := 2 * B + 1 with hC
  have hC0 : 0 < C := by positivity
  have hgB : ∀ x, |g x| ≤ C := fun x => (abs_sub _ _).trans (by have := hB x; linarith)
  have hg0 : ∫ x, g x ∂π = 0 := by
    rw [hg, integral_sub (integrable_bdd hf hB) (integrable_const _)]
    simp [ha]
  have hη : 0 < ε * δ ^ 2 / 2 := by positivity
  have hQp : (0 : ℝ) < Q := by exact_mod_cast hQ
  obtain ⟨K, hK⟩ := loop_cor (P := P) (pre := pre) (μ := μ) (Q := Q) h1 h2 hA near hgm hC0 hgB hg0 hη
  obtain ⟨L, hL⟩ := exists_nat_ge ((4 * K + 1) * C ^ 2 / (ε * δ ^ 2 / 2))
  refine ⟨max L 1, fun n hn St Y hY => ?_⟩
  have hn1 : 1 ≤ n := le_trans (le_max_right _ _) hn
  have hnp : (0 : ℝ) < n := by exact_mod_cast hn1
  set U : ℕ → Ω → ℝ := fun l ω => ∑ r ∈ Finset.range Q, g (Y l r ω) with hU
  have Um : ∀ l < n, Measurable (U l) := fun l hl => Finset.measurable_sum _ fun r hr => hgm.comp (hY.rowMeas l hl r (Finset.mem_range.1 hr))
  have Ub : ∀ l < n, ∀ ω, |U l ω| ≤ Q * C := fun l hl ω => by
    calc |U l ω| ≤ ∑ r ∈ Finset.range Q, |g (Y l r ω)| := Finset.abs_sum_le_sum_abs _ _
      _ ≤ ∑ r ∈ Finset.range Q, C := Finset.sum_le_sum fun r _ => hgB _
      _ = Q * C := by simp
  have ii : ∀ l < n, ∀ l' < n, ∀ r < Q, ∀ r' < Q, Integrable (fun ω => g (Y l r ω) * g (Y l' r' ω)) P := by
    intro l hl l' hl' r hr r' hr'
    refine integrable_bdd ((hgm.comp (hY.rowMeas l hl r hr)).mul (hgm.comp (hY.rowMeas l' hl' r' hr'))) (B := C * C) fun ω => ?_
    simp only [Pi.mul_apply, Function.comp, abs_mul]
    exact mul_le_mul (hgB _) (hgB _) (abs_nonneg _) hC0.le
  have corU : ∀ l l', K ≤ l → l + K < l' → l' < n → ∫ ω, U l ω * U l' ω ∂P ≤ Q ^ 2 * (ε * δ ^ 2 / 2) := by
    intro l l' hl hll hl'
    have e : ∀ ω, U l ω * U l' ω = ∑ r ∈ Finset.range Q, ∑ r' ∈ Finset.range Q, g (Y l r ω) * g (Y l' r' ω) := fun ω => by simp only [hU]; rw [Finset.sum_mul_sum]
    simp only [e]
    rw [integral_finset_sum _ fun r hr => integrable_finset_sum _ fun r' hr' => ii l (by omega) l' hl' r (Finset.mem_range.1 hr) r' (Finset.mem_range.1 hr')]
    calc _ ≤ ∑ r ∈ Finset.range Q, ∑ r' ∈ Finset.range Q, ε * δ ^ 2 / 2 := by
          refine Finset.sum_le_sum fun r hr => ?_
          rw [integral_finset_sum _ fun r' hr' => ii l (by omega) l' hl' r (Finset.mem_range.1 hr) r' (Finset.mem_range.1 hr')]
          exact Finset.sum_le_sum fun r' hr' => hK n St Y hY l l' hl hll hl' r (Finset.mem_range.1 hr) r' (Finset.mem_range.1 hr')
      _ = _ := by simp; ring
  have sm := second_moment (P := P) U n Um Ub (by positivity : 0 ≤ Q ^ 2 * (ε * δ ^ 2 / 2)) K corU
  have hZm : Measurable fun ω => (∑ l ∈ Finset.range n, U l ω) / (n * Q : ℝ) := (Finset.measurable_sum _ fun l hl => Um l (Finset.mem_range.1 hl)).div_const _
  have hZb : ∀ ω, |(∑ l ∈ Finset.range n, U l ω) / (n * Q : ℝ)| ≤ C := fun ω => by
    rw [abs_div, abs_of_pos (by positivity : (0 : ℝ) < n * Q), div_le_iff₀ (by positivity)]
    refine (Finset.abs_sum_le_sum_abs _ _).trans ((Finset.sum_le_sum fun l hl => Ub l (Finset.mem_range.1 hl) ω).trans (le_of_eq ?_))
    simp; ring
  have hv : ∫ ω, ((∑ l ∈ Finset.range n, U l ω) / (n * Q : ℝ)) ^ 2 ∂P ≤ ε * δ ^ 2 := by
    simp only [div_pow]
    rw [integral_div, div_le_iff₀ (by positivity)]
    refine sm.trans ?_
    have hbig : (4 * K + 1) * C ^ 2 ≤ ε * δ ^ 2 / 2 * n := by
      have h1 : ((4 * K + 1) * C ^ 2 / (ε * δ ^ 2 / 2)) ≤ n := hL.trans (by exact_mod_cast le_trans (le_max_left _ _) hn)
      rw [div_le_iff₀ hη] at h1
      linarith
    have h5 := mul_le_mul_of_nonneg_right hbig (by positivity : (0 : ℝ) ≤ n * Q ^ 2)
    calc _ = (n : ℝ) ^ 2 * (Q ^ 2 * (ε * δ ^ 2 / 2)) + (4 * K + 1) * C ^ 2 * (n * Q ^ 2) := by ring
      _ ≤ (n : ℝ) ^ 2 * (Q ^ 2 * (ε * δ ^ 2 / 2)) + ε * δ ^ 2 / 2 * n * (n * Q ^ 2) := add_le_add le_rfl h5
      _ = _ := by ring
  have := chebyshev_mean (P := P) _ hZm hZb hδ hv
  refine le_trans (le_of_eq ?_) (this.trans (le_of_eq (by field_simp)))
  congr 1
  ext ω
  have e : (∑ l ∈ Finset.range n, ∑ r ∈ Finset.range Q, f (Y l r ω)) / (n * Q : ℝ) - a = (∑ l ∈ Finset.range n, U l ω) / (n * Q : ℝ) := by
    simp only [hU, hg, Finset.sum_sub_distrib, Finset.sum_const, Finset.card_range, nsmul_eq_mul]
    field_simp
  simp only [Set.mem_setOf_eq, e]

/-- From some loop on, rows are dominated by twice the target, on an event of high probability. -/
theorem LoopRows.dominated (h1 : Measurable fun p : (W × X) × N1 => s1 p.1.1 p.2 p.1.2) (h2 : Measurable fun p : (W × X) × N2 => s2 p.1.1 p.2 p.1.2) (hA : Measurable A)
    (i1 : ∀ w, stepLaw ν1 (s1 w) π = π) (i2 : ∀ w, stepLaw ν2 (s2 w) π = π) {n : ℕ} {St : ℕ → Ω → X} {Y : ℕ → ℕ → Ω → X} (hY : LoopRows P ν1 ν2 s1 s2 A loops pre μ n Q St Y) {N : ℕ} (hN : N ≤ n)
    {E : Set (W × X)} (hE : MeasurableSet E) (hd : (P.map fun ω => (A ω, St N ω)).restrict E ≤ (2 : ℝ≥0∞) • (P.map A).prod π) (l : ℕ) (hNl : N ≤ l) (hl : l < n) (r : ℕ) (hr : r < Q) :
    (P.restrict {ω | (A ω, St N ω) ∈ E}).map (Y l r) ≤ (2 : ℝ≥0∞) • π := by
  haveI : IsProbabilityMeasure (P.map A) := Measure.isProbabilityMeasure_map hA.aemeasurable
  obtain ⟨l', rfl⟩ := Nat.exists_eq_add_of_le hNl
  have hSt := hY.stMeas N hN
  have hYm := hY.rowMeas _ hl r hr
  have hAS : Measurable fun ω => (A ω, St N ω) := hA.prodMk hSt
  have hE' : MeasurableSet (Prod.fst ⁻¹' E : Set ((W × X) × X)) := measurable_fst hE
  have pm : Measurable fun p : (W × X) × X => (p.1.1, p.2) := (measurable_fst.comp measurable_fst).prodMk measurable_snd
  have hp1 : Measurable fun ω => ((A ω, St N ω), Y (N + l') r ω) := hAS.prodMk hYm
  have hp2 : Measurable fun ω => ((A ω, St N ω), St N ω) := hAS.prodMk hSt
  haveI : IsProbabilityMeasure (P.map fun ω => ((A ω, St N ω), St N ω)) := Measure.isProbabilityMeasure_map hp2.aemeasurable
  have e1 : (P.restrict {ω | (A ω, St N ω) ∈ E}).map (Y (N + l') r) =
      ((((P.map fun ω => ((A ω, St N ω), Y (N + l') r ω)).restrict (Prod.fst ⁻¹' E)).map fun p => (p.1.1, p.2))).map Prod.snd := by
    rw [Measure.restrict_map hp1 hE', Measure.map_map pm hp1, Measure.map_map measurable_snd (pm.comp hp1)]; rfl
  rw [e1, hY.fromSt N l' hl r hr, histLaw_onSndAt_fiber (V := W × X) h1 h2 (fun p => p.1) measurable_fst E hE]
  have ex := histLaw_exact (stepLaw_exact ν1 (onSndAt s1) (onSndAt_measurable h1) (onSndAt_fixed h1 (P.map A) π i1)) (stepLaw_exact ν2 (onSndAt s2) (onSndAt_measurable h2) (onSndAt_fixed h2 (P.map A) π i2))
    (pre r ++ loops l')
  have b := ex.bound 2 (((P.map fun ω => ((A ω, St N ω), St N ω)).restrict (Prod.fst ⁻¹' E)).map fun p => (p.1.1, p.2)) inferInstance (le_trans (le_of_eq ?_) hd)
  · refine (Measure.map_mono b measurable_snd).trans (le_of_eq ?_)
    rw [Measure.map_smul, Measure.map_snd_prod, measure_univ, one_smul]
  · rw [Measure.restrict_map hp2 hE', Measure.map_map pm hp2, Measure.restrict_map hAS hE]; rfl

/-- Averages of an integrable function. -/
theorem loop_lln (h1 : Measurable fun p : (W × X) × N1 => s1 p.1.1 p.2 p.1.2) (h2 : Measurable fun p : (W × X) × N2 => s2 p.1.1 p.2 p.1.2) (hA : Measurable A) (near : LoopsNear ν1 ν2 s1 s2 loops π)
    (i1 : ∀ w, stepLaw ν1 (s1 w) π = π) (i2 : ∀ w, stepLaw ν2 (s2 w) π = π) (hμA : μ.map Prod.fst = P.map A)
    (hQ : 0 < Q) {f : X → ℝ} (hf : Measurable f) (hi : Integrable f π) {δ ε : ℝ} (hδ : 0 < δ) (hε : 0 < ε) :
    ∃ L, ∀ n, L ≤ n → ∀ St Y, LoopRows P ν1 ν2 s1 s2 A loops pre μ n Q St Y →
      P.real {ω | δ < |(∑ l ∈ Finset.range n, ∑ r ∈ Finset.range Q, f (Y l r ω)) / (n * Q : ℝ) - ∫ x, f x ∂π|} ≤ ε := by
  have m1 := onSndAt_measurable h1
  have m2 := onSndAt_measurable h2
  haveI : IsProbabilityMeasure (P.map A) := Measure.isProbabilityMeasure_map hA.aemeasurable
  -- split at a level
  set τ := min (δ / 3) (ε * δ / 48) with hτ
  have hτ0 : 0 < τ := lt_min (by positivity) (by positivity)
  obtain ⟨B, hB0, hB⟩ := tail_integral hf hi hτ0
  set f1 : X → ℝ := fun x => if |f x| ≤ B then f x else 0 with hf1
  set g : X → ℝ := fun x => if |f x| ≤ B then 0 else |f x| with hg
  have hset : MeasurableSet {x | |f x| ≤ B} := measurableSet_le hf.abs measurable_const
  have hf1m : Measurable f1 := Measurable.ite hset hf measurable_const
  have hgm : Measurable g := Measurable.ite hset measurable_const hf.abs
  have hf1b : ∀ x, |f1 x| ≤ B := fun x => by
    simp only [hf1]; split_ifs with h
    · exact h
    · simpa using hB0
  have hg0 : ∀ x, 0 ≤ g x := fun x => by
    simp only [hg]; split_ifs
    · exact le_rfl
    · exact abs_nonneg _
  have hfg : ∀ x, |f x - f1 x| = g x := fun x => by
    simp only [hf1, hg]; split_ifs <;> simp
  have hgi : Integrable g π := by
    refine hi.abs.mono' hgm.aestronglyMeasurable (ae_of_all _ fun x => ?_)
    rw [Real.norm_eq_abs, abs_of_nonneg (hg0 x)]
    simp only [hg]; split_ifs
    · exact abs_nonneg _
    · exact le_rfl
  have hmeans : |∫ x, f x ∂π - ∫ x, f1 x ∂π| ≤ δ / 3 := by
    rw [← integral_sub hi (integrable_bdd hf1m hf1b)]
    refine (abs_integral_le_integral_abs).trans ?_
    simp only [hfg]
    exact hB.trans (min_le_left _ _)
  have hδ3 : 0 < δ / 3 := by positivity
  obtain ⟨L1, hL1⟩ := loop_lln_bdd (P := P) (pre := pre) (μ := μ) h1 h2 hA near hQ hf1m hf1b hδ3 (ε := ε / 2) (by positivity)
  -- the tail
  have hε32 : 0 < ε / 64 := by positivity
  choose Np hNp using fun p : W × X => near p.1 p.2 (ε / 64) hε32
  obtain ⟨i0, hi0⟩ := mean_near_of_pointwise' (P := μ) Np hε32
  have hnear : Near (histLaw (stepLaw ν1 (onSndAt s1)) (stepLaw ν2 (onSndAt s2)) (loops i0) μ) ((P.map A).prod π) (ε / 32) := by
    intro E hE
    obtain ⟨p1, p2⟩ := prob_onSndAt (ν1 := ν1) (ν2 := ν2) h1 h2 (loops i0) μ E hE
    have sec : Measurable fun w => π.real {y | (w, y) ∈ E} := (measurable_measure_prodMk_left hE).ennreal_toReal
    have e : ((P.map A).prod π).real E = ∫ p, π.real {y | (p.1, y) ∈ E} ∂μ := by
      rw [← hμA, measureReal_def, Measure.prod_apply hE]
      have e2 := integral_map (μ := μ) (φ := Prod.fst) measurable_fst.aemeasurable (f := fun w => π.real {y | (w, y) ∈ E}) sec.aestronglyMeasurable
      rw [← e2]
      exact (integral_toReal (measurable_measure_prodMk_left hE).aemeasurable (ae_of_all _ fun a => measure_lt_top _ _)).symm
    rw [p2, e]
    refine (hi0 _ _ p1 (sec.comp measurable_fst) (fun p => ?_) (fun p => ⟨measureReal_nonneg, measureReal_le_one⟩) (fun p hp => ?_)).trans (le_of_eq (by ring))
    · haveI := histLaw_prob (ν1 := ν1) (ν2 := ν2) (onSndAt_section h1 p.1) (onSndAt_section h2 p.1) (loops i0) (Measure.dirac p.2)
      exact ⟨measureReal_nonneg, measureReal_le_one⟩
    · exact hNp p i0 hp [] _ (measurable_prodMk_left hE)
  haveI := histLaw_prob (ν1 := ν1) (ν2 := ν2) m1 m2 (loops i0) μ
  obtain ⟨E, hE, hE1, hE2⟩ := half_dominated hnear
  have hη : 0 < ε / (16 * (i0 * Q + 1)) := by positivity
  have tight : ∀ l r, ∃ K : ℝ, 0 ≤ K ∧ (histLaw (stepLaw ν1 (onSndAt s1)) (stepLaw ν2 (onSndAt s2)) (pre r ++ loops l) μ).real {p | K < g p.2} ≤ ε / (16 * (i0 * Q + 1)) := fun l r => by
    haveI := histLaw_prob (ν1 := ν1) (ν2 := ν2) m1 m2 (pre r ++ loops l) μ
    exact tight_real _ (hgm.comp measurable_snd) hη
  choose Kf hK0 hK1 using tight
  set K := ∑ l ∈ Finset.range i0, ∑ r ∈ Finset.range Q, Kf l r with hK
  have hKle : ∀ l < i0, ∀ r < Q, Kf l r ≤ K := fun l hl r hr =>
    (Finset.single_le_sum (f := fun r => Kf l r) (fun r _ => hK0 l r) (Finset.mem_range.2 hr)).trans
      (Finset.single_le_sum (f := fun l => ∑ r ∈ Finset.range Q, Kf l r) (fun l _ => Finset.sum_nonneg fun r _ => hK0 l r) (Finset.mem_range.2 hl))
  have hK00 : 0 ≤ K := Finset.sum_nonneg fun l _ => Finset.sum_nonneg fun r _ => hK0 l r
  obtain ⟨L2, hL2⟩ := exists_nat_ge (i0 * K / (δ / 6))
  refine ⟨max (max L1 L2) (i0 + 1), fun n hn St Y hY => ?_⟩
  have hn0 : i0 + 1 ≤ n := le_trans (le_max_right _ _) hn
  have hn1 : 0 < n := by omega
  have hnp : (0 : ℝ) < n := by exact_mod_cast hn1
  have hQp : (0 : ℝ) < Q := by exact_mod_cast hQ
  have b1 := hL1 n (le_trans (le_trans (le_max_left _ _) (le_max_left _ _)) hn) St Y hY
  have hAS : Measurable fun ω => (A ω, St i0 ω) := hA.prodMk (hY.stMeas i0 (by omega))
  rw [← hY.st i0 (by omega)] at hE1 hE2
  have hEc : P.real {ω | (A ω, St i0 ω) ∈ E}ᶜ ≤ ε / 16 := by
    rw [map_measureReal_apply hAS hE.compl] at hE1
    exact hE1.trans (le_of_eq (by ring))
  have early : ∀ l < n, l < i0 → ∀ r < Q, P.real {ω | K < g (Y l r ω)} ≤ ε / (16 * (i0 * Q + 1)) := fun l hl hil r hr => by
    have h3 := hK1 l r
    rw [← hY.row l hl r hr, map_measureReal_apply (hA.prodMk (hY.rowMeas l hl r hr)) (show MeasurableSet {p : W × X | Kf l r < g p.2} from measurableSet_lt measurable_const (hgm.comp measurable_snd))] at h3
    refine le_trans (measureReal_mono fun ω hω => ?_) h3
    exact lt_of_le_of_lt (hKle l hil r hr) hω
  have hlarge : (i0 : ℝ) * K / n ≤ δ / 3 / 2 := by
    have h2 : (L2 : ℝ) ≤ n := by exact_mod_cast le_trans (le_trans (le_max_right _ _) (le_max_left _ _)) hn
    have h3 := hL2.trans h2
    rw [div_le_iff₀ (by positivity)] at h3
    rw [div_le_iff₀ hnp]
    linarith
  have b2 := tail_average (P := P) π g hgm hg0 hgi n Q hn1 hQ Y hY.rowMeas i0 _ (hAS hE) (fun l hl hil r hr => hY.dominated h1 h2 hA i1 i2 (by omega) hE hE2 l hil hl r hr) K hK00 _ hη.le early (δ / 3) hδ3 hlarge
  have e1 : (i0 : ℝ) * Q * (ε / (16 * (i0 * Q + 1))) ≤ ε / 16 := by
    have h0 : (0 : ℝ) ≤ i0 * Q := by positivity
    have : (i0 : ℝ) * Q * (ε / (16 * (i0 * Q + 1))) = (i0 * Q / (i0 * Q + 1)) * (ε / 16) := by field_simp
    rw [this]
    have h4 : (i0 * Q : ℝ) / (i0 * Q + 1) ≤ 1 := by rw [div_le_one (by positivity)]; linarith
    calc _ ≤ 1 * (ε / 16) := mul_le_mul_of_nonneg_right h4 (by positivity)
      _ = _ := one_mul _
  have e2 : 4 * (∫ x, g x ∂π) / (δ / 3) ≤ ε / 4 := by
    have : (∫ x, g x ∂π) ≤ ε * δ / 48 := hB.trans (min_le_right _ _)
    rw [div_le_iff₀ hδ3]
    linarith
  have b3 : P.real {ω | δ / 3 < (∑ l ∈ Finset.range n, ∑ r ∈ Finset.range Q, g (Y l r ω)) / (n * Q : ℝ)} ≤ ε / 2 := by
    have hEc' : P.real ((fun ω => (A ω, St i0 ω)) ⁻¹' E)ᶜ ≤ ε / 16 := hEc
    linarith
  refine le_trans (measureReal_mono (s₂ := {ω | δ / 3 < |(∑ l ∈ Finset.range n, ∑ r ∈ Finset.range Q, f1 (Y l r ω)) / (n * Q : ℝ) - ∫ x, f1 x ∂π|} ∪
    {ω | δ / 3 < (∑ l ∈ Finset.range n, ∑ r ∈ Finset.range Q, g (Y l r ω)) / (n * Q : ℝ)}) fun ω hω => ?_) ((measureReal_union_le _ _).trans (by linarith))
  by_contra hne
  simp only [Set.mem_union, Set.mem_setOf_eq, not_or, not_lt] at hne
  obtain ⟨n1, n2⟩ := hne
  have hω' : δ < |(∑ l ∈ Finset.range n, ∑ r ∈ Finset.range Q, f (Y l r ω)) / (n * Q : ℝ) - ∫ x, f x ∂π| := hω
  have hnQ : (0 : ℝ) < n * Q := by positivity
  have n3 : |(∑ l ∈ Finset.range n, ∑ r ∈ Finset.range Q, f (Y l r ω)) / (n * Q : ℝ) - (∑ l ∈ Finset.range n, ∑ r ∈ Finset.range Q, f1 (Y l r ω)) / (n * Q : ℝ)| ≤
      (∑ l ∈ Finset.range n, ∑ r ∈ Finset.range Q, g (Y l r ω)) / (n * Q : ℝ) := by
    rw [← sub_div, ← Finset.sum_sub_distrib, abs_div, abs_of_pos hnQ]
    refine div_le_div_of_nonneg_right ((Finset.abs_sum_le_sum_abs _ _).trans (Finset.sum_le_sum fun l _ => ?_)) hnQ.le
    rw [← Finset.sum_sub_distrib]
    exact (Finset.abs_sum_le_sum_abs _ _).trans (Finset.sum_le_sum fun r _ => (hfg _).le)
  have := abs_sub_le ((∑ l ∈ Finset.range n, ∑ r ∈ Finset.range Q, f (Y l r ω)) / (n * Q : ℝ)) ((∑ l ∈ Finset.range n, ∑ r ∈ Finset.range Q, f1 (Y l r ω)) / (n * Q : ℝ)) (∫ x, f x ∂π)
  have := abs_sub_le ((∑ l ∈ Finset.range n, ∑ r ∈ Finset.range Q, f1 (Y l r ω)) / (n * Q : ℝ)) (∫ x, f1 x ∂π) (∫ x, f x ∂π)
  rw [abs_sub_comm] at hmeans
  linarith

end
end FlowMC
