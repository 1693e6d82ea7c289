import Verif.Lemmas.LoopAverages
import Verif.Lemmas.ErrorBars
/-
Bias and mean square error of averages over the rows of chains whose loops contract, and of averages over several chains.
-/
open MeasureTheory ProbabilityTheory Filter
open scoped ENNReal Topology
set_option linter.unusedSectionVars false
namespace FlowMC
open Spec

variable {X W : Type} [MeasurableSpace X] [MeasurableSpace W]
variable {N1 N2 : Type} [MeasurableSpace N1] [MeasurableSpace N2] {ν1 : Measure N1} [IsProbabilityMeasure ν1] {ν2 : Measure N2} [IsProbabilityMeasure ν2]
  {s1 : W → N1 → X → X} {s2 : W → N2 → X → X}
variable {Ω : Type} [MeasurableSpace Ω] {P : Measure Ω} [IsProbabilityMeasure P]

/-- Whatever the parameters and the start, every loop shrinks the distance to `π` by the factor `ρ`. -/
def LoopsRate (ν1 : Measure N1) (ν2 : Measure N2) (s1 : W → N1 → X → X) (s2 : W → N2 → X → X) (loops : ℕ → List Bool) (π : Measure X) (ρ : ℝ) : Prop :=
  ∀ (w : W) (x : X) (l : ℕ) (pre : List Bool), Near (histLaw (stepLaw ν1 (s1 w)) (stepLaw ν2 (s2 w)) (pre ++ loops l) (Measure.dirac x)) π (ρ ^ l)

/-- Mean of the average over `n` loops of `Q` rows, with parameters `w` and start `x`. -/
noncomputable def loopMean (ν1 : Measure N1) (ν2 : Measure N2) (s1 : W → N1 → X → X) (s2 : W → N2 → X → X) (loops pre : ℕ → List Bool) (n Q : ℕ) (f : X → ℝ) (w : W) (x : X) : ℝ :=
  (∑ l ∈ Finset.range n, ∑ r ∈ Finset.range Q, histMean (stepMean ν1 (s1 w)) (stepMean ν2 (s2 w)) (pre r ++ loops l) f x) / (n * Q : ℝ)

variable {loops pre : ℕ → List Bool} {A : Ω → W} {X0 : Ω → X} {π : Measure X} [IsProbabilityMeasure π] {Q n : ℕ} {ρ : ℝ}

theorem rate_mean (h1 : Measurable fun p : (W × X) × N1 => s1 p.1.1 p.2 p.1.2) (h2 : Measurable fun p : (W × X) × N2 => s2 p.1.1 p.2 p.1.2) (hr : LoopsRate ν1 ν2 s1 s2 loops π ρ)
    {f : X → ℝ} (hf : Measurable f) {B : ℝ} (hB : ∀ x, |f x| ≤ B) (hf0 : ∫ x, f x ∂π = 0) (w : W) (x : X) (l : ℕ) (pre : List Bool) :
    |histMean (stepMean ν1 (s1 w)) (stepMean ν2 (s2 w)) (pre ++ loops l) f x| ≤ 2 * B * ρ ^ l := by
  haveI := histLaw_prob (ν1 := ν1) (ν2 := ν2) (onSndAt_section h1 w) (onSndAt_section h2 w) (pre ++ loops l) (Measure.dirac x)
  have := integral_near (hr w x l pre) hf hB
  rw [hf0, sub_zero] at this
  rwa [histMean_eq (onSndAt_section h1 w) (onSndAt_section h2 w) _ hf hB]

theorem loopMean_measurable (h1 : Measurable fun p : (W × X) × N1 => s1 p.1.1 p.2 p.1.2) (h2 : Measurable fun p : (W × X) × N2 => s2 p.1.1 p.2 p.1.2) {f : X → ℝ} (hf : Measurable f) :
    Measurable fun p : W × X => loopMean ν1 ν2 s1 s2 loops pre n Q f p.1 p.2 :=
  (Finset.measurable_sum _ fun _ _ => Finset.measurable_sum _ fun _ _ => histMean_at_measurable h1 h2 _ hf).div_const _

theorem loopMean_bias (h1 : Measurable fun p : (W × X) × N1 => s1 p.1.1 p.2 p.1.2) (h2 : Measurable fun p : (W × X) × N2 => s2 p.1.1 p.2 p.1.2) (hr : LoopsRate ν1 ν2 s1 s2 loops π ρ)
    (h0 : 0 ≤ ρ) (hρ : ρ < 1) (hn : 0 < n) (hQ : 0 < Q) {f : X → ℝ} (hf : Measurable f) {B : ℝ} (hB : ∀ x, |f x| ≤ B) (hf0 : ∫ x, f x ∂π = 0) (w : W) (x : X) :
    |loopMean ν1 ν2 s1 s2 loops pre n Q f w x| ≤ 2 * B / (n * (1 - ρ)) := by
  have hnp : (0 : ℝ) < n := by exact_mod_cast hn
  have hQp : (0 : ℝ) < Q := by exact_mod_cast hQ
  have hB0 : 0 ≤ B := le_trans (abs_nonneg _) (hB x)
  have h3 : 0 < 1 - ρ := by linarith
  rw [loopMean, abs_div, abs_of_pos (by positivity : (0 : ℝ) < n * Q), div_le_div_iff₀ (by positivity) (by positivity)]
  have : |∑ l ∈ Finset.range n, ∑ r ∈ Finset.range Q, histMean (stepMean ν1 (s1 w)) (stepMean ν2 (s2 w)) (pre r ++ loops l) f x| ≤ Q * (2 * B) * (1 / (1 - ρ)) := by
    calc _ ≤ ∑ l ∈ Finset.range n, |∑ r ∈ Finset.range Q, histMean (stepMean ν1 (s1 w)) (stepMean ν2 (s2 w)) (pre r ++ loops l) f x| := Finset.abs_sum_le_sum_abs _ _
      _ ≤ ∑ l ∈ Finset.range n, ∑ r ∈ Finset.range Q, |histMean (stepMean ν1 (s1 w)) (stepMean ν2 (s2 w)) (pre r ++ loops l) f x| := Finset.sum_le_sum fun l _ => Finset.abs_sum_le_sum_abs _ _
      _ ≤ ∑ l ∈ Finset.range n, ∑ r ∈ Finset.range Q, 2 * B * ρ ^ l := Finset.sum_le_sum fun l _ => Finset.sum_le_sum fun r _ => rate_mean h1 h2 hr hf hB hf0 w x l _
      _ = Q * (2 * B) * ∑ l ∈ Finset.range n, ρ ^ l := by simp only [Finset.sum_const, Finset.card_range, nsmul_eq_mul, Finset.mul_sum, mul_assoc]
      _ ≤ _ := mul_le_mul_of_nonneg_left (geom_le h0 hρ n) (by positivity)
  calc _ ≤ Q * (2 * B) * (1 / (1 - ρ)) * (n * (1 - ρ)) := mul_le_mul_of_nonneg_right this (by positivity)
    _ = 2 * B * (n * Q) := by field_simp

/-- The average of a chain, weighted with a function of the parameters. -/
theorem LoopRows.given (h1 : Measurable fun p : (W × X) × N1 => s1 p.1.1 p.2 p.1.2) (h2 : Measurable fun p : (W × X) × N2 => s2 p.1.1 p.2 p.1.2) (hA : Measurable A) (hX : Measurable X0)
    {St : ℕ → Ω → X} {Y : ℕ → ℕ → Ω → X} (hY : LoopRows P ν1 ν2 s1 s2 A loops pre (P.map fun ω => (A ω, X0 ω)) n Q St Y)
    {f : X → ℝ} (hf : Measurable f) {B : ℝ} (hB : ∀ x, |f x| ≤ B) {g : W → ℝ} (hg : Measurable g) {C : ℝ} (hC : ∀ w, |g w| ≤ C) :
    ∫ ω, g (A ω) * ((∑ l ∈ Finset.range n, ∑ r ∈ Finset.range Q, f (Y l r ω)) / (n * Q : ℝ)) ∂P = ∫ ω, g (A ω) * loopMean ν1 ν2 s1 s2 loops pre n Q f (A ω) (X0 ω) ∂P := by
  have hAX : Measurable fun ω => (A ω, X0 ω) := hA.prodMk hX
  haveI : IsProbabilityMeasure (P.map fun ω => (A ω, X0 ω)) := Measure.isProbabilityMeasure_map hAX.aemeasurable
  have mm := fun l r => (histMean_at_measurable (ν1 := ν1) (ν2 := ν2) h1 h2 (pre r ++ loops l) hf)
  have row : ∀ l < n, ∀ r < Q, ∫ ω, g (A ω) * f (Y l r ω) ∂P = ∫ ω, g (A ω) * histMean (stepMean ν1 (s1 (A ω))) (stepMean ν2 (s2 (A ω))) (pre r ++ loops l) f (X0 ω) ∂P := by
    intro l hl r hr
    have hAY : Measurable fun ω => (A ω, Y l r ω) := hA.prodMk (hY.rowMeas l hl r hr)
    have e : ∫ ω, g (A ω) * f (Y l r ω) ∂P = ∫ p, g p.1 * f p.2 ∂(P.map fun ω => (A ω, Y l r ω)) := by
      rw [integral_map hAY.aemeasurable]
      exact ((hg.comp measurable_fst).mul (hf.comp measurable_snd)).aestronglyMeasurable
    rw [e, hY.row l hl r hr, integral_onSndAt h1 h2 _ hg hC hf hB, integral_map hAX.aemeasurable]
    exact ((hg.comp measurable_fst).mul (mm l r)).aestronglyMeasurable
  have i1 : ∀ l < n, ∀ r < Q, Integrable (fun ω => g (A ω) * f (Y l r ω)) P := fun l hl r hr =>
    integrable_bdd ((hg.comp hA).mul (hf.comp (hY.rowMeas l hl r hr))) (B := C * B) fun ω => by
      simp only [Pi.mul_apply, Function.comp, abs_mul]
      exact mul_le_mul (hC _) (hB _) (abs_nonneg _) (le_trans (abs_nonneg _) (hC (A ω)))
  have i2 : ∀ l r, Integrable (fun ω => g (A ω) * histMean (stepMean ν1 (s1 (A ω))) (stepMean ν2 (s2 (A ω))) (pre r ++ loops l) f (X0 ω)) P := fun l r =>
    integrable_bdd ((hg.comp hA).mul ((mm l r).comp hAX)) (B := C * B) fun ω => by
      simp only [Pi.mul_apply, Function.comp, abs_mul]
      exact mul_le_mul (hC _) (histMean_bdd _ hB _) (abs_nonneg _) (le_trans (abs_nonneg _) (hC (A ω)))
  simp only [loopMean, mul_div_assoc', Finset.mul_sum]
  rw [integral_div, integral_div]
  congr 1
  rw [integral_finset_sum _ fun l hl => integrable_finset_sum _ fun r hr => i1 l (Finset.mem_range.1 hl) r (Finset.mem_range.1 hr),
    integral_finset_sum _ fun l hl => integrable_finset_sum _ fun r hr => i2 l r]
  refine Finset.sum_congr rfl fun l hl => ?_
  rw [integral_finset_sum _ fun r hr => i1 l (Finset.mem_range.1 hl) r (Finset.mem_range.1 hr), integral_finset_sum _ fun r hr => i2 l r]
  exact Finset.sum_congr rfl fun r hr => row l (Finset.mem_range.1 hl) r (Finset.mem_range.1 hr)

/-- Correlations between rows of different loops. -/
theorem LoopRows.correlation (h1 : Measurable fun p : (W × X) × N1 => s1 p.1.1 p.2 p.1.2) (h2 : Measurable fun p : (W × X) × N2 => s2 p.1.1 p.2 p.1.2) (hA : Measurable A) {μ : Measure (W × X)}
    {St : ℕ → Ω → X} {Y : ℕ → ℕ → Ω → X} (hY : LoopRows P ν1 ν2 s1 s2 A loops pre μ n Q St Y) (hr : LoopsRate ν1 ν2 s1 s2 loops π ρ)
    {f : X → ℝ} (hf : Measurable f) {B : ℝ} (hB : ∀ x, |f x| ≤ B) (hf0 : ∫ x, f x ∂π = 0) (l l' : ℕ) (hl : l + 1 + l' < n) (r : ℕ) (hrr : r < Q) (r' : ℕ) (hr' : r' < Q) :
    ∫ ω, f (Y l r ω) * f (Y (l + 1 + l') r' ω) ∂P ≤ 2 * B ^ 2 * ρ ^ l' := by
  have hYl := hY.rowMeas l (by omega) r hrr
  have hYl' := hY.rowMeas _ hl r' hr'
  have hSt := hY.stMeas (l + 1) (by omega)
  have hJm : Measurable fun ω => ((A ω, Y l r ω), St (l + 1) ω) := (hA.prodMk hYl).prodMk hSt
  set J := P.map (fun ω => ((A ω, Y l r ω), St (l + 1) ω)) with hJ
  haveI : IsProbabilityMeasure J := Measure.isProbabilityMeasure_map hJm.aemeasurable
  have pm : Measurable fun p : (W × X) × X => (p.1.1, p.2) := (measurable_fst.comp measurable_fst).prodMk measurable_snd
  have hm2 : Measurable (fun ω => ((A ω, Y l r ω), Y (l + 1 + l') r' ω)) := (hA.prodMk hYl).prodMk hYl'
  have e : ∫ ω, f (Y l r ω) * f (Y (l + 1 + l') r' ω) ∂P = ∫ p, f p.1.2 * f p.2 ∂(P.map fun ω => ((A ω, Y l r ω), Y (l + 1 + l') r' ω)) := by
    rw [integral_map hm2.aemeasurable]
    exact ((hf.comp (measurable_snd.comp measurable_fst)).mul (hf.comp measurable_snd)).aestronglyMeasurable
  have hr1 : ∀ {N : Type} [MeasurableSpace N], Measurable fun p : ((W × X) × X) × N => ((p.1.1.1, p.1.2), p.2) := fun {N} _ => (pm.comp measurable_fst).prodMk measurable_snd
  rw [e, hY.fromRow l l' hl r hrr r' hr', integral_onSndAt (s1 := fun p : W × X => s1 p.1) (s2 := fun p : W × X => s2 p.1) (h1.comp hr1) (h2.comp hr1) _ (g := fun p : W × X => f p.2) (hf.comp measurable_snd)
    (fun p => hB p.2) hf hB]
  refine (le_abs_self _).trans (abs_integral_bdd fun p => ?_)
  rw [abs_mul]
  calc _ ≤ B * (2 * B * ρ ^ l') := mul_le_mul (hB _) (rate_mean h1 h2 hr hf hB hf0 _ _ l' _) (abs_nonneg _) (le_trans (abs_nonneg _) (hB p.2))
    _ = _ := by ring

/-- Mean square error of one chain. -/
theorem LoopRows.square (h1 : Measurable fun p : (W × X) × N1 => s1 p.1.1 p.2 p.1.2) (h2 : Measurable fun p : (W × X) × N2 => s2 p.1.1 p.2 p.1.2) (hA : Measurable A) {μ : Measure (W × X)}
    {St : ℕ → Ω → X} {Y : ℕ → ℕ → Ω → X} (hY : LoopRows P ν1 ν2 s1 s2 A loops pre μ n Q St Y) (hr : LoopsRate ν1 ν2 s1 s2 loops π ρ) (h0 : 0 ≤ ρ) (hρ : ρ < 1) (hn : 0 < n) (hQ : 0 < Q)
    {f : X → ℝ} (hf : Measurable f) {B : ℝ} (hB : ∀ x, |f x| ≤ B) (hf0 : ∫ x, f x ∂π = 0) :
    ∫ ω, ((∑ l ∈ Finset.range n, ∑ r ∈ Finset.range Q, f (Y l r ω)) / (n * Q : ℝ)) ^ 2 ∂P ≤ B ^ 2 * (1 + 4 / (1 - ρ)) / n := by
  have hnp : (0 : ℝ) < n := by exact_mod_cast hn
  have hQp : (0 : ℝ) < Q := by exact_mod_cast hQ
  have h3 : 0 < 1 - ρ := by linarith
  set U : ℕ → Ω → ℝ := fun l ω => ∑ r ∈ Finset.range Q, f (Y l r ω) with hU
  have Um : ∀ l < n, Measurable (U l) := fun l hl => Finset.measurable_sum _ fun r hr => hf.comp (hY.rowMeas l hl r (Finset.mem_range.1 hr))
  have Ub : ∀ l < n, ∀ ω, |U l ω| ≤ Q * B := fun l hl ω => by
    calc |U l ω| ≤ ∑ r ∈ Finset.range Q, |f (Y l r ω)| := Finset.abs_sum_le_sum_abs _ _
      _ ≤ ∑ r ∈ Finset.range Q, B := Finset.sum_le_sum fun r _ => hB _
      _ = Q * B := by simp
  have ii : ∀ l < n, ∀ l' < n, ∀ r < Q, ∀ r' < Q, Integrable (fun ω => f (Y l r ω) * f (Y l' r' ω)) P := by
    intro l hl l' hl' r hr r' hr'
    refine integrable_bdd ((hf.comp (hY.rowMeas l hl r hr)).mul (hf.comp (hY.rowMeas l' hl' r' hr'))) (B := B * B) fun ω => ?_
    simp only [Pi.mul_apply, Function.comp, abs_mul]
    exact mul_le_mul (hB _) (hB _) (abs_nonneg _) (le_trans (abs_nonneg _) (hB (Y l r ω)))
  have corU : ∀ l l', l + 1 + l' < n → ∫ ω, U l ω * U (l + 1 + l') ω ∂P ≤ Q ^ 2 * (2 * B ^ 2) * ρ ^ l' := by
    intro l l' hl'
    have e : ∀ ω, U l ω * U (l + 1 + l') ω = ∑ r ∈ Finset.range Q, ∑ r' ∈ Finset.range Q, f (Y l r ω) * f (Y (l + 1 + l') r' ω) := fun ω => by simp only [hU]; rw [Finset.sum_mul_sum]
    simp only [e]
    rw [integral_finset_sum _ fun r hr => integrable_finset_sum _ fun r' hr' => ii l (by omega) (l + 1 + l') hl' r (Finset.mem_range.1 hr) r' (Finset.mem_range.1 hr')]
    calc _ ≤ ∑ r ∈ Finset.range Q, ∑ r' ∈ Finset.range Q, 2 * B ^ 2 * ρ ^ l' := by
          refine Finset.sum_le_sum fun r hr => ?_
          rw [integral_finset_sum _ fun r' hr' => ii l (by omega) (l + 1 + l') hl' r (Finset.mem_range.1 hr) r' (Finset.mem_range.1 hr')]
          exact Finset.sum_le_sum fun r' hr' => hY.correlation h1 h2 hA ‹_› hf hB hf0 l l' hl' r (Finset.mem_range.1 hr) r' (Finset.mem_range.1 hr')
      _ = _ := by simp; ring
  have sm := second_moment_geom (P := P) U n Um Ub (by positivity : 0 ≤ (Q : ℝ) ^ 2 * (2 * B ^ 2)) h0 hρ corU
  simp only [div_pow]
  rw [integral_div, div_le_div_iff₀ (by positivity) hnp]
  calc _ ≤ n * ((Q * B) ^ 2 + 2 * (Q ^ 2 * (2 * B ^ 2)) / (1 - ρ)) * n := mul_le_mul_of_nonneg_right sm hnp.le
    _ = _ := by field_simp; ring

/-- Averages over several estimates that are nearly uncorrelated. -/
theorem pooled_square {nC : ℕ} (hC : 0 < nC) (Z : ℕ → Ω → ℝ) {B : ℝ} (Zm : ∀ i < nC, Measurable (Z i)) (Zb : ∀ i < nC, ∀ ω, |Z i ω| ≤ B) {v κ : ℝ} (hκ : 0 ≤ κ)
    (sq : ∀ i < nC, ∫ ω, Z i ω ^ 2 ∂P ≤ v) (cross : ∀ i < nC, ∀ j < nC, i ≠ j → ∫ ω, Z i ω * Z j ω ∂P ≤ κ) :
    ∫ ω, ((∑ i ∈ Finset.range nC, Z i ω) / nC) ^ 2 ∂P ≤ v / nC + κ := by
  have hCp : (0 : ℝ) < nC := by exact_mod_cast hC
  have ii : ∀ i < nC, ∀ j < nC, Integrable (fun ω => Z i ω * Z j ω) P := fun i hi j hj => integrable_bdd ((Zm i hi).mul (Zm j hj)) (B := B * B) fun ω => by
    simp only [Pi.mul_apply, abs_mul]
    exact mul_le_mul (Zb i hi ω) (Zb j hj ω) (abs_nonneg _) (le_trans (abs_nonneg _) (Zb i hi ω))
  have e : ∀ ω, ((∑ i ∈ Finset.range nC, Z i ω) / nC) ^ 2 = (∑ i ∈ Finset.range nC, ∑ j ∈ Finset.range nC, Z i ω * Z j ω) / nC ^ 2 := fun ω => by
    rw [← Finset.sum_mul_sum, ← pow_two, ← div_pow]
  simp only [e]
  rw [integral_div, integral_finset_sum _ fun i hi => integrable_finset_sum _ fun j hj => ii i (Finset.mem_range.1 hi) j (Finset.mem_range.1 hj), div_le_iff₀ (by positivity)]
  calc _ ≤ ∑ i ∈ Finset.range nC, ∑ j ∈ Finset.range nC, ((if j = i then v else 0) + κ) := by
        refine Finset.sum_le_sum fun i hi => ?_
        rw [integral_finset_sum _ fun j hj => ii i (Finset.mem_range.1 hi) j (Finset.mem_range.1 hj)]
        refine Finset.sum_le_sum fun j hj => ?_
        rw [Finset.mem_range] at hi hj
        by_cases hij : j = i
        · subst hij
          have := sq j hj
          simp only [pow_two] at this
          rw [if_pos rfl]
          linarith
        · rw [if_neg hij, zero_add]
          exact cross i hi j hj (Ne.symm hij)
    _ = nC * v + nC * (nC * κ) := by
        simp only [Finset.sum_add_distrib, Finset.sum_const, Finset.card_range, nsmul_eq_mul, Finset.sum_ite_eq']
        congr 1
        rw [Finset.sum_congr rfl (g := fun _ => v) fun i hi => by rw [if_pos hi]]
        simp
    _ = _ := by field_simp

end FlowMC
