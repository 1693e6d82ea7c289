import Verif.Props.Doeblin
import Mathlib.MeasureTheory.Integral.DominatedConvergence
import Mathlib.MeasureTheory.Integral.Prod
import Mathlib.Probability.Moments.Variance
/-
Means along histories of steps, and a second-moment bound for averages.
-/
open MeasureTheory ProbabilityTheory Filter
open scoped ENNReal Topology
set_option linter.unusedSectionVars false
namespace FlowMC
open Spec

/-! ### means of bounded functions -/

section
variable {X N : Type} [MeasurableSpace X] [MeasurableSpace N] {ν : Measure N} [IsProbabilityMeasure ν] {step : N → X → X}

theorem integrable_bdd {μ : Measure X} [IsFiniteMeasure μ] {f : X → ℝ} (hf : Measurable f) {B : ℝ} (hB : ∀ x, |f x| ≤ B) : Integrable f μ :=
  Integrable.of_bound hf.aestronglyMeasurable B (ae_of_all _ fun x => by rw [Real.norm_eq_abs]; exact hB x)

theorem abs_integral_bdd {μ : Measure X} [IsProbabilityMeasure μ] {f : X → ℝ} {B : ℝ} (hB : ∀ x, |f x| ≤ B) : |∫ x, f x ∂μ| ≤ B := by
  have := norm_integral_le_of_norm_le_const (μ := μ) (f := f) (C := B) (ae_of_all _ fun x => by rw [Real.norm_eq_abs]; exact hB x)
  simpa using this

/-- Mean of `f` after a step from `x`. -/
noncomputable def stepMean (ν : Measure N) (step : N → X → X) (f : X → ℝ) (x : X) : ℝ := ∫ n, f (step n x) ∂ν

theorem stepMean_measurable (hm : Measurable fun p : X × N => step p.2 p.1) {f : X → ℝ} (hf : Measurable f) : Measurable (stepMean ν step f) := by
  have : StronglyMeasurable fun p : X × N => f (step p.2 p.1) := (hf.comp hm).stronglyMeasurable
  exact this.integral_prod_right'.measurable

theorem stepMean_bdd {f : X → ℝ} {B : ℝ} (hB : ∀ x, |f x| ≤ B) (x : X) : |stepMean ν step f x| ≤ B := abs_integral_bdd fun n => hB (step n x)

theorem integral_stepLaw {μ : Measure X} [IsProbabilityMeasure μ] (hm : Measurable fun p : X × N => step p.2 p.1) {f : X → ℝ} (hf : Measurable f) {B : ℝ} (hB : ∀ x, |f x| ≤ B) :
    ∫ x, f x ∂(stepLaw ν step μ) = ∫ x, stepMean ν step f x ∂μ := by
  rw [stepLaw, integral_map hm.aemeasurable hf.aestronglyMeasurable, integral_prod]
  · rfl
  · exact integrable_bdd (hf.comp hm) fun p => hB _

/-- Means differ by at most `4 B ε` when probabilities differ by at most `ε` and the function is bounded by `B`. -/
theorem integral_near {μ π : Measure X} [IsProbabilityMeasure μ] [IsProbabilityMeasure π] {ε : ℝ} (h : Near μ π ε) {f : X → ℝ} (hf : Measurable f) {B : ℝ} (hB : ∀ x, |f x| ≤ B) :
    |∫ x, f x ∂μ - ∫ x, f x ∂π| ≤ 2 * B * ε := by
  have hε : 0 ≤ ε := le_trans (abs_nonneg _) (h ∅ MeasurableSet.empty)
  rcases isEmpty_or_nonempty X with hX | ⟨⟨x0⟩⟩
  · exfalso
    have : μ Set.univ = 0 := by rw [Set.univ_eq_empty_iff.2 hX]; simp
    rw [measure_univ] at this; exact one_ne_zero this
  have hB0 : 0 ≤ B := le_trans (abs_nonneg _) (hB x0)
  have one : ∀ (a b : Measure X) [IsProbabilityMeasure a] [IsProbabilityMeasure b], (∀ A, MeasurableSet A → a A ≤ b A + ENNReal.ofReal ε) →
      ∫ x, f x ∂a ≤ ∫ x, f x ∂b + 2 * B * ε := by
    intro a b _ _ hab
    have h0 : ∀ x, 0 ≤ f x + B := fun x => by have := abs_le.1 (hB x); linarith
    have h1 : ∀ x, f x + B ≤ 2 * B := fun x => by have := abs_le.1 (hB x); linarith
    have hl := lintegral_le_of_near hab (fun x => f x + B) (hf.add_const B) (2 * B) h0 h1
    have hi : ∀ (ρ : Measure X) [IsProbabilityMeasure ρ], Integrable (fun x => f x + B) ρ := fun ρ _ => (integrable_bdd hf hB).add (integrable_const B)
    rw [← ofReal_integral_eq_lintegral_ofReal (hi a) (ae_of_all _ h0), ← ofReal_integral_eq_lintegral_ofReal (hi b) (ae_of_all _ h0),
      ← ENNReal.ofReal_mul (by linarith), ← ENNReal.ofReal_add (integral_nonneg_of_ae (ae_of_all _ h0)) (by positivity), ENNReal.ofReal_le_ofReal_iff (by
        have := integral_nonneg_of_ae (μ := b) (ae_of_all _ h0); positivity)] at hl
    rw [integral_add (integrable_bdd hf hB) (integrable_const B), integral_add (integrable_bdd hf hB) (integrable_const B)] at hl
    simp only [integral_const, probReal_univ, one_smul] at hl
    linarith
  have h1 := one μ π fun A hA => ((real_close_iff hε A).1 (h A hA)).1
  have h2 := one π μ fun A hA => ((real_close_iff hε A).1 (h A hA)).2
  rw [abs_le]; constructor <;> linarith

end

/-! ### means along histories -/

section
variable {X : Type} [MeasurableSpace X]

/-- Mean of `f` after a history of steps from `x` (latest step first). -/
def histMean (kl kg : (X → ℝ) → X → ℝ) : List Bool → (X → ℝ) → X → ℝ
  | [], f => f
  | true :: h, f => histMean kl kg h (kl f)
  | false :: h, f => histMean kl kg h (kg f)

variable {N1 N2 : Type} [MeasurableSpace N1] [MeasurableSpace N2] {ν1 : Measure N1} [IsProbabilityMeasure ν1] {ν2 : Measure N2} [IsProbabilityMeasure ν2]
  {s1 : N1 → X → X} {s2 : N2 → X → X}

theorem histMean_measurable (h1 : Measurable fun p : X × N1 => s1 p.2 p.1) (h2 : Measurable fun p : X × N2 => s2 p.2 p.1) (h : List Bool) {f : X → ℝ} (hf : Measurable f) :
    Measurable (histMean (stepMean ν1 s1) (stepMean ν2 s2) h f) := by
  induction h generalizing f with
  | nil => exact hf
  | cons b h ih => cases b <;> exact ih (stepMean_measurable (by assumption) hf)

theorem histMean_bdd (h : List Bool) {f : X → ℝ} {B : ℝ} (hB : ∀ x, |f x| ≤ B) (x : X) : |histMean (stepMean ν1 s1) (stepMean ν2 s2) h f x| ≤ B := by
  induction h generalizing f with
  | nil => exact hB x
  | cons b h ih => cases b <;> exact ih (stepMean_bdd hB)

theorem histLaw_prob (h1 : Measurable fun p : X × N1 => s1 p.2 p.1) (h2 : Measurable fun p : X × N2 => s2 p.2 p.1) (h : List Bool) (μ : Measure X) [hμ : IsProbabilityMeasure μ] :
    IsProbabilityMeasure (histLaw (stepLaw ν1 s1) (stepLaw ν2 s2) h μ) := by
  induction h with
  | nil => exact hμ
  | cons b h ih =>
    haveI := ih
    cases b
    · exact Measure.isProbabilityMeasure_map h2.aemeasurable
    · exact Measure.isProbabilityMeasure_map h1.aemeasurable

theorem integral_histLaw (h1 : Measurable fun p : X × N1 => s1 p.2 p.1) (h2 : Measurable fun p : X × N2 => s2 p.2 p.1) (h : List Bool) {μ : Measure X} [IsProbabilityMeasure μ]
    {f : X → ℝ} (hf : Measurable f) {B : ℝ} (hB : ∀ x, |f x| ≤ B) :
    ∫ x, f x ∂(histLaw (stepLaw ν1 s1) (stepLaw ν2 s2) h μ) = ∫ x, histMean (stepMean ν1 s1) (stepMean ν2 s2) h f x ∂μ := by
  induction h generalizing f with
  | nil => rfl
  | cons b h ih =>
    haveI := histLaw_prob (ν1 := ν1) (ν2 := ν2) h1 h2 h μ
    cases b
    · rw [histLaw, integral_stepLaw h2 hf hB, ih (stepMean_measurable h2 hf) (stepMean_bdd hB)]; rfl
    · rw [histLaw, integral_stepLaw h1 hf hB, ih (stepMean_measurable h1 hf) (stepMean_bdd hB)]; rfl

theorem histMean_eq (h1 : Measurable fun p : X × N1 => s1 p.2 p.1) (h2 : Measurable fun p : X × N2 => s2 p.2 p.1) (h : List Bool)
    {f : X → ℝ} (hf : Measurable f) {B : ℝ} (hB : ∀ x, |f x| ≤ B) (x : X) :
    histMean (stepMean ν1 s1) (stepMean ν2 s2) h f x = ∫ y, f y ∂(histLaw (stepLaw ν1 s1) (stepLaw ν2 s2) h (Measure.dirac x)) := by
  rw [integral_histLaw h1 h2 h hf hB, integral_dirac' _ _ (histMean_measurable h1 h2 h hf).stronglyMeasurable]

/-! ### a passenger -/

variable {W : Type} [MeasurableSpace W]

/-- A step of the second component. -/
def onSnd {N : Type} (step : N → X → X) (n : N) (p : W × X) : W × X := (p.1, step n p.2)

theorem onSnd_measurable {N : Type} [MeasurableSpace N] {step : N → X → X} (hm : Measurable fun p : X × N => step p.2 p.1) :
    Measurable fun p : (W × X) × N => onSnd step p.2 p.1 :=
  (measurable_fst.comp measurable_fst).prodMk (hm.comp ((measurable_snd.comp measurable_fst).prodMk measurable_snd))

theorem histMean_onSnd (g : W → ℝ) (h : List Bool) (f : X → ℝ) (p : W × X) :
    histMean (stepMean ν1 (onSnd s1)) (stepMean ν2 (onSnd s2)) h (fun p => g p.1 * f p.2) p = g p.1 * histMean (stepMean ν1 s1) (stepMean ν2 s2) h f p.2 := by
  have e : ∀ {N : Type} [MeasurableSpace N] (ν : Measure N) (s : N → X → X) (f : X → ℝ), stepMean ν (onSnd s) (fun p : W × X => g p.1 * f p.2) = fun p => g p.1 * stepMean ν s f p.2 := by
    intro N _ ν s f
    funext p
    exact integral_const_mul (μ := ν) (g p.1) fun n => f (s n p.2)
  induction h generalizing f with
  | nil => rfl
  | cons b h ih =>
    cases b
    · rw [histMean, e, ih]; rfl
    · rw [histMean, e, ih]; rfl

/-- Correlation of a passenger with the state after a history. -/
theorem integral_onSnd (h1 : Measurable fun p : X × N1 => s1 p.2 p.1) (h2 : Measurable fun p : X × N2 => s2 p.2 p.1) (h : List Bool) {μ : Measure (W × X)} [IsProbabilityMeasure μ]
    {g : W → ℝ} (hg : Measurable g) {C : ℝ} (hC : ∀ w, |g w| ≤ C) {f : X → ℝ} (hf : Measurable f) {B : ℝ} (hB : ∀ x, |f x| ≤ B) :
    ∫ p, g p.1 * f p.2 ∂(histLaw (stepLaw ν1 (onSnd s1)) (stepLaw ν2 (onSnd s2)) h μ) = ∫ p, g p.1 * histMean (stepMean ν1 s1) (stepMean ν2 s2) h f p.2 ∂μ := by
  rw [integral_histLaw (f := fun p : W × X => g p.1 * f p.2) (ν1 := ν1) (ν2 := ν2) (onSnd_measurable h1) (onSnd_measurable h2) h ((hg.comp measurable_fst).mul (hf.comp measurable_snd)) (B := C * B) ?_]
  · simp only [histMean_onSnd]
  · intro p
    rw [abs_mul]
    exact mul_le_mul (hC _) (hB _) (abs_nonneg _) (le_trans (abs_nonneg _) (hC p.1))

end

/-! ### averages of weakly correlated terms -/

section
variable {Ω : Type} [MeasurableSpace Ω] {P : Measure Ω} [IsProbabilityMeasure P]

/-- Terms bounded by `C`, with correlations at most `η` for terms at distance more than `N` and after the first `N`. -/
theorem second_moment (U : ℕ → Ω → ℝ) (n : ℕ) (hm : ∀ l < n, Measurable (U l)) {C : ℝ} (hC : ∀ l < n, ∀ ω, |U l ω| ≤ C) {η : ℝ} (hη : 0 ≤ η) (N : ℕ)
    (hcor : ∀ l l', N ≤ l → l + N < l' → l' < n → ∫ ω, U l ω * U l' ω ∂P ≤ η) :
    ∫ ω, (∑ l ∈ Finset.range n, U l ω) ^ 2 ∂P ≤ n ^ 2 * η + (4 * N + 1) * n * C ^ 2 := by
  have hb : ∀ l < n, ∀ l' < n, ∀ ω, |U l ω * U l' ω| ≤ C ^ 2 := by
    intro l hl l' hl' ω
    rw [abs_mul, sq]
    exact mul_le_mul (hC l hl ω) (hC l' hl' ω) (abs_nonneg _) (le_trans (abs_nonneg _) (hC l hl ω))
  have hi : ∀ l < n, ∀ l' < n, Integrable (fun ω => U l ω * U l' ω) P := fun l hl l' hl' => integrable_bdd ((hm l hl).mul (hm l' hl')) (hb l hl l' hl')
  have e : ∀ ω, (∑ l ∈ Finset.range n, U l ω) ^ 2 = ∑ l ∈ Finset.range n, ∑ l' ∈ Finset.range n, U l ω * U l' ω := fun ω => by rw [sq, Finset.sum_mul_sum]
  simp only [e]
  rw [integral_finset_sum _ fun l hl => integrable_finset_sum _ fun l' hl' => hi l (Finset.mem_range.1 hl) l' (Finset.mem_range.1 hl')]
  have pair : ∀ l < n, ∀ l' < n, ∫ ω, U l ω * U l' ω ∂P ≤ η + ((if l < N then C ^ 2 else 0) + (if l' < N then C ^ 2 else 0) + (if l' ∈ Finset.Icc (l - N) (l + N) then C ^ 2 else 0)) := by
    intro l hl l' hl'
    have h0 : ∫ ω, U l ω * U l' ω ∂P ≤ C ^ 2 := (abs_le.1 (abs_integral_bdd (hb l hl l' hl'))).2
    have hC2 : 0 ≤ C ^ 2 := sq_nonneg C
    have i1 : 0 ≤ (if l < N then C ^ 2 else 0) := by split <;> [exact hC2; exact le_rfl]
    have i2 : 0 ≤ (if l' < N then C ^ 2 else 0) := by split <;> [exact hC2; exact le_rfl]
    have i3 : 0 ≤ (if l' ∈ Finset.Icc (l - N) (l + N) then C ^ 2 else 0) := by split <;> [exact hC2; exact le_rfl]
    by_cases c1 : l < N
    · rw [if_pos c1] at *; linarith
    by_cases c2 : l' < N
    · rw [if_pos c2] at *; linarith
    by_cases c3 : l' ∈ Finset.Icc (l - N) (l + N)
    · rw [if_pos c3] at *; linarith
    have : ∫ ω, U l ω * U l' ω ∂P ≤ η := by
      rw [Finset.mem_Icc] at c3
      rcases Nat.lt_or_ge (l + N) l' with h | h
      · exact hcor l l' (by omega) h hl'
      · have := hcor l' l (by omega) (by omega) hl
        simpa only [mul_comm] using this
    linarith
  calc ∑ l ∈ Finset.range n, ∫ ω, ∑ l' ∈ Finset.range n, U l ω * U l' ω ∂P
      = ∑ l ∈ Finset.range n, ∑ l' ∈ Finset.range n, ∫ ω, U l ω * U l' ω ∂P :=
        Finset.sum_congr rfl fun l hl => integral_finset_sum _ fun l' hl' => hi l (Finset.mem_range.1 hl) l' (Finset.mem_range.1 hl')
    _ ≤ ∑ l ∈ Finset.range n, ∑ l' ∈ Finset.range n, (η + ((if l < N then C ^ 2 else 0) + (if l' < N then C ^ 2 else 0) + (if l' ∈ Finset.Icc (l - N) (l + N) then C ^ 2 else 0))) :=
        Finset.sum_le_sum fun l hl => Finset.sum_le_sum fun l' hl' => pair l (Finset.mem_range.1 hl) l' (Finset.mem_range.1 hl')
    _ ≤ _ := by
      have k1 : (∑ l ∈ Finset.range n, (if l < N then C ^ 2 else 0)) ≤ N * C ^ 2 := by
        rw [← Finset.sum_filter, Finset.sum_const, nsmul_eq_mul]
        refine mul_le_mul_of_nonneg_right ?_ (sq_nonneg C)
        have : (Finset.filter (fun l => l < N) (Finset.range n)) ⊆ Finset.range N := fun l hl => by
          rw [Finset.mem_filter] at hl; exact Finset.mem_range.2 hl.2
        exact_mod_cast (Finset.card_le_card this).trans (by simp)
      have k2 : ∀ l, (∑ l' ∈ Finset.range n, (if l' ∈ Finset.Icc (l - N) (l + N) then C ^ 2 else 0)) ≤ (2 * N + 1) * C ^ 2 := by
        intro l
        rw [← Finset.sum_filter, Finset.sum_const, nsmul_eq_mul]
        refine mul_le_mul_of_nonneg_right ?_ (sq_nonneg C)
        have : (Finset.filter (fun l' => l' ∈ Finset.Icc (l - N) (l + N)) (Finset.range n)) ⊆ Finset.Icc (l - N) (l + N) := fun l' hl => (Finset.mem_filter.1 hl).2
        have h2 := Finset.card_le_card this
        rw [Nat.card_Icc] at h2
        exact_mod_cast h2.trans (by omega)
      simp only [Finset.sum_add_distrib, Finset.sum_const, Finset.card_range, nsmul_eq_mul]
      rw [← Finset.mul_sum]
      have k3 : (∑ l ∈ Finset.range n, ∑ l' ∈ Finset.range n, (if l' ∈ Finset.Icc (l - N) (l + N) then C ^ 2 else 0)) ≤ n * ((2 * N + 1) * C ^ 2) := by
        calc _ ≤ ∑ l ∈ Finset.range n, (2 * N + 1) * C ^ 2 := Finset.sum_le_sum fun l _ => k2 l
          _ = _ := by simp
      have hn : (0 : ℝ) ≤ n := Nat.cast_nonneg n
      have k1' := mul_le_mul_of_nonneg_left k1 hn
      linarith

/-- Chebyshev. -/
theorem chebyshev_mean (Z : Ω → ℝ) (hZ : Measurable Z) {B : ℝ} (hB : ∀ ω, |Z ω| ≤ B) {v δ : ℝ} (hδ : 0 < δ) (hv : ∫ ω, Z ω ^ 2 ∂P ≤ v) : P.real {ω | δ < |Z ω|} ≤ v / δ ^ 2 := by
  have hi : Integrable (fun ω => Z ω ^ 2) P := integrable_bdd (hZ.pow_const 2) (B := B ^ 2) fun ω => by
    rw [abs_pow]; exact pow_le_pow_left₀ (abs_nonneg _) (hB ω) 2
  have := mul_meas_ge_le_integral_of_nonneg (μ := P) (ae_of_all _ fun ω => sq_nonneg (Z ω)) hi (δ ^ 2)
  rw [le_div_iff₀ (by positivity), mul_comm]
  refine le_trans (mul_le_mul_of_nonneg_left ?_ (sq_nonneg δ)) (this.trans hv)
  refine measureReal_mono (fun ω hω => ?_)
  have h : δ < |Z ω| := hω
  show δ ^ 2 ≤ Z ω ^ 2
  rw [← sq_abs (Z ω)]
  exact pow_le_pow_left₀ hδ.le h.le 2

end
end FlowMC
