import Verif.Props.AdaptiveAverages
import Verif.Props.AdaptiveChains
import Verif.Spec.ErrorBars
/-
Second moments of sums with geometrically decaying correlations, and means of production rows given what happened before.
-/
open MeasureTheory ProbabilityTheory Filter
open scoped ENNReal Topology
set_option linter.unusedSectionVars false
namespace FlowMC
open Spec

theorem geom_le {ρ : ℝ} (h0 : 0 ≤ ρ) (h1 : ρ < 1) (n : ℕ) : ∑ l ∈ Finset.range n, ρ ^ l ≤ 1 / (1 - ρ) := by
  have h2 : 0 < 1 - ρ := by linarith
  rw [le_div_iff₀ h2, ← neg_sub ρ 1, mul_neg, geom_sum_mul]
  have := pow_nonneg h0 n
  linarith

section
variable {Ω : Type} [MeasurableSpace Ω] {P : Measure Ω} [IsProbabilityMeasure P]

theorem second_moment_geom (U : ℕ → Ω → ℝ) (n : ℕ) (hm : ∀ l < n, Measurable (U l)) {A κ ρ : ℝ} (hA : ∀ l < n, ∀ ω, |U l ω| ≤ A) (hκ : 0 ≤ κ) (h0 : 0 ≤ ρ) (h1 : ρ < 1)
    (hcor : ∀ l l', l + 1 + l' < n → ∫ ω, U l ω * U (l + 1 + l') ω ∂P ≤ κ * ρ ^ l') :
    ∫ ω, (∑ l ∈ Finset.range n, U l ω) ^ 2 ∂P ≤ n * (A ^ 2 + 2 * κ / (1 - ρ)) := by
  have hb : ∀ l < n, ∀ l' < n, ∀ ω, |U l ω * U l' ω| ≤ A ^ 2 := by
    intro l hl l' hl' ω
    rw [abs_mul, sq]
    exact mul_le_mul (hA l hl ω) (hA l' hl' ω) (abs_nonneg _) (le_trans (abs_nonneg _) (hA l hl ω))
  have hi : ∀ l < n, ∀ l' < n, Integrable (fun ω => U l ω * U l' ω) P := fun l hl l' hl' => integrable_bdd ((hm l hl).mul (hm l' hl')) (hb l hl l' hl')
  have key : ∀ k, k ≤ n → ∫ ω, (∑ l ∈ Finset.range k, U l ω) ^ 2 ∂P ≤ k * (A ^ 2 + 2 * κ / (1 - ρ)) := by
    intro k
    induction k with
    | zero => simp
    | succ k ih =>
      intro hk
      have e : ∀ ω, (∑ l ∈ Finset.range (k + 1), U l ω) ^ 2 = (∑ l ∈ Finset.range k, U l ω) ^ 2 + (2 * ∑ l ∈ Finset.range k, U l ω * U k ω) + U k ω * U k ω := fun ω => by
        rw [Finset.sum_range_succ, ← Finset.sum_mul]; ring
      have i1 : Integrable (fun ω => (∑ l ∈ Finset.range k, U l ω) ^ 2) P := by
        have e : ∀ ω, (∑ l ∈ Finset.range k, U l ω) ^ 2 = ∑ l ∈ Finset.range k, ∑ l' ∈ Finset.range k, U l ω * U l' ω := fun ω => by rw [sq, Finset.sum_mul_sum]
        simp only [e]
        exact integrable_finset_sum _ fun l hl => integrable_finset_sum _ fun l' hl' => hi l (by have := Finset.mem_range.1 hl; omega) l' (by have := Finset.mem_range.1 hl'; omega)
      have i2 : ∀ l ∈ Finset.range k, Integrable (fun ω => U l ω * U k ω) P := fun l hl => hi l (by have := Finset.mem_range.1 hl; omega) k (by omega)
      simp only [e]
      have i3 : Integrable (fun ω => (∑ l ∈ Finset.range k, U l ω) ^ 2 + (2 * ∑ l ∈ Finset.range k, U l ω * U k ω)) P := i1.add ((integrable_finset_sum _ i2).const_mul 2)
      rw [integral_add i3 (hi k (by omega) k (by omega)), integral_add i1 ((integrable_finset_sum _ i2).const_mul 2), integral_const_mul, integral_finset_sum _ i2]
      have c1 : ∑ l ∈ Finset.range k, ∫ ω, U l ω * U k ω ∂P ≤ κ * (1 / (1 - ρ)) := by
        calc ∑ l ∈ Finset.range k, ∫ ω, U l ω * U k ω ∂P ≤ ∑ l ∈ Finset.range k, κ * ρ ^ (k - 1 - l) := by
              refine Finset.sum_le_sum fun l hl => ?_
              rw [Finset.mem_range] at hl
              have := hcor l (k - 1 - l) (by omega)
              rwa [show l + 1 + (k - 1 - l) = k by omega] at this
          _ = κ * ∑ l ∈ Finset.range k, ρ ^ l := by rw [← Finset.mul_sum, Finset.sum_range_reflect (fun l => ρ ^ l) k]
          _ ≤ _ := mul_le_mul_of_nonneg_left (geom_le h0 h1 k) hκ
      have c2 : ∫ ω, U k ω * U k ω ∂P ≤ A ^ 2 := (abs_le.1 (abs_integral_bdd (hb k (by omega) k (by omega)))).2
      have c3 := ih (by omega)
      push_cast
      have : 2 * (κ * (1 / (1 - ρ))) = 2 * κ / (1 - ρ) := by ring
      linarith
  exact key n le_rfl

end

variable {Ω D M O V Z W : Type} {d : ℕ}
variable {past : MeasurableSpace Ω} {sig : Key → MeasurableSpace Ω} [mΩ : MeasurableSpace Ω] {P : Measure Ω} [IsProbabilityMeasure P] {env : Ω → Env ℝ D d M O} {T : Key → Prop}
  [MeasurableSpace M] [MeasurableSpace Z] [MeasurableSpace W] {ν : Measure Z} {push : M → Z → Pos ℝ d} {lnf : M → Pos ℝ d → ℝ} {G : Set M} [BufNum ℝ]

/-- Mean of `f` after the steps `hist` when the flow is `m` and the start `x`. -/
noncomputable def rowsAvg (c : BundleCfg ℝ D d M O) (data : Data D) (ν : Measure Z) (push : M → Z → Pos ℝ d) (lnf : M → Pos ℝ d → ℝ) (f : Pos ℝ d → ℝ) (hist : List Bool) (m : M) (x : Pos ℝ d) : ℝ :=
  ∫ y, f y ∂(fixedLaw c data ν push lnf hist m x)

/-- If the flow covers the target, the mean of a centred function is small after many loops. -/
theorem rowsAvg_small {c : BundleCfg ℝ D d M O} {data : Data D} (hE : AdaptiveBundle T P sig env c data ν push lnf G) {C : ℝ} (hC : 1 ≤ C)
    (hcov : ∀ m ∈ G, ∀ x, density (fun x => c.logpdf.val x data) x ≤ C * density (lnf m) x) {f : Pos ℝ d → ℝ} (hf : Measurable f) {B : ℝ} (hB : ∀ x, |f x| ≤ B)
    (hf0 : ∫ x, f x ∂(normalised (targetMeasure fun x => c.logpdf.val x data)) = 0) (pre : List Bool) (l : ℕ) {m : M} (hm : m ∈ G) (x : Pos ℝ d) :
    |rowsAvg c data ν push lnf f (pre ++ loopsSteps c l) m x| ≤ 2 * B * loopFactor c C ^ l := by
  haveI := hE.flows.prob
  haveI := normalised_isProb _ hE.meas hE.finite
  haveI : IsProbabilityMeasure (noise d) := by unfold noise; infer_instance
  have hp : Measurable (push m) := hE.flows.pushMeas.comp (measurable_const.prodMk measurable_id)
  have hl : Measurable (lnf m) := hE.flows.lnfMeas.comp (measurable_const.prodMk measurable_id)
  haveI : IsProbabilityMeasure (ν.map (push m)) := Measure.isProbabilityMeasure_map hp.aemeasurable
  have h0 : 0 ≤ 1 - 1 / C := by rw [sub_nonneg, div_le_one (by linarith)]; exact hC
  have h1 : 1 - 1 / C ≤ 1 := by have : 0 < 1 / C := by positivity
                                linarith
  have hB0 : 0 ≤ B := le_trans (abs_nonneg _) (hB x)
  obtain ⟨hpr, hn⟩ := histLaw_rate (local_nonexpand (.mala c.stepSize : KernelRes ℝ d M) hE.step c.logpdf data hE.meas hE.gradMeas hE.finite)
    (flow_contract c.logpdf data hE.meas (lnf m) hl (ν.map (push m)) (hE.flows.density m hm) hE.finite C hC (hcov m hm)) (pre ++ loopsSteps c l) (Measure.dirac x) inferInstance
  have := integral_near hn hf hB
  rw [hf0, sub_zero] at this
  refine this.trans (mul_le_mul_of_nonneg_left ?_ (by positivity))
  rw [loopFactor, ← pow_mul]
  refine pow_le_pow_of_le_one h0 h1 ?_
  rw [List.count_append, count_loopsSteps, mul_comm]
  exact Nat.le_add_left _ _

/-- The mean of `f` at the end of a history, weighted with something known at its beginning. -/
theorem mean_given {c : BundleCfg ℝ D d M O} {data : Data D} (hE : AdaptiveBundle T P sig env c data ν push lnf G) (φ : W → M) (hφ : Measurable φ)
    (w : Ω → W) (hw : Measurable w) (X Y : Ω → Pos ℝ d) (hX : Measurable X) (hY : Measurable Y) (hist : List Bool)
    (hlaw : P.map (fun ω => (w ω, Y ω)) = histLaw (stepLaw (noise d) (onSndAt fun _ : W => localStep (.mala c.stepSize : KernelRes ℝ d M) c.logpdf data))
      (stepLaw (ν.prod unif) (onSndAt (pushStep c.logpdf data push lnf φ))) hist (P.map fun ω => (w ω, X ω)))
    {f : Pos ℝ d → ℝ} (hf : Measurable f) {B : ℝ} (hB : ∀ x, |f x| ≤ B) {g : W → ℝ} (hg : Measurable g) {A : ℝ} (hA : ∀ y, |g y| ≤ A) :
    (Measurable fun p : W × Pos ℝ d => rowsAvg c data ν push lnf f hist (φ p.1) p.2) ∧
    ∫ ω, g (w ω) * f (Y ω) ∂P = ∫ ω, g (w ω) * rowsAvg c data ν push lnf f hist (φ (w ω)) (X ω) ∂P := by
  haveI := hE.flows.prob
  haveI : IsProbabilityMeasure (noise d) := by unfold noise; infer_instance
  have hwY : Measurable fun ω : Ω => (w ω, Y ω) := hw.prodMk hY
  have hwX : Measurable fun ω : Ω => (w ω, X ω) := hw.prodMk hX
  haveI : IsProbabilityMeasure (P.map fun ω : Ω => (w ω, X ω)) := Measure.isProbabilityMeasure_map hwX.aemeasurable
  have h1 : Measurable fun p : (W × Pos ℝ d) × ((Fin d → ℝ) × ℝ) => localStep (.mala c.stepSize : KernelRes ℝ d M) c.logpdf data p.2 p.1.2 :=
    (localStep_measurable (.mala c.stepSize : KernelRes ℝ d M) c.logpdf data hE.meas hE.gradMeas).comp ((measurable_snd.comp measurable_fst).prodMk measurable_snd)
  have h2 := pushStep_measurable c.logpdf data hE.meas hE.flows.pushMeas hE.flows.lnfMeas φ hφ
  have hm := histMean_at_measurable (ν1 := noise d) (ν2 := ν.prod unif) (s1 := fun _ : W => localStep (.mala c.stepSize : KernelRes ℝ d M) c.logpdf data) h1 h2 hist hf
  have e : ∀ p : W × Pos ℝ d, histMean (stepMean (noise d) (localStep (.mala c.stepSize : KernelRes ℝ d M) c.logpdf data)) (stepMean (ν.prod unif) (pushStep c.logpdf data push lnf φ p.1)) hist f p.2 =
      rowsAvg c data ν push lnf f hist (φ p.1) p.2 := by
    intro p
    rw [histMean_eq (onSndAt_section (step := fun _ : W => localStep (.mala c.stepSize : KernelRes ℝ d M) c.logpdf data) h1 p.1) (onSndAt_section h2 p.1) hist hf hB, rowsAvg, fixedLaw]
    congr 1
    exact histLaw_push c data hE.meas hE.gradMeas hE.flows φ p.1 hist (Measure.dirac p.2)
  simp only [e] at hm
  refine ⟨hm, ?_⟩
  have e2 := integral_onSndAt (ν1 := noise d) (ν2 := ν.prod unif) (s1 := fun _ : W => localStep (.mala c.stepSize : KernelRes ℝ d M) c.logpdf data) h1 h2 hist (μ := P.map fun ω => (w ω, X ω)) hg hA hf hB
  simp only [e] at e2
  have m1 : Measurable fun p : W × Pos ℝ d => g p.1 * f p.2 := (hg.comp measurable_fst).mul (hf.comp measurable_snd)
  have m2 : Measurable fun p : W × Pos ℝ d => g p.1 * rowsAvg c data ν push lnf f hist (φ p.1) p.2 := (hg.comp measurable_fst).mul hm
  rw [← hlaw, integral_map hwY.aemeasurable m1.aestronglyMeasurable, integral_map hwX.aemeasurable m2.aestronglyMeasurable] at e2
  exact e2

end FlowMC
