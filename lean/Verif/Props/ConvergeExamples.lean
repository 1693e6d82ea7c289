import Verif.Props.ConvergeRun
import Verif.Props.Averages
import Verif.Props.ProductionExamples
/-
Non-vacuity of C70, C71 and C72.
-/
open MeasureTheory ProbabilityTheory
open scoped ENNReal
set_option linter.unusedSectionVars false
namespace FlowMC
open Spec
namespace Ideal

theorem target_finite : targetMeasure (fun x : Pos ℝ 2 => target.val x ⟨(), none⟩) Set.univ ≠ ∞ := by
  obtain ⟨Z, hZ⟩ := Toy.normal_samplesFrom
  have h1 : stdNormal 2 Set.univ = 1 := measure_univ
  rw [hZ, Measure.smul_apply, smul_eq_mul] at h1
  intro h
  have h2 : targetMeasure (fun x : Pos ℝ 2 => -(x 0 ^ 2 + x 1 ^ 2) / 2) Set.univ = ∞ := h
  rw [h2] at h1
  rcases eq_or_ne Z 0 with rfl | hz
  · simp at h1
  · rw [ENNReal.mul_top hz] at h1; simp at h1

theorem mixing : MixingBundle (fun _ => True) prob sig env cfg ⟨(), none⟩ () (stdNormal 2) (fun x => -(x 0 ^ 2 + x 1 ^ 2) / 2) where
  good := cfg_good
  step := by norm_num [cfg]
  meas := by simp only [cfg, target]; fun_prop
  gradMeas := by refine measurable_pi_lambda _ fun i => ?_; simp only [cfg, target]; fun_prop
  ignores := fun _ _ _ _ => rfl
  finite := target_finite
  prob := inferInstance
  lnfMeas := by fun_prop
  flow := flow

/-- Non-vacuity of C70 for single chains: MALA chains started at the point (1000, -1000). -/
example (ε : ℝ) (hε : 0 < ε) : ∃ N, ∀ (n : ℕ) (k : Key) (j : ℕ), N ≤ j → j < n → ∃ Y : Outcome → Pos ℝ 2,
    (∀ ω, ((serialSample (fun k x lp t data => malaKernel (env ω).rng (1 / 10) k x lp t data) target ⟨(), none⟩ n k ![1000, -1000])[j]?).map (·.pos) = some (Y ω)) ∧ Measurable Y ∧
      CloseInLaw prob Y (normalised (targetMeasure fun x => target.val x ⟨(), none⟩)) ε :=
  C70_serial_rows draws (.mala (1 / 10)) _ (fun _ => rfl) target ⟨(), none⟩ (show (1 / 10 : ℝ) ≠ 0 by norm_num) (by simp only [target]; fun_prop)
    (by refine measurable_pi_lambda _ fun i => ?_; simp only [target]; fun_prop) target_finite (fun _ => ![1000, -1000]) measurable_const ε hε

/-- Non-vacuity of C70 for whole `sample` calls: two chains started at the fixed points (1000, -1000) and (0, 7). -/
example (ε : ℝ) (hε : 0 < ε) : ∃ N, ∀ n, ∃ s' : Outcome → Sampler ℝ Unit 2 Unit Unit Unit,
    (∀ ω, ∃ s, Sampler.new 2 2 (.root 7) none none none (some (malaBundle (cfg.withProd n))) [] = .ok s ∧ s.sample (env ω) (.mat [![1000, -1000], ![0, 7]]) ⟨(), none⟩ = (.ok (), s' ω)) ∧
    ∀ i < 2, ∀ j < n * 4, N ≤ j → ∃ Y : ↑(Set.univ : Set Outcome) → Pos ℝ 2, Measurable Y ∧ CloseInLaw (condOn prob Set.univ) Y (normalised (targetMeasure fun x => target.val x ⟨(), none⟩)) ε ∧
      ∀ ω : ↑(Set.univ : Set Outcome), ∃ b, (s' ω).heap.res "positions_production" = some (.buffer b) ∧ ∀ a : Fin 2, b.data.get [i, j, a] = Y ω a := by
  obtain ⟨N, hN⟩ := C70_sample (V := Unit) draws cfg (by decide) (by decide) (fun _ => rfl) ⟨(), none⟩ () (stdNormal 2) _ mixing
    (fun i => Measure.dirac (if i = 0 then ![1000, -1000] else ![0, 7])) (fun _ => inferInstance) ε hε
  refine ⟨N, fun n => ?_⟩
  obtain ⟨w, s', h1, h2, h3⟩ := hN n 2 2 (.root 7) [] _ rfl (fun _ => .mat [![1000, -1000], ![0, 7]]) (fun _ => rfl)
  have hw : ∀ ω, w ω = ⟨.root 7, [![1000, -1000], ![0, 7]], (w ω).heap⟩ ∧ (w ω).heap.res "global_sampler" = some (.kernel (.nf () 4)) := by
    intro ω
    have h := h2 ω
    simp only [cfg, BundleCfg.withProd, repeatPhase, List.replicate_zero, List.flatten_nil, List.nil_append] at h
    obtain ⟨e1, e2, -, -, -, e3, -⟩ := switch_step (env ω) (cfg.withProd n) _ (bundle_hasCore (cfg.withProd n)) ⟨(), none⟩ _ _ h (fun _ => []) (bundleInv_fresh (cfg.withProd n) _ (fun _ _ => rfl))
    refine ⟨?_, by rw [e3 _ (by decide)]; rfl⟩
    simp only at e1 e2
    cases hw : w ω
    rw [hw] at e1 e2
    simp only at e1 e2
    rw [e1, e2]
    rfl
  refine ⟨s', fun ω => ⟨_, rfl, h1 ω⟩, ?_⟩
  have := h3 Set.univ MeasurableSet.univ (by simp) (fun ω _ => (hw ω).2) ?_
  · intro i hi j hj hNj
    refine this i hi j ?_ hNj
    have e : (cfg.withProd n).nProdSteps = n * 4 := by simp only [BundleCfg.nProdSteps, BundleCfg.withProd, cfg]; omega
    rw [e]; exact hj
  intro i hi
  rw [show cfg.nChains = 2 from rfl] at hi
  refine ⟨fun _ => if i = 0 then ![1000, -1000] else ![0, 7], fun ω _ => ?_, measurable_const, by rw [cond_univ, Measure.map_const]; simp⟩
  rw [(hw ω).1]
  rcases (show i = 0 ∨ i = 1 by omega) with rfl | rfl <;> rfl

/-- Non-vacuity of C72: with fixed starts (1000, -1000) and (0, 7), the fraction of production rows with positive first coordinate tends in probability to its probability under the target. -/
example (δ ε : ℝ) (hδ : 0 < δ) (hε : 0 < ε) : ∃ L, ∀ n, L ≤ n → ∃ s' : Outcome → Sampler ℝ Unit 2 Unit Unit Unit,
    (∀ ω, ∃ s, Sampler.new 2 2 (.root 7) none none none (some (malaBundle (cfg.withProd n))) [] = .ok s ∧ s.sample (env ω) (.mat [![1000, -1000], ![0, 7]]) ⟨(), none⟩ = (.ok (), s' ω)) ∧
    ∃ b : Outcome → Buffer ℝ, (∀ ω, (s' ω).heap.res "positions_production" = some (.buffer (b ω))) ∧
      prob.real {ω | ∃ i < 2, δ < |chainMean (d := 2) (fun x => if 0 < x 0 then 1 else 0) (b ω) i (n * 4) - ∫ x, (if 0 < x 0 then 1 else 0 : ℝ) ∂(normalised (targetMeasure fun x : Pos ℝ 2 => target.val x ⟨(), none⟩))|} ≤ ε := by
  obtain ⟨L, hL⟩ := C72_sample (V := Unit) draws cfg (by decide) (by decide) (fun _ => rfl) ⟨(), none⟩ () (stdNormal 2) _ mixing
    (fun i => Measure.dirac (if i = 0 then ![1000, -1000] else ![0, 7])) (fun _ => inferInstance) (fun x => if 0 < x 0 then 1 else 0)
    (Measurable.ite (measurableSet_lt measurable_const (measurable_pi_apply 0)) measurable_const measurable_const) 1 (fun x => by split <;> simp) δ ε hδ hε
  refine ⟨L, fun n hn => ?_⟩
  obtain ⟨w, s', h1, h2, h3⟩ := hL n hn 2 2 (.root 7) [] _ rfl (fun _ => .mat [![1000, -1000], ![0, 7]]) (fun _ => rfl)
  have hw : ∀ ω, w ω = ⟨.root 7, [![1000, -1000], ![0, 7]], (w ω).heap⟩ ∧ (w ω).heap.res "global_sampler" = some (.kernel (.nf () 4)) := by
    intro ω
    have h := h2 ω
    simp only [cfg, BundleCfg.withProd, repeatPhase, List.replicate_zero, List.flatten_nil, List.nil_append] at h
    obtain ⟨e1, e2, -, -, -, e3, -⟩ := switch_step (env ω) (cfg.withProd n) _ (bundle_hasCore (cfg.withProd n)) ⟨(), none⟩ _ _ h (fun _ => []) (bundleInv_fresh (cfg.withProd n) _ (fun _ _ => rfl))
    refine ⟨?_, by rw [e3 _ (by decide)]; rfl⟩
    simp only at e1 e2
    cases hw : w ω
    rw [hw] at e1 e2
    simp only at e1 e2
    rw [e1, e2]
    rfl
  refine ⟨s', fun ω => ⟨_, rfl, h1 ω⟩, ?_⟩
  obtain ⟨b, g1, g2⟩ := h3 Set.univ MeasurableSet.univ (by simp) (fun ω _ => (hw ω).2) (fun i hi => by
    rw [show cfg.nChains = 2 from rfl] at hi
    refine ⟨fun _ => if i = 0 then ![1000, -1000] else ![0, 7], fun ω _ => ?_, measurable_const, by rw [cond_univ, Measure.map_const]; simp⟩
    rw [(hw ω).1]
    rcases (show i = 0 ∨ i = 1 by omega) with rfl | rfl <;> rfl)
  refine ⟨b, fun ω => g1 ω trivial, ?_⟩
  have e : (cfg.withProd n).nProdSteps = n * 4 := by simp only [BundleCfg.nProdSteps, BundleCfg.withProd, cfg]; omega
  rw [cond_univ, e] at g2
  exact g2

/-- A target narrower than the flow. -/
noncomputable def narrow : Target ℝ Unit 2 where
  val x _ := -(x 0 ^ 2 + x 1 ^ 2)
  grad x _ := fun i => -2 * x i

/-- Non-vacuity of C71: the flow (standard normal) covers a narrower normal target. -/
example : ∃ C : ℝ, 1 ≤ C ∧ ∀ (μ : Measure (Pos ℝ 2)) (_ : IsProbabilityMeasure μ) (n : ℕ) (A : Set (Pos ℝ 2)), MeasurableSet A →
    |((stepLaw ((stdNormal 2).prod unif) fun ω x => (nfBody ω.2 ⟨x, narrow.val x ⟨(), none⟩, -(x 0 ^ 2 + x 1 ^ 2) / 2⟩ (ω.1, narrow.val ω.1 ⟨(), none⟩, -(ω.1 0 ^ 2 + ω.1 1 ^ 2) / 2)).2.pos)^[n] μ).real A -
      (normalised (targetMeasure fun x => narrow.val x ⟨(), none⟩)).real A| ≤ (1 - 1 / C) ^ n := by
  have hm : Measurable fun x : Pos ℝ 2 => narrow.val x ⟨(), none⟩ := by simp only [narrow]; fun_prop
  have hle : ∀ x : Pos ℝ 2, Real.exp (narrow.val x ⟨(), none⟩) ≤ Real.exp (-(x 0 ^ 2 + x 1 ^ 2) / 2) := fun x => by
    refine Real.exp_le_exp.2 ?_
    simp only [narrow]
    nlinarith [sq_nonneg (x 0), sq_nonneg (x 1)]
  have hfin : targetMeasure (fun x => narrow.val x ⟨(), none⟩) Set.univ ≠ ∞ := by
    refine ne_top_of_le_ne_top (b := targetMeasure (fun x : Pos ℝ 2 => -(x 0 ^ 2 + x 1 ^ 2) / 2) Set.univ) target_finite ?_
    simp only [targetMeasure, withDensity_apply _ MeasurableSet.univ]
    exact lintegral_mono fun x => ENNReal.ofReal_le_ofReal (hle x)
  have hZq := targetMeasure_real_pos (fun x : Pos ℝ 2 => -(x 0 ^ 2 + x 1 ^ 2) / 2) (by fun_prop) target_finite
  have hZp := targetMeasure_real_pos _ hm hfin
  set C := max 1 ((targetMeasure fun x : Pos ℝ 2 => -(x 0 ^ 2 + x 1 ^ 2) / 2).real Set.univ / (targetMeasure fun x => narrow.val x ⟨(), none⟩).real Set.univ) with hC
  refine ⟨C, le_max_left _ _, fun μ _ n A hA => ?_⟩
  refine C71_flow narrow ⟨(), none⟩ hm (fun x => -(x 0 ^ 2 + x 1 ^ 2) / 2) (by fun_prop) (stdNormal 2) Toy.normal_samplesFrom hfin C (le_max_left _ _) (fun x => ?_) μ n A hA
  unfold density
  have h1 : (targetMeasure fun x : Pos ℝ 2 => -(x 0 ^ 2 + x 1 ^ 2) / 2).real Set.univ / (targetMeasure fun x => narrow.val x ⟨(), none⟩).real Set.univ ≤ C := le_max_right _ _
  rw [div_le_iff₀ hZp] at h1 ⊢
  calc _ ≤ Real.exp (-(x 0 ^ 2 + x 1 ^ 2) / 2) := hle x
    _ = Real.exp (-(x 0 ^ 2 + x 1 ^ 2) / 2) / (targetMeasure fun x : Pos ℝ 2 => -(x 0 ^ 2 + x 1 ^ 2) / 2).real Set.univ * (targetMeasure fun x : Pos ℝ 2 => -(x 0 ^ 2 + x 1 ^ 2) / 2).real Set.univ :=
      (div_mul_cancel₀ _ hZq.ne').symm
    _ ≤ Real.exp (-(x 0 ^ 2 + x 1 ^ 2) / 2) / (targetMeasure fun x : Pos ℝ 2 => -(x 0 ^ 2 + x 1 ^ 2) / 2).real Set.univ * (C * (targetMeasure fun x => narrow.val x ⟨(), none⟩).real Set.univ) :=
      mul_le_mul_of_nonneg_left h1 (div_nonneg (Real.exp_pos _).le hZq.le)
    _ = _ := by ring

end Ideal
end FlowMC
