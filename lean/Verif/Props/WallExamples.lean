import Verif.Props.WallProduction
import Verif.Props.ProductionExamples
/-
Non-vacuity of C67: a normal target cut off at a half plane, with NaN gradients outside.
-/
open MeasureTheory ProbabilityTheory
open scoped ENNReal
set_option linter.unusedSectionVars false
namespace FlowMC
open Spec
namespace Ideal
noncomputable section
open Classical

def half : Set (Fin 2 → ℝ) := {x | 0 ≤ x 0}
def halfLp (x : Fin 2 → ℝ) : ℝ := -(x 0 ^ 2 + x 1 ^ 2) / 2
/-- Outside the half plane, and at non-finite positions, the log-density is `-inf` and its gradient is NaN. -/
def halfTarget : Target XR Unit 2 where
  val x _ := if x ∈ emb '' half then .fin (halfLp (unemb x)) else .ninf
  grad x _ := if x ∈ emb '' half then emb (fun i => -unemb x i) else fun _ => .nan

theorem emb_mem (x : Fin 2 → ℝ) : emb x ∈ emb '' half ↔ x ∈ half := by
  constructor
  · rintro ⟨y, hy, e⟩
    rw [← unemb_emb x, ← e, unemb_emb]; exact hy
  · intro h; exact ⟨x, h, rfl⟩

theorem half_meas : MeasurableSet half := measurableSet_le measurable_const (measurable_pi_apply 0)

theorem half_walled : Walled half halfLp (fun x i => -x i) halfTarget ⟨(), none⟩ where
  inside x hx := by simp only [halfTarget, emb_mem, hx, if_true, unemb_emb]
  grad x hx := by simp only [halfTarget, emb_mem, hx, if_true, unemb_emb]
  outside x hx := by simp only [halfTarget, emb_mem, hx, if_false]; exact .inr rfl
  meas := half_meas
  meas_lp := by unfold halfLp; fun_prop
  meas_grad := by fun_prop

/-- A start in the half plane: reflect the normal start if needed. -/
def fold (x : Fin 2 → ℝ) : Fin 2 → ℝ := if x ∈ half then x else fun i => -x i

theorem fold_mem (x : Fin 2 → ℝ) : fold x ∈ half := by
  unfold fold; split
  · assumption
  · next h => simp only [half, Set.mem_setOf_eq, not_le] at h ⊢; linarith

theorem fold_meas : Measurable fold := Measurable.ite half_meas measurable_id (by fun_prop)

theorem line_null : stdNormal 2 {x | x 0 = 0} = 0 := by
  haveI := nullSingletonClass_gaussianReal (μ := 0) (v := 1) one_ne_zero
  exact Measure.pi_hyperplane (fun _ : Fin 2 => gaussianReal 0 1) 0 (0:ℝ)

theorem fold_law : (stdNormal 2).map fold = 2 • (stdNormal 2).restrict half := by
  ext A hA
  rw [Measure.map_apply fold_meas hA, Measure.smul_apply, Measure.restrict_apply hA]
  have h1 : stdNormal 2 (fold ⁻¹' A) = stdNormal 2 (fold ⁻¹' A ∩ half) + stdNormal 2 (fold ⁻¹' A \ half) := (measure_inter_add_diff _ half_meas).symm
  have e1 : fold ⁻¹' A ∩ half = A ∩ half := by
    ext x; simp only [Set.mem_inter_iff, Set.mem_preimage, fold]
    constructor <;> rintro ⟨h, h'⟩ <;> simp_all
  have e2 : fold ⁻¹' A \ half = (fun (ξ : Fin 2 → ℝ) i => -ξ i) ⁻¹' ((A ∩ half) \ {x | x 0 = 0}) := by
    ext x
    simp only [Set.mem_diff, Set.mem_preimage, fold, Set.mem_inter_iff, half, Set.mem_setOf_eq, not_le]
    constructor
    · rintro ⟨h, h'⟩
      rw [if_neg (not_le.2 h')] at h
      exact ⟨⟨h, by linarith⟩, by intro h0; linarith⟩
    · rintro ⟨⟨h, h'⟩, h0⟩
      have : x 0 < 0 := lt_of_le_of_ne (by linarith) (fun e => h0 (by rw [e]; norm_num))
      rw [if_neg (not_le.2 this)]
      exact ⟨h, this⟩
  have hm : MeasurableSet ((A ∩ half) \ {x : Fin 2 → ℝ | x 0 = 0}) := (hA.inter half_meas).diff (measurableSet_eq_fun (measurable_pi_apply 0) measurable_const)
  rw [h1, e1, e2, (stdNormal_neg 2).measure_preimage hm.nullMeasurableSet, measure_diff_null line_null, two_smul]

def halfStart (ω : Outcome) : Fin 2 → ℝ := fold (start ω)

theorem halfStart_law : prob.map halfStart = 2 • (stdNormal 2).restrict half := by
  have : halfStart = fold ∘ start := rfl
  rw [this, ← Measure.map_map fold_meas (start_known.mono draws.past_le le_rfl), start_law, fold_law]

theorem half_scaled : ∃ Z : ℝ≥0∞, (2 • (stdNormal 2).restrict half : Measure (Fin 2 → ℝ)) = Z • wallMeasure half halfLp := by
  obtain ⟨Z, hZ⟩ := Toy.normal_samplesFrom
  refine ⟨2 * Z, ?_⟩
  rw [wallMeasure_eq _ _ half_meas, hZ, Measure.restrict_smul, mul_smul, ← ofNat_smul_eq_nsmul ℝ≥0∞]
  rfl

/-- Five MALA steps on the truncated normal. -/
example : ∃ Y : Outcome → Fin 2 → ℝ,
    (∀ ω, ((serialSample (fun k x lp t data => malaKernel (liftRng (env ω).rng) (.fin (1/10)) k x lp t data) halfTarget ⟨(), none⟩ 5 (.root 3) (emb (halfStart ω)))[4]?).map (·.pos) = some (emb (Y ω)) ∧
      0 ≤ Y ω 0) ∧
    Measurable Y ∧ prob.map Y = 2 • (stdNormal 2).restrict half :=
  C67_serial_rows (M := Unit) draws half_walled (.mala (.fin (1/10))) ⟨1/10, by norm_num, rfl⟩ _ (fun _ => rfl) _ half_scaled 5 (.root 3) halfStart (fun ω => fold_mem _)
    (fold_meas.comp start_known) halfStart_law 4 (by decide)

/-- The ideal world in arithmetic with infinities and NaN. -/
def env' (ω : Outcome) : Env XR Unit 2 Unit Unit where
  rng := liftRng (env ω).rng
  ops := {
    sample := fun m k n => ((env ω).ops.sample m k n).map emb
    logProb := fun m x => .fin ((env ω).ops.logProb m (unemb x))
    trainStep := fun m o _ => (.fin 0, m, o)
    setStats := fun m _ => m }
  big := .fin 1000000000

theorem env'_lifts (ω : Outcome) : Lifts (env ω) (env' ω) := ⟨rfl, fun _ _ _ => rfl, fun _ _ => rfl⟩

instance half_prob : IsProbabilityMeasure (2 • (stdNormal 2).restrict half : Measure (Fin 2 → ℝ)) := by
  rw [← halfStart_law]
  exact Measure.isProbabilityMeasure_map ((fold_meas.comp (start_known.mono draws.past_le le_rfl)).aemeasurable)

/-- Seven flow proposals in batches of three on the truncated normal. -/
example : ∃ rows : Outcome → List (StepOut XR 2), (∀ ω, groupSample (env' ω) () 3 halfTarget ⟨(), none⟩ 7 (.root 3) (emb (halfStart ω)) = .ok (rows ω) ∧ (rows ω).length = 7) ∧
    ∀ j, j < 7 → ∃ Y : Outcome → Fin 2 → ℝ, (∀ ω, ((rows ω)[j]?).map (·.pos) = some (emb (Y ω)) ∧ 0 ≤ Y ω 0) ∧ Measurable Y ∧ prob.map Y = 2 • (stdNormal 2).restrict half :=
  C67_sweep_rows draws half_walled env' env'_lifts () _ _ (by fun_prop) flow 3 (by decide) (fun _ _ _ _ => rfl) _ half_scaled 7 (.root 3) halfStart (fun ω => fold_mem _)
    (fold_meas.comp start_known) halfStart_law

/-- Two chains on the truncated normal, three production loops. -/
def wallCfg : BundleCfg XR Unit 2 Unit Unit where
  key := .root 0
  nChains := 2
  logpdf := halfTarget
  nLocal := 4
  nGlobal := 6
  nTrainLoops := 0
  nProdLoops := 3
  nEpochs := 5
  stepSize := .fin (1 / 10)
  localThin := 2
  globalThin := 3
  nfBatch := 4
  mkModel := fun _ => ()
  mkOptim := fun _ => ()

theorem wallCfg_good : GoodCfg wallCfg := ⟨by decide, by decide, by decide, by decide, by decide, by decide, by decide⟩

theorem wall_exact : ExactWallBundle (fun _ => True) prob sig env env' half halfLp (fun x i => -x i) wallCfg ⟨(), none⟩ () (2 • (stdNormal 2).restrict half) where
  lifts := env'_lifts
  good := wallCfg_good
  step := ⟨1 / 10, by norm_num, rfl⟩
  walled := half_walled
  ignores := fun _ _ _ _ => rfl
  target := half_scaled
  flow := ⟨stdNormal 2, _, inferInstance, by fun_prop, flow⟩

theorem half_bad (x : Pos XR 2) (i : Fin 2) (h : BufNum.isFinite (x i) = false) : Ieee.Bad (halfTarget.val x ⟨(), none⟩) := by
  have : x ∉ emb '' half := by
    rintro ⟨y, -, rfl⟩
    simp [emb, BufNum.isFinite] at h
  simp only [halfTarget, this, if_false]
  exact .inr rfl

theorem half_ok (x : Fin 2 → ℝ) (hx : x ∈ half) : ¬ Ieee.Bad (halfTarget.val (emb x) ⟨(), none⟩) := by
  rw [half_walled.inside x hx]
  rintro (h | h) <;> cases h

/-- A whole `sample` call on the truncated normal: each row of the production buffer is truncated normal. -/
example : ∃ s' : Outcome → Sampler XR Unit 2 Unit Unit Unit,
    (∀ ω, ∃ s, Sampler.new 2 2 (.root 7) none none none (some (malaBundle wallCfg)) [] = .ok s ∧
      s.sample (env' ω) (.mat [emb (halfStart ω), emb (fold (start2 ω))]) ⟨(), none⟩ = (.ok (), s' ω)) ∧
    ∀ i < 2, ∀ j < 12, ∃ Y : ↑(Set.univ : Set Outcome) → Fin 2 → ℝ, Measurable Y ∧ (condOn prob Set.univ).map Y = 2 • (stdNormal 2).restrict half ∧
      ∀ ω : ↑(Set.univ : Set Outcome), 0 ≤ Y ω 0 ∧ ∃ b, (s' ω).heap.res "positions_production" = some (.buffer b) ∧ ∀ a : Fin 2, b.data.get [i, j, a] = XR.fin (Y ω a) := by
  obtain ⟨w, s', h1, h2, h3⟩ := C67_sample (V := Unit) (S := half) (lp := halfLp) (g := fun x i => -x i) draws (fun ω => flow.lawful ω) env' env'_lifts wallCfg wallCfg_good (by decide) (by decide)
    ⟨(), none⟩ (fun _ _ _ _ => rfl) half_bad 2 2 (.root 7) [] _ rfl
    (fun ω => .mat [emb (halfStart ω), emb (fold (start2 ω))]) (fun _ => rfl) (by
      intro ω x hx
      simp only [InitPos.atleast2d, List.mem_cons, List.not_mem_nil, or_false] at hx
      rcases hx with rfl | rfl
      · exact half_ok _ (fold_mem _)
      · exact half_ok _ (fold_mem _))
  have hw : ∀ ω, w ω = ⟨.root 7, [emb (halfStart ω), emb (fold (start2 ω))], (w ω).heap⟩ ∧ (w ω).heap.res "global_sampler" = some (.kernel (.nf () 4)) := by
    intro ω
    have h := h2 ω
    simp only [wallCfg, repeatPhase, List.replicate_zero, List.flatten_nil, List.nil_append] at h
    obtain ⟨e1, e2, -, -, -, e3, -⟩ := switch_step (env' ω) wallCfg _ (bundle_hasCore wallCfg) ⟨(), none⟩ _ _ h (fun _ => []) (bundleInv_fresh wallCfg _ (fun _ _ => rfl))
    refine ⟨?_, by rw [e3 _ (by decide)]; rfl⟩
    simp only at e1 e2
    cases hw : w ω
    rw [hw] at e1 e2
    simp only at e1 e2
    rw [e1, e2]
    rfl
  refine ⟨s', fun ω => ⟨_, rfl, h1 ω⟩, ?_⟩
  refine h3 Set.univ () _ half_prob wall_exact MeasurableSet.univ (by simp) (fun ω _ => (hw ω).2) ?_
  intro i hi
  rw [show wallCfg.nChains = 2 from rfl] at hi
  rcases (show i = 0 ∨ i = 1 by omega) with rfl | rfl
  · refine ⟨halfStart, fun ω _ => ⟨by rw [(hw ω).1]; rfl, fold_mem _⟩, (fold_meas.comp start_known).mono (past_le_info ?_) le_rfl, by rw [cond_univ, halfStart_law]⟩
    rintro ⟨a, ha, -⟩; simp at ha
  · refine ⟨fun ω => fold (start2 ω), fun ω _ => ⟨by rw [(hw ω).1]; rfl, fold_mem _⟩, (fold_meas.comp start2_known).mono (past_le_info ?_) le_rfl, ?_⟩
    · rintro ⟨a, ha, -⟩; simp at ha
    · have : (fun ω => fold (start2 ω)) = fold ∘ start2 := rfl
      rw [cond_univ, this, ← Measure.map_map fold_meas (start2_known.mono draws.past_le le_rfl), start2_law, fold_law]

end
end Ideal
end FlowMC
