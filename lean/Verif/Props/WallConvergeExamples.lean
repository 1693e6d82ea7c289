import Verif.Props.WallConvergeRun
import Verif.Props.WallExamples
/-
Non-vacuity of C74: the normal target cut off at a half plane, from fixed starting points far from the bulk and on the wall.
-/
open MeasureTheory ProbabilityTheory
open scoped ENNReal
set_option linter.unusedSectionVars false
namespace FlowMC
open Spec
namespace Ideal
noncomputable section
open Classical

theorem half_mass : wallMeasure half halfLp Set.univ ≠ 0 ∧ wallMeasure half halfLp Set.univ ≠ ∞ := by
  obtain ⟨Z, hZ⟩ := half_scaled
  have h1 : (2 • (stdNormal 2).restrict half : Measure (Fin 2 → ℝ)) Set.univ = 1 := measure_univ
  rw [hZ, Measure.smul_apply, smul_eq_mul] at h1
  refine ⟨fun h => by rw [h] at h1; simp at h1, fun h => ?_⟩
  rw [h] at h1
  rcases eq_or_ne Z 0 with rfl | hz
  · simp at h1
  · rw [ENNReal.mul_top hz] at h1; simp at h1

/-- The start of chain `i`. -/
def corner (i : ℕ) : Fin 2 → ℝ := if i = 0 then ![1000, -1000] else ![0, 7]

theorem corner_mem (i : ℕ) : corner i ∈ half := by
  unfold corner half
  split <;> simp

/-- MALA chains on the truncated normal started at the point (1000, -1000). -/
example (ε : ℝ) (hε : 0 < ε) : ∃ N, ∀ (n : ℕ) (k : Key) (j : ℕ), j < n → ∃ Y : Outcome → Fin 2 → ℝ,
    (∀ ω, ((serialSample (fun k x lp t data => malaKernel (liftRng (env ω).rng) (.fin (1/10)) k x lp t data) halfTarget ⟨(), none⟩ n k (emb (corner 0)))[j]?).map (·.pos) = some (emb (Y ω)) ∧ 0 ≤ Y ω 0) ∧
    Measurable Y ∧ (N ≤ j → CloseInLaw prob Y (normalised (wallMeasure half halfLp)) ε) :=
  C74_serial_rows (M := Unit) draws half_walled half_mass.1 half_mass.2 (.mala (.fin (1/10))) ⟨1/10, by norm_num, rfl⟩ _ (fun _ => rfl) (fun _ => corner 0) (fun _ => corner_mem 0) measurable_const ε hε

/-- Flow proposals on the truncated normal started on the wall, at (0, 7). -/
example (ε : ℝ) (hε : 0 < ε) : ∃ N, ∀ (n : ℕ) (k : Key), ∃ rows : Outcome → List (StepOut XR 2),
    (∀ ω, groupSample (env' ω) () 3 halfTarget ⟨(), none⟩ n k (emb (corner 1)) = .ok (rows ω) ∧ (rows ω).length = n) ∧
    ∀ j < n, ∃ Y : Outcome → Fin 2 → ℝ, (∀ ω, ((rows ω)[j]?).map (·.pos) = some (emb (Y ω)) ∧ 0 ≤ Y ω 0) ∧ Measurable Y ∧ (N ≤ j → CloseInLaw prob Y (normalised (wallMeasure half halfLp)) ε) :=
  C74_sweep_rows draws half_walled half_mass.1 half_mass.2 env' env'_lifts () _ _ (by fun_prop) flow 3 (by decide) (fun _ _ _ _ => rfl) (fun _ => corner 1) (fun _ => corner_mem 1) measurable_const ε hε

theorem wall_mixing : MixingWallBundle (fun _ => True) prob sig env env' half halfLp (fun x i => -x i) wallCfg ⟨(), none⟩ () (stdNormal 2) (fun x => -(x 0 ^ 2 + x 1 ^ 2) / 2) where
  lifts := env'_lifts
  good := wallCfg_good
  step := ⟨1 / 10, by norm_num, rfl⟩
  walled := half_walled
  ignores := fun _ _ _ _ => rfl
  nonzero := half_mass.1
  finite := half_mass.2
  prob := inferInstance
  lnfMeas := by fun_prop
  flow := flow

/-- Whole `sample` calls on the truncated normal from the fixed starts (1000, -1000) and (0, 7). -/
example (ε : ℝ) (hε : 0 < ε) : ∃ N, ∀ n, ∃ s' : Outcome → Sampler XR Unit 2 Unit Unit Unit,
    (∀ ω, ∃ s, Sampler.new 2 2 (.root 7) none none none (some (malaBundle (wallCfg.withProd n))) [] = .ok s ∧
      s.sample (env' ω) (.mat [emb (corner 0), emb (corner 1)]) ⟨(), none⟩ = (.ok (), s' ω)) ∧
    ∀ i < 2, ∀ j < n * 4, ∃ Y : ↑(Set.univ : Set Outcome) → Fin 2 → ℝ, Measurable Y ∧ (N ≤ j → CloseInLaw (condOn prob Set.univ) Y (normalised (wallMeasure half halfLp)) ε) ∧
      ∀ ω : ↑(Set.univ : Set Outcome), 0 ≤ Y ω 0 ∧ ∃ b, (s' ω).heap.res "positions_production" = some (.buffer b) ∧ ∀ a : Fin 2, b.data.get [i, j, a] = XR.fin (Y ω a) := by
  obtain ⟨N, hN⟩ := C74_sample (V := Unit) draws env' wallCfg (by decide) (by decide) ⟨(), none⟩ half_bad () (stdNormal 2) _ wall_mixing
    (fun i => Measure.dirac (corner i)) (fun _ => inferInstance) ε hε
  refine ⟨N, fun n => ?_⟩
  obtain ⟨w, s', h1, h2, h3⟩ := hN n 2 2 (.root 7) [] _ rfl (fun _ => .mat [emb (corner 0), emb (corner 1)]) (fun _ => rfl) (by
      intro ω x hx
      simp only [InitPos.atleast2d, List.mem_cons, List.not_mem_nil, or_false] at hx
      rcases hx with rfl | rfl
      · exact half_ok _ (corner_mem _)
      · exact half_ok _ (corner_mem _))
  have hw : ∀ ω, w ω = ⟨.root 7, [emb (corner 0), emb (corner 1)], (w ω).heap⟩ ∧ (w ω).heap.res "global_sampler" = some (.kernel (.nf () 4)) := by
    intro ω
    have h := h2 ω
    simp only [wallCfg, BundleCfg.withProd, repeatPhase, List.replicate_zero, List.flatten_nil, List.nil_append] at h
    obtain ⟨e1, e2, -, -, -, e3, -⟩ := switch_step (env' ω) (wallCfg.withProd n) _ (bundle_hasCore (wallCfg.withProd n)) ⟨(), none⟩ _ _ h (fun _ => []) (bundleInv_fresh (wallCfg.withProd n) _ (fun _ _ => rfl))
    refine ⟨?_, by rw [e3 _ (by decide)]; rfl⟩
    simp only at e1 e2
    cases hw : w ω
    rw [hw] at e1 e2
    simp only at e1 e2
    rw [e1, e2]
    rfl
  refine ⟨s', fun ω => ⟨_, rfl, h1 ω⟩, ?_⟩
  have := h3 Set.univ MeasurableSet.univ (by simp) (fun ω _ => (hw ω).2) ?_
  · intro i hi j hj
    refine this i hi j ?_
    have e : (wallCfg.withProd n).nProdSteps = n * 4 := by simp only [BundleCfg.nProdSteps, BundleCfg.withProd, wallCfg]; omega
    rw [e]; exact hj
  intro i hi
  rw [show wallCfg.nChains = 2 from rfl] at hi
  refine ⟨fun _ => corner i, fun ω _ => ⟨?_, corner_mem i⟩, measurable_const, by rw [cond_univ, Measure.map_const]; simp⟩
  rw [(hw ω).1]
  rcases (show i = 0 ∨ i = 1 by omega) with rfl | rfl <;> rfl

end
end Ideal
end FlowMC
