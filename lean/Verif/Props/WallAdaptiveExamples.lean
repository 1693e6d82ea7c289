import Verif.Props.WallAdaptive
import Verif.Props.LearningExamples
import Verif.Props.WallConvergeExamples
/-
Non-vacuity of C90: the normal target cut off at a half plane, with a flow that is moved to one of the recorded positions, drawn at random.
-/
open MeasureTheory ProbabilityTheory
open scoped ENNReal
set_option linter.unusedSectionVars false
namespace FlowMC
open Spec
namespace Learn
open Ideal
noncomputable section
open Classical

/-- The world `env` in arithmetic with infinities and NaN; an optimisation step moves the flow to the first example of the batch. -/
def wallEnv (ω : Outcome) : Env XR Unit 2 (Pos ℝ 2) ℕ where
  rng := liftRng (env ω).rng
  ops := {
    sample := fun m k n => ((env ω).ops.sample m k n).map emb
    logProb := fun m x => .fin ((env ω).ops.logProb m (unemb x))
    trainStep := fun m o b => (.fin 0, unemb (b.getD 0 (emb m)), o + 1)
    setStats := fun m _ => m }
  big := .fin 1000000000

theorem wallEnv_lifts (ω : Outcome) : Lifts (env ω) (wallEnv ω) := ⟨rfl, fun _ _ _ => rfl, fun _ _ => rfl⟩

theorem unemb_measurable : Measurable (unemb : Pos XR 2 → Fin 2 → ℝ) := measurable_pi_lambda _ fun i => XR.measurable_toReal.comp (measurable_pi_apply i)

theorem wall_head_meas : Measurable fun p : Pos ℝ 2 × ℕ × List (Pos XR 2) => unemb (p.2.2.getD 0 (emb p.1)) := by
  have e : (fun p : Pos ℝ 2 × ℕ × List (Pos XR 2) => unemb (p.2.2.getD 0 (emb p.1))) = fun p => if p.2.2.length = 0 then p.1 else unemb (p.2.2.getD 0 (emb 0)) := by
    funext p
    obtain ⟨m, o, b⟩ := p
    cases b with
    | nil => rfl
    | cons a b => simp
  rw [e]
  refine Measurable.ite ?_ measurable_fst (unemb_measurable.comp ((measurable_getD 0 (emb 0)).comp (measurable_snd.comp measurable_snd)))
  exact (measurable_length.comp (measurable_snd.comp measurable_snd)) (MeasurableSet.of_discrete (s := {0}))

theorem wallTraining : OrdinaryTraining sig wallEnv Set.univ where
  shuffle k n := measurable_const
  choose k n m := Measurable.ite (measurableSet_lt (measurable_snd.comp (sig_measurable k)) measurable_const) measurable_const measurable_const
  step := ⟨fun m o b => (.fin 0, unemb (b.getD 0 (emb m)), o + 1), by
    refine measurable_const.prodMk (Measurable.prodMk ?_ ?_)
    · exact wall_head_meas
    · exact (measurable_from_top (f := fun n : ℕ => n + 1)).comp (measurable_fst.comp measurable_snd), fun _ => rfl, fun _ _ _ _ => trivial⟩
  stats := ⟨fun m _ => m, measurable_fst, fun _ => rfl, fun _ _ _ => trivial⟩
  big := ⟨_, fun _ => rfl⟩

/-- Two training loops of three epochs on the truncated normal; the flow starts at (5, 5). -/
def wallRunCfg : BundleCfg XR Unit 2 (Pos ℝ 2) ℕ where
  key := .root 0
  nChains := 2
  logpdf := halfTarget
  nLocal := 4
  nGlobal := 6
  nTrainLoops := 2
  nProdLoops := 3
  nEpochs := 3
  stepSize := .fin (1 / 10)
  localThin := 2
  globalThin := 3
  nfBatch := 4
  batchSize := 2
  mkModel := fun _ => ![5, 5]
  mkOptim := fun _ => 0

theorem wallAdaptive : AdaptiveWallBundle (fun _ => True) prob sig env wallEnv half halfLp (fun x i => -x i) wallRunCfg ⟨(), none⟩ (stdNormal 2) push lnf Set.univ where
  lifts := wallEnv_lifts
  good := ⟨by decide, by decide, by decide, by decide, by decide, by decide, by decide⟩
  step := ⟨1 / 10, by norm_num, rfl⟩
  walled := half_walled
  ignores := fun _ _ _ _ => rfl
  nonzero := half_mass.1
  finite := half_mass.2
  flows := flows

/-- Non-vacuity of C90: two chains, one started far away and one on the wall; late rows are close to independent draws from the truncated normal. -/
example (ε : ℝ) (hε : 0 < ε) : ∃ N, ∀ n, ∃ s' : Outcome → Sampler XR Unit 2 (Pos ℝ 2) ℕ Unit,
    (∀ ω, ∃ s, Sampler.new 2 2 (.root 7) none none none (some (malaBundle (wallRunCfg.withProd n))) [] = .ok s ∧ s.sample (wallEnv ω) (.mat [emb (corner 0), emb (corner 1)]) ⟨(), none⟩ = (.ok (), s' ω)) ∧
    ∀ j j' : ℕ, j < n * 4 → j' < n * 4 → ∃ Y : Fin 2 → Outcome → Pos ℝ 2, (∀ i, Measurable (Y i)) ∧ (∀ i ω, 0 ≤ Y i ω 0) ∧
      (N ≤ j → N ≤ j' → FreshInLaw (before past sig (trainedKey 2 3 (.root 7))) prob (fun ω i => Y i ω) (Measure.pi fun _ => normalised (wallMeasure half halfLp)) ε) ∧
      ∀ ω, ∃ b, (s' ω).heap.res "positions_production" = some (.buffer b) ∧ (∀ a : Fin 2, b.data.get [0, j, a] = XR.fin (Y 0 ω a)) ∧ ∀ a : Fin 2, b.data.get [1, j', a] = XR.fin (Y 1 ω a) := by
  obtain ⟨N, hN⟩ := C90_adaptive (V := Unit) draws wallRunCfg (by decide) (by decide) (fun _ => rfl) ⟨(), none⟩ wallAdaptive wallTraining trivial (.root 7) (fun ω => .mat [emb (corner 0), emb (corner 1)]) (fun _ => rfl)
    (fun i hi => by
      rw [show wallRunCfg.nChains = 2 from rfl] at hi
      refine ⟨fun _ => corner i, measurable_const, fun _ => ⟨?_, corner_mem i⟩⟩
      rcases (show i = 0 ∨ i = 1 by omega) with rfl | rfl <;> rfl) ε hε
  refine ⟨N, fun n => ?_⟩
  obtain ⟨s', h1, h2⟩ := hN n 2 2 [] _ rfl
  refine ⟨s', fun ω => ⟨_, rfl, h1 ω⟩, fun j j' hj hj' => ?_⟩
  have e : (wallRunCfg.withProd n).nProdSteps = n * 4 := by simp only [BundleCfg.nProdSteps, BundleCfg.withProd, wallRunCfg]; omega
  obtain ⟨Y, hY, hS, hF, hb⟩ := h2 ![j, j'] (by rw [e]; intro i; refine Fin.cases hj (fun i => ?_) i; rw [Subsingleton.elim i 0]; exact hj')
  refine ⟨Y, hY, hS, fun h h' => hF fun i => ?_, fun ω => ?_⟩
  · refine Fin.cases h (fun i => ?_) i; rw [Subsingleton.elim i 0]; exact h'
  · obtain ⟨b, h3, h4⟩ := hb ω
    exact ⟨b, h3, h4 (0 : Fin 2), h4 (1 : Fin 2)⟩

end
end Learn
end FlowMC
