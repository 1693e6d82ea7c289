import Verif.Props.AdaptiveAverages
import Verif.Props.AdaptiveChains
import Verif.Props.ConvergeExamples
/-
Non-vacuity of C83, C88 and C89: a flow that is moved to one of the recorded positions, drawn at random.
-/
open MeasureTheory ProbabilityTheory
open scoped ENNReal
set_option linter.unusedSectionVars false
namespace FlowMC
open Spec
namespace Learn
open Ideal

/-- The flows are translations of a standard normal; an optimisation step moves the flow to the first example of the batch; the examples are chosen at random. -/
noncomputable def env (ω : Outcome) : Env ℝ Unit 2 (Pos ℝ 2) ℕ where
  rng := {
    normal := fun k n i => (ω (some k)).1 0 i
    uniform := fun k => (ω (some k)).2
    permutation := fun _ n => List.range n
    choice := fun k _ m => if (ω (some k)).2 < 1 / 2 then List.range m else List.replicate m 3 }
  ops := {
    sample := fun m k n => List.ofFn (fun (r : Fin n) (j : Fin 2) => m j + (ω (some k)).1 r j)
    logProb := fun m x => -((x 0 - m 0) ^ 2 + (x 1 - m 1) ^ 2) / 2
    trainStep := fun m o b => (0, b.getD 0 m, o + 1)
    setStats := fun m _ => m }
  big := 1000000000

def push (m z : Pos ℝ 2) : Pos ℝ 2 := fun j => m j + z j
noncomputable def lnf (m x : Pos ℝ 2) : ℝ := -((x 0 - m 0) ^ 2 + (x 1 - m 1) ^ 2) / 2

theorem draws : IdealDraws past sig prob env :=
  ⟨Ideal.draws.past_le, Ideal.draws.sig_le, Ideal.draws.indep, Ideal.draws.normal_meas, Ideal.draws.normal_law, Ideal.draws.uniform_meas, Ideal.draws.uniform_law⟩

theorem density (m : Pos ℝ 2) : SamplesFrom ((stdNormal 2).map (push m)) (lnf m) := by
  obtain ⟨Z, hZ⟩ := Toy.normal_samplesFrom
  refine ⟨Z, ?_⟩
  have hp : Measurable (push m) := by unfold push; fun_prop
  rw [hZ, Measure.map_smul]
  congr 1
  ext A hA
  rw [Measure.map_apply hp hA, targetMeasure, targetMeasure, withDensity_apply _ (hp hA), withDensity_apply _ hA, ← lintegral_indicator (hp hA), ← lintegral_indicator hA,
    ← lintegral_add_left_eq_self (A.indicator fun a => ENNReal.ofReal (Real.exp (lnf m a))) m]
  refine lintegral_congr fun x => ?_
  by_cases hx : m + x ∈ A
  · rw [Set.indicator_of_mem (show x ∈ push m ⁻¹' A from hx), Set.indicator_of_mem hx]
    simp [lnf]
  · rw [Set.indicator_of_notMem (show x ∉ push m ⁻¹' A from hx), Set.indicator_of_notMem hx]

theorem flows : FlowFamily (fun _ => True) prob sig env (stdNormal 2) push lnf Set.univ where
  lawful ω m k n := by simp [env]
  prob := inferInstance
  pushMeas := by unfold push; fun_prop
  lnfMeas := by unfold lnf; fun_prop
  rows k _ n := by
    refine ⟨fun ω (r : Fin n) (i : Fin 2) => (ω (some k)).1 r i, (by fun_prop : Measurable fun (x : Raw) (r : Fin n) (i : Fin 2) => x.1 r i).comp (sig_measurable k),
      (prob_at (some k) (fun x (r : Fin n) (i : Fin 2) => x.1 r i) (by fun_prop)).trans (raw_rows n), fun ω m _ i => ?_⟩
    simp [env, push]
    rfl
  logProb ω m _ := rfl
  density m _ := density m

theorem head_meas : Measurable fun p : Pos ℝ 2 × ℕ × List (Pos ℝ 2) => p.2.2.getD 0 p.1 := by
  have e : (fun p : Pos ℝ 2 × ℕ × List (Pos ℝ 2) => p.2.2.getD 0 p.1) = fun p => if p.2.2.length = 0 then p.1 else p.2.2.getD 0 0 := by
    funext p
    obtain ⟨m, o, b⟩ := p
    cases b <;> simp
  rw [e]
  refine Measurable.ite ?_ measurable_fst ((measurable_getD 0 0).comp (measurable_snd.comp measurable_snd))
  exact (measurable_length.comp (measurable_snd.comp measurable_snd)) (MeasurableSet.of_discrete (s := {0}))

theorem training : OrdinaryTraining sig env Set.univ where
  shuffle k n := measurable_const
  choose k n m := Measurable.ite (measurableSet_lt (measurable_snd.comp (sig_measurable k)) measurable_const) measurable_const measurable_const
  step := ⟨fun m o b => (0, b.getD 0 m, o + 1), by
    refine measurable_const.prodMk (Measurable.prodMk ?_ ?_)
    · exact head_meas
    · exact (measurable_from_top (f := fun n : ℕ => n + 1)).comp (measurable_fst.comp measurable_snd), fun _ => rfl, fun _ _ _ _ => trivial⟩
  stats := ⟨fun m _ => m, measurable_fst, fun _ => rfl, fun _ _ _ => trivial⟩
  big := ⟨_, fun _ => rfl⟩

/-- Two training loops of three epochs; the flow starts at (5, 5). -/
noncomputable def cfg : BundleCfg ℝ Unit 2 (Pos ℝ 2) ℕ where
  key := .root 0
  nChains := 2
  logpdf := target
  nLocal := 4
  nGlobal := 6
  nTrainLoops := 2
  nProdLoops := 3
  nEpochs := 3
  stepSize := 1 / 10
  localThin := 2
  globalThin := 3
  nfBatch := 4
  batchSize := 2
  mkModel := fun _ => ![5, 5]
  mkOptim := fun _ => 0

theorem adaptive : AdaptiveBundle (fun _ => True) prob sig env cfg ⟨(), none⟩ (stdNormal 2) push lnf Set.univ where
  good := ⟨by decide, by decide, by decide, by decide, by decide, by decide, by decide⟩
  step := by norm_num [cfg]
  meas := by simp only [cfg, target]; fun_prop
  gradMeas := by refine measurable_pi_lambda _ fun i => ?_; simp only [cfg, target]; fun_prop
  ignores := fun _ _ _ _ => rfl
  finite := target_finite
  flows := flows

/-- Non-vacuity of C83: two chains, one starting at a fixed point and one at a random point; two training loops. -/
example (ε : ℝ) (hε : 0 < ε) : ∃ N, ∀ n, ∃ s' : Outcome → Sampler ℝ Unit 2 (Pos ℝ 2) ℕ Unit,
    (∀ ω, ∃ s, Sampler.new 2 2 (.root 7) none none none (some (malaBundle (cfg.withProd n))) [] = .ok s ∧ s.sample (env ω) (.mat [![1000, -1000], start ω]) ⟨(), none⟩ = (.ok (), s' ω)) ∧
    ∀ i < 2, ∀ j < n * 4, N ≤ j → ∃ Y : Outcome → Pos ℝ 2, Measurable Y ∧ CloseInLaw prob Y (normalised (targetMeasure fun x => target.val x ⟨(), none⟩)) ε ∧
      FreshInLaw (before past sig (trainedKey 2 3 (.root 7))) prob Y (normalised (targetMeasure fun x => target.val x ⟨(), none⟩)) ε ∧
      ∀ ω, ∃ b, (s' ω).heap.res "positions_production" = some (.buffer b) ∧ ∀ a : Fin 2, b.data.get [i, j, a] = Y ω a := by
  obtain ⟨N, hN⟩ := C83_adaptive (V := Unit) draws cfg (by decide) (by decide) (fun _ => rfl) ⟨(), none⟩ adaptive training trivial (.root 7) (fun ω => .mat [![1000, -1000], start ω]) (fun _ => rfl)
    (fun i hi => by
      rw [show cfg.nChains = 2 from rfl] at hi
      rcases (show i = 0 ∨ i = 1 by omega) with rfl | rfl
      · exact ⟨fun _ => ![1000, -1000], measurable_const, fun _ => rfl⟩
      · exact ⟨start, start_known, fun _ => rfl⟩) ε hε
  refine ⟨N, fun n => ?_⟩
  obtain ⟨s', h1, h2⟩ := hN n 2 2 [] _ rfl
  refine ⟨s', fun ω => ⟨_, rfl, h1 ω⟩, fun i hi j hj hNj => ?_⟩
  have e : (cfg.withProd n).nProdSteps = n * 4 := by simp only [BundleCfg.nProdSteps, BundleCfg.withProd, cfg]; omega
  exact h2 i hi j (by rw [e]; exact hj) hNj

/-- Non-vacuity of C88: the same run; the fraction of production rows with positive first coordinate estimates the probability of that half plane under the target. -/
example (δ ε : ℝ) (hδ : 0 < δ) (hε : 0 < ε) : ∃ L, ∀ n, L ≤ n → ∃ (s' : Outcome → Sampler ℝ Unit 2 (Pos ℝ 2) ℕ Unit) (b : Outcome → Buffer ℝ),
    (∀ ω, ∃ s, Sampler.new 2 2 (.root 7) none none none (some (malaBundle (cfg.withProd n))) [] = .ok s ∧ s.sample (env ω) (.mat [![1000, -1000], start ω]) ⟨(), none⟩ = (.ok (), s' ω)) ∧
    (∀ ω, (s' ω).heap.res "positions_production" = some (.buffer (b ω))) ∧
    prob.real {ω | ∃ i < 2, δ < |(∑ j ∈ Finset.range (n * 4), if 0 < (b ω).data.get [i, j, 0] then (1 : ℝ) else 0) / (n * 4 : ℕ) -
      ∫ x : Pos ℝ 2, (if 0 < x 0 then (1 : ℝ) else 0) ∂(normalised (targetMeasure fun x => target.val x ⟨(), none⟩))|} ≤ ε := by
  obtain ⟨L, hL⟩ := C88_adaptive (V := Unit) draws cfg (by decide) (by decide) (fun _ => rfl) ⟨(), none⟩ adaptive training trivial (.root 7) (fun ω => .mat [![1000, -1000], start ω]) (fun _ => rfl)
    (fun i hi => by
      rw [show cfg.nChains = 2 from rfl] at hi
      rcases (show i = 0 ∨ i = 1 by omega) with rfl | rfl
      · exact ⟨fun _ => ![1000, -1000], measurable_const, fun _ => rfl⟩
      · exact ⟨start, start_known, fun _ => rfl⟩)
    (fun x => if 0 < x 0 then 1 else 0) (Measurable.ite (measurableSet_lt measurable_const (measurable_pi_apply 0)) measurable_const measurable_const) 1 (fun x => by split <;> simp) δ ε hδ hε
  refine ⟨L, fun n hn => ?_⟩
  obtain ⟨s', b, h1, h2, h3⟩ := hL n hn 2 2 [] _ rfl
  have e : (cfg.withProd n).nProdSteps = n * 4 := by simp only [BundleCfg.nProdSteps, BundleCfg.withProd, cfg]; omega
  rw [e] at h3
  exact ⟨s', b, fun ω => ⟨_, rfl, h1 ω⟩, h2, h3⟩

/-- Non-vacuity of C89: the same run; one late row of each of the two chains. -/
example (ε : ℝ) (hε : 0 < ε) : ∃ N, ∀ n, ∃ s' : Outcome → Sampler ℝ Unit 2 (Pos ℝ 2) ℕ Unit,
    (∀ ω, ∃ s, Sampler.new 2 2 (.root 7) none none none (some (malaBundle (cfg.withProd n))) [] = .ok s ∧ s.sample (env ω) (.mat [![1000, -1000], start ω]) ⟨(), none⟩ = (.ok (), s' ω)) ∧
    ∀ j j' : ℕ, N ≤ j → N ≤ j' → j < n * 4 → j' < n * 4 → ∃ Y : Fin 2 → Outcome → Pos ℝ 2, (∀ i, Measurable (Y i)) ∧
      FreshInLaw (before past sig (trainedKey 2 3 (.root 7))) prob (fun ω i => Y i ω) (Measure.pi fun _ => normalised (targetMeasure fun x => target.val x ⟨(), none⟩)) ε ∧
      ∀ ω, ∃ b, (s' ω).heap.res "positions_production" = some (.buffer b) ∧ (∀ a : Fin 2, b.data.get [0, j, a] = Y 0 ω a) ∧ ∀ a : Fin 2, b.data.get [1, j', a] = Y 1 ω a := by
  obtain ⟨N, hN⟩ := C89_adaptive (V := Unit) draws cfg (by decide) (by decide) (fun _ => rfl) ⟨(), none⟩ adaptive training trivial (.root 7) (fun ω => .mat [![1000, -1000], start ω]) (fun _ => rfl)
    (fun i hi => by
      rw [show cfg.nChains = 2 from rfl] at hi
      rcases (show i = 0 ∨ i = 1 by omega) with rfl | rfl
      · exact ⟨fun _ => ![1000, -1000], measurable_const, fun _ => rfl⟩
      · exact ⟨start, start_known, fun _ => rfl⟩) ε hε
  refine ⟨N, fun n => ?_⟩
  obtain ⟨s', h1, h2⟩ := hN n 2 2 [] _ rfl
  refine ⟨s', fun ω => ⟨_, rfl, h1 ω⟩, fun j j' hj1 hj1' hj hj' => ?_⟩
  have e : (cfg.withProd n).nProdSteps = n * 4 := by simp only [BundleCfg.nProdSteps, BundleCfg.withProd, cfg]; omega
  obtain ⟨Y, hY, hF, hb⟩ := h2 ![j, j'] (by rw [e]; intro i; refine Fin.cases ⟨hj1, hj⟩ (fun i => ?_) i; rw [Subsingleton.elim i 0]; exact ⟨hj1', hj'⟩)
  refine ⟨Y, hY, hF, fun ω => ?_⟩
  obtain ⟨b, h3, h4⟩ := hb ω
  exact ⟨b, h3, h4 (0 : Fin 2), h4 (1 : Fin 2)⟩

end Learn
end FlowMC
