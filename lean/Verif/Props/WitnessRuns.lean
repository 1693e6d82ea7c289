import Verif.Props.ProductionExamples
import Verif.Props.Schedule
import Verif.Props.Histogram
import Verif.Props.SecondRun
import Verif.Props.TrainSource
import Verif.Props.TemperBundle
/-
Non-vacuity of the theorems about runs of the two bundles: complete runs on extended reals, to which the theorems apply.  Every `example` below applies a theorem to
concrete data; its statement is the theorem's conclusion at that data.
-/
set_option linter.unusedSectionVars false
namespace FlowMC
open Spec
namespace Toy
open XR

theorem xrCfg_good : GoodCfg xrCfg := ⟨by decide, by decide, by decide, by decide, by decide, by decide, by decide⟩
theorem xrEnv_lawful : xrEnv.ops.Lawful := fun m k n => by simp [xrEnv]

/-- The starting positions of the two chains. -/
noncomputable def xrInit : InitPos XR 1 := .mat [fun _ => fin 3, fun _ => fin 0]

theorem xr_undefined (x : Pos XR 1) (i : Fin 1) (hx : BufNum.isFinite (x i) = false) : Ieee.Bad (xrTarget.val x ⟨(), none⟩) := by
  obtain rfl : i = 0 := Subsingleton.elim _ _
  right
  simp only [xrTarget]
  cases h : x 0 with
  | fin a => rw [h] at hx; simp [BufNum.isFinite] at hx
  | _ => rfl

theorem xr_start : ∀ x ∈ xrInit.atleast2d, ∀ i, BufNum.isFinite (x i) = true := fun x hx => by
  simp only [xrInit, InitPos.atleast2d, List.mem_cons, List.not_mem_nil, or_false] at hx
  rcases hx with rfl | rfl <;> · intro i; rfl

/-- A fresh sampler made from a bundle. -/
noncomputable def fresh (b : Bundle XR Unit 1 Unit Unit) : Sampler XR Unit 1 Unit Unit Unit :=
  { nDim := 1, nChains := 2, rngKey := .root 7, heap := ⟨b.resources, b.strategies.cursors⟩, strategies := b.strategies.lookup,
    strategyOrder := some b.strategyOrder, attrs := setAttrs [] (fun _ => none) }

/-- The sampler after `sample`. -/
noncomputable def after (b : Bundle XR Unit 1 Unit Unit) : Sampler XR Unit 1 Unit Unit Unit := ((fresh b).sample xrEnv xrInit ⟨(), none⟩).2

theorem mala_run : (fresh (malaBundle xrCfg)).sample xrEnv xrInit ⟨(), none⟩ = (.ok (), after (malaBundle xrCfg)) := by
  obtain ⟨s', h⟩ := C66_never_raises (V := Unit) xrEnv xrEnv_lawful xrCfg xrCfg_good (by decide) (by decide) ⟨(), none⟩ (fun _ _ _ _ => rfl) xr_undefined 1 2 (.root 7) []
    (fresh (malaBundle xrCfg)) rfl xrInit rfl xr_start
  rw [h, after, h]

theorem pt_run : (fresh (ptBundle xrCfg xrPT)).sample xrEnv xrInit ⟨(), none⟩ = (.ok (), after (ptBundle xrCfg xrPT)) := by
  obtain ⟨s', h⟩ := C66_tempered_any_prior (V := Unit) xrEnv xrEnv_lawful xrCfg xrCfg_good
    xrPT (by decide) (by decide) (by decide) 10 rfl (by norm_num) ⟨(), none⟩ (fun _ _ _ _ => rfl) xr_undefined 1 2 (.root 7) [] (fresh (ptBundle xrCfg xrPT)) rfl xrInit rfl xr_start
  rw [h, after, h]

/-- A prior with a hard boundary, that is `-inf` outside the finite numbers. -/
noncomputable def xrPT' : PTCfg XR Unit 1 where
  nTemps := 3
  maxTemp := fin 10
  logprior := xrTarget

example := C66_tempered_never_raises (V := Unit) xrEnv xrEnv_lawful xrCfg xrCfg_good xrPT' (by decide) (by decide) (by decide) ⟨(), none⟩ (fun _ _ _ _ => rfl) xr_undefined
  xr_undefined 1 2 (.root 7) [] (fresh (ptBundle xrCfg xrPT')) rfl xrInit rfl xr_start

/-- The whole run as a completed sequence of strategies. -/
theorem mala_whole : ∃ k xs, Completes xrEnv (malaBundle xrCfg).strategies.lookup ⟨(), none⟩ (malaBundle xrCfg).strategyOrder
    ⟨.root 7, xrInit.atleast2d, ⟨(malaBundle xrCfg).resources, (malaBundle xrCfg).strategies.cursors⟩⟩ ⟨k, xs, (after (malaBundle xrCfg)).heap⟩ := by
  obtain ⟨k, xs, h, -⟩ := sample_completes xrEnv (fresh (malaBundle xrCfg)) _ _ rfl xrInit ⟨(), none⟩ mala_run
  exact ⟨k, xs, h⟩
theorem pt_whole : ∃ k xs, Completes xrEnv (ptBundle xrCfg xrPT).strategies.lookup ⟨(), none⟩ (ptBundle xrCfg xrPT).strategyOrder
    ⟨.root 7, xrInit.atleast2d, ⟨(ptBundle xrCfg xrPT).resources, (ptBundle xrCfg xrPT).strategies.cursors⟩⟩ ⟨k, xs, (after (ptBundle xrCfg xrPT)).heap⟩ := by
  obtain ⟨k, xs, h, -⟩ := sample_completes xrEnv (fresh (ptBundle xrCfg xrPT)) _ _ rfl xrInit ⟨(), none⟩ pt_run
  exact ⟨k, xs, h⟩

/-- Every prefix of the order completes. -/
theorem mala_prefix (as bs : List String) (h : (malaBundle xrCfg).strategyOrder = as ++ bs) : ∃ w, Completes xrEnv (malaBundle xrCfg).strategies.lookup ⟨(), none⟩ as
    ⟨.root 7, xrInit.atleast2d, ⟨(malaBundle xrCfg).resources, (malaBundle xrCfg).strategies.cursors⟩⟩ w := by
  obtain ⟨k, xs, hc⟩ := mala_whole
  rw [h, completes_append] at hc
  exact hc.imp fun _ h => h.1
theorem pt_prefix (as bs : List String) (h : (ptBundle xrCfg xrPT).strategyOrder = as ++ bs) : ∃ w, Completes xrEnv (ptBundle xrCfg xrPT).strategies.lookup ⟨(), none⟩ as
    ⟨.root 7, xrInit.atleast2d, ⟨(ptBundle xrCfg xrPT).resources, (ptBundle xrCfg xrPT).strategies.cursors⟩⟩ w := by
  obtain ⟨k, xs, hc⟩ := pt_whole
  rw [h, completes_append] at hc
  exact hc.imp fun _ h => h.1

/-! C57, C61: accounting -/
example := C57_accounting xrEnv xrEnv_lawful xrCfg xrCfg_good ⟨(), none⟩ 1 2 (.root 7) [] (fresh (malaBundle xrCfg)) _ rfl xrInit rfl mala_run
example := C61_accounting xrEnv xrEnv_lawful xrCfg xrCfg_good xrPT ⟨(), none⟩ 1 2 (.root 7) [] (fresh (ptBundle xrCfg xrPT)) _ rfl xrInit rfl pt_run
/-- two of the three training loops -/
example := (mala_prefix (repeatPhase 2 trainingPhase) _ rfl).imp fun w h =>
  C57_training_leaves_production xrEnv xrEnv_lawful xrCfg xrCfg_good ⟨(), none⟩ (.root 7) xrInit.atleast2d rfl 2 (by decide) w h

/-! C58: the second production loop -/
example := (mala_prefix (repeatPhase 3 trainingPhase ++ ["reset_steppers", "update_state"]) _ rfl).imp fun w h =>
  C58_runs xrEnv xrCfg _ (.mala) ⟨(), none⟩ (repeatPhase 3 trainingPhase ++ ["reset_steppers"]) productionPhase productionPhase rfl (.root 7) xrInit.atleast2d w h "model" (by decide)
example := (pt_prefix ("initialize_tempered_positions" :: repeatPhase 3 ("parallel_tempering" :: trainingPhase) ++ ["reset_steppers", "update_state"]) _ rfl).imp fun w h =>
  C58_runs xrEnv xrCfg _ (.pt xrPT) ⟨(), none⟩ ("initialize_tempered_positions" :: repeatPhase 3 ("parallel_tempering" :: trainingPhase) ++ ["reset_steppers"])
    ("parallel_tempering" :: productionPhase) ("parallel_tempering" :: productionPhase) rfl (.root 7) xrInit.atleast2d w h "temperatures" (by decide)
example := C58_production_frozen xrEnv xrCfg _ (.pt xrPT) ⟨(), none⟩ ("parallel_tempering" :: productionPhase) (by decide) (.root 3) xrInit.atleast2d _
  (inPhase_update xrEnv (.root 5) xrInit.atleast2d ⟨(), none⟩ ⟨(ptBundle xrCfg xrPT).resources, fun _ => 0⟩ false (inPhase_fresh xrCfg _ (.pt xrPT) _)) "temperatures" (by decide)
example := C58_training_source xrEnv xrCfg _ (.pt xrPT) ⟨(), none⟩ _ rfl (.root 3) xrInit.atleast2d (after (malaBundle xrCfg)).heap (after (malaBundle xrCfg)).heap fun _ _ => rfl

/-! C59: the second global stepper of the run -/
example := (mala_prefix (trainingPhase ++ ["local_stepper", "update_global_step", "model_trainer", "update_model"]) _ rfl).imp fun w h =>
  C59_global_in_sync xrEnv xrCfg _ .mala ⟨(), none⟩ _ _ rfl (.root 7) xrInit.atleast2d w h
/-- in production -/
example := (pt_prefix ("initialize_tempered_positions" :: repeatPhase 3 ("parallel_tempering" :: trainingPhase) ++
    ["reset_steppers", "update_state", "parallel_tempering", "local_stepper", "update_global_step"]) _ rfl).imp fun w h =>
  C59_global_in_sync xrEnv xrCfg _ (.pt xrPT) ⟨(), none⟩ _ _ rfl (.root 7) xrInit.atleast2d w h

/-! C60 -/
example := C60_schedule xrCfg _ .mala
example := C60_schedule xrCfg _ (.pt xrPT)
example := C60_capacity xrCfg _ .mala (by decide) (by decide) (by decide) (by decide)
example := C60_capacity xrCfg _ (.pt xrPT) (by decide) (by decide) (by decide) (by decide)
example := C60_capacity_short { xrCfg with localThin := 3 } _ .mala (by decide) (by decide) (by decide) (by decide)

/-! C61: the second call of the tempering strategy, and the first one in production -/
example := (pt_prefix ("initialize_tempered_positions" :: "parallel_tempering" :: trainingPhase) _ rfl).imp fun w h =>
  C61_call_sites xrEnv xrCfg xrPT (by decide) ⟨(), none⟩ (.root 7) xrInit.atleast2d rfl _ _ rfl w h
example := (pt_prefix ("initialize_tempered_positions" :: repeatPhase 3 ("parallel_tempering" :: trainingPhase) ++ ["reset_steppers", "update_state"]) _ rfl).imp fun w h =>
  C61_call_sites xrEnv xrCfg xrPT (by decide) ⟨(), none⟩ (.root 7) xrInit.atleast2d rfl _ _ rfl w h
example := (pt_prefix ("initialize_tempered_positions" :: "parallel_tempering" :: trainingPhase) _ rfl).imp fun w h =>
  C61_cold_temperature xrEnv xrCfg xrPT (by decide) ⟨(), none⟩ (.root 7) xrInit.atleast2d rfl _ _ rfl w h
example := C61_initial_ladder Ideal.cfg { nTemps := 4, maxTemp := 7, logprior := Ideal.target } (by decide)

/-! C80: histograms after the run -/
example := C80_acceptance rfl xrEnv xrEnv_lawful xrCfg xrCfg_good ⟨(), none⟩ 1 2 (.root 7) [] (fresh (malaBundle xrCfg)) _ rfl xrInit rfl (by decide) mala_run 10
example := C80_acceptance_tempered rfl xrEnv xrEnv_lawful xrCfg xrCfg_good xrPT ⟨(), none⟩ 1 2 (.root 7) [] (fresh (ptBundle xrCfg xrPT)) _ rfl xrInit rfl (by decide) pt_run 10
example := C80_positions xrEnv xrEnv_lawful xrCfg xrCfg_good ⟨(), none⟩ 1 2 (.root 7) [] (fresh (malaBundle xrCfg)) _ rfl xrInit rfl mala_run
example := C80_fresh rfl "b" [2, 3] 1 (by decide) 10
/-- a buffer of which only the first of two chains was filled -/
example := C80_unwritten rfl ⟨"b", ⟨[2, 1], fun i => if i = [0, 0] then fin 1 else ninf⟩, 0, 1⟩ 10 [1, 0] ⟨by decide, by decide, trivial⟩ rfl
example : ∃ counts edges, (⟨"b", ⟨[2, 1], fun i => if i = [0, 0] then fin 1 else fin 4⟩, 0, 1⟩ : Buffer XR).getDistribution 3 = .ok (counts, edges) ∧ counts.sum = 2 ∧
    (edges.length : ℤ) = 4 := by
  obtain ⟨⟨cs, es⟩, h⟩ := (C80_raises ⟨"b", ⟨[2, 1], fun i => if i = [0, 0] then fin 1 else fin 4⟩, 0, 1⟩ 3).1.2 ⟨by decide, fun idx _ => by
    by_cases hh : idx = [0, 0] <;> simp [hh]⟩
  exact ⟨cs, es, h, by rw [(C80_counts h).2.2.2]; rfl, (C80_edges h).1⟩

/-! C11: what a second run does -/
example : ∃ w, Completes xrEnv (malaBundle xrCfg).strategies.lookup ⟨(), none⟩ (malaBundle xrCfg).strategyOrder
    ⟨.root 7, xrInit.atleast2d, ⟨(malaBundle xrCfg).resources, (malaBundle xrCfg).strategies.cursors⟩⟩ w := mala_prefix _ [] (by simp)
example := (mala_prefix _ [] (by simp)).imp fun w h =>
  C11_training_rows_misplaced xrEnv xrCfg _ .mala ⟨(), none⟩ ⟨(), none⟩ (.root 7) (.root 8) xrInit.atleast2d [fun _ => fin 1, fun _ => fin 2] w h trainingPhase _ rfl "positions_training" (by decide)
example := (mala_prefix _ [] (by simp)).imp fun w h =>
  C11_overwrites_production xrEnv xrEnv_lawful xrCfg xrCfg_good (by decide) ⟨(), none⟩ ⟨(), none⟩ (.root 7) (.root 8) xrInit.atleast2d [fun _ => fin 1, fun _ => fin 2] rfl rfl w h

/-! C29: the keys of the run -/
theorem bundle_builtin {F D : Type} {d : Nat} {M O : Type} [Zero F] [One F] [Add F] [Mul F] [Div F] [Sub F] [Neg F] [NatCast F] [Transc F] [FCmp F] [BufNum F]
    (c : BundleCfg F D d M O) (b : Bundle F D d M O) (hb : LibraryBundle c b) (n : String) (t : Strategy F D d M O) (h : b.strategies.lookup n = some t) : t.builtin = true := by
  rcases hb.isBundle.cases' n t h with h1 | h1 | ⟨-, w, h1⟩ | h1 | h1 | h1 | h1 | h1 | ⟨-, p, -, h1⟩ | ⟨-, p, -, h1⟩
  all_goals first | (rw [h1.2]; rfl) | (rw [h1]; rfl)
example := C29_sample xrEnv (fresh (malaBundle xrCfg)) (bundle_builtin xrCfg _ .mala) _ rfl xrInit ⟨(), none⟩ _ mala_run
example := C29_sample xrEnv (fresh (ptBundle xrCfg xrPT)) (bundle_builtin xrCfg _ (.pt xrPT)) _ rfl xrInit ⟨(), none⟩ _ pt_run
/-- the keys of calls 2 and 5 of the run share no descendant -/
example : ∃ keys : List Key, KeyTrace xrEnv (fresh (malaBundle xrCfg)).strategies ⟨(), none⟩ (malaBundle xrCfg).strategyOrder
    ⟨.root 7, xrInit.atleast2d, (fresh (malaBundle xrCfg)).heap⟩ keys ∧
    ∀ ki ki' kj kj', keys[2]? = some ki → keys[3]? = some ki' → keys[5]? = some kj → keys[6]? = some kj' → ∀ a, ¬ (Between ki ki' a ∧ Between kj kj' a) := by
  obtain ⟨k, xs, h⟩ := mala_whole
  obtain ⟨keys, hk, -⟩ := completes_keyTrace (bundle_builtin xrCfg _ .mala) h
  exact ⟨keys, hk, fun ki ki' kj kj' h1 h2 h3 h4 a => C29_run_disjoint _ _ _ _ _ keys hk 2 5 (by decide) ki ki' kj kj' h1 h2 h3 h4 a⟩

/-- A sampler made from the toy bundle over the integers. -/
def intSampler : Sampler Int Unit 1 Int Int Unit :=
  { nDim := 1, nChains := 2, rngKey := .root 1, heap := ⟨(malaBundle cfg).resources, (malaBundle cfg).strategies.cursors⟩, strategies := (malaBundle cfg).strategies.lookup,
    strategyOrder := some (malaBundle cfg).strategyOrder, attrs := fun _ => none }
/-- It can be run twice. -/
theorem int_twice : succeeded (runOrder env intSampler.strategies (malaBundle cfg).strategyOrder (.root 1) start data (intSampler.sample env (.mat start) data).2.heap) = true := by
  decide +kernel
theorem succeeded_completes {e : Env Int Unit 1 Int Int} {st : String → Option (Strategy Int Unit 1 Int Int)} {dt : Data Unit} {names : List String} {k : Key} {xs : List (Pos Int 1)}
    {h : Heap Int Unit 1 Int Int} (hs : succeeded (runOrder e st names k xs dt h) = true) : ∃ w, Completes e st dt names ⟨k, xs, h⟩ w := by
  cases hr : runOrder e st names k xs dt h with
  | mk r hp =>
    rw [hr] at hs
    cases r with
    | error e => simp [succeeded] at hs
    | ok a => exact ⟨_, (C08_sequential _ _ _ _ _ _ _ _ _ _).1 hr⟩
/-- C11: both runs hand the same keys to the strategies. -/
example : ∃ (s' : Sampler Int Unit 1 Int Int Unit) (keys keys' : List Key), intSampler.sample env (.mat start) data = (.ok (), s') ∧
    KeyTrace env intSampler.strategies data (malaBundle cfg).strategyOrder ⟨.root 1, start, intSampler.heap⟩ keys ∧
    KeyTrace env s'.strategies data (malaBundle cfg).strategyOrder ⟨s'.rngKey, start, s'.heap⟩ keys' ∧ keys' = keys := by
  obtain ⟨w, hw⟩ := succeeded_completes mala_completes
  obtain ⟨w2, hw2⟩ := succeeded_completes int_twice
  obtain ⟨keys, hk, -⟩ := completes_keyTrace (bundle_builtin cfg _ .mala) hw
  obtain ⟨keys', hk', -⟩ := completes_keyTrace (bundle_builtin cfg _ .mala) hw2
  have h1 : intSampler.sample env (.mat start) data = (.ok (), (intSampler.sample env (.mat start) data).2) := by
    have := (C08_sequential env (malaBundle cfg).strategies.lookup data (malaBundle cfg).strategyOrder (.root 1) w.key start w.xs
      ⟨(malaBundle cfg).resources, (malaBundle cfg).strategies.cursors⟩ w.heap).2 hw
    simp only [Sampler.sample, intSampler, InitPos.atleast2d]
    rw [this]
  have e2 : (intSampler.sample env (.mat start) data).2.strategies = (malaBundle cfg).strategies.lookup ∧ (intSampler.sample env (.mat start) data).2.rngKey = .root 1 := by
    simp only [Sampler.sample, intSampler]
    split <;> exact ⟨rfl, rfl⟩
  refine ⟨_, keys, keys', h1, hk, ?_, ?_⟩
  · rw [e2.1, e2.2]; exact hk'
  · refine (C11_reuses_keys env intSampler _ (.mat start) (.mat start) data data h1 _ rfl keys keys' hk ?_).2.2
    rw [e2.1, e2.2]; exact hk'

/-! C36: a standard normal prior -/
example := C36_different_targets (M := Unit) (O := Unit) { key := .root 0, nChains := 2, logpdf := ⟨fun x _ => x 0, fun _ _ _ => 1⟩, nLocal := 1, nGlobal := 1, nTrainLoops := 1, nProdLoops := 1, nEpochs := 1, mkModel := fun _ => (), mkOptim := fun _ => (), stepSize := 1 }
  { nTemps := 3, maxTemp := 5, logprior := ⟨fun x _ => -(x 0) ^ 2 / 2, fun x _ _ => -x 0⟩ } (fun _ _ => rfl) (⟨(), none⟩ : Data Unit)

end Toy
end FlowMC
