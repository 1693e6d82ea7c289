import Verif.Props.WitnessExtend
import Verif.Props.ExtendTraining
/-
C87: runs that meet the hypotheses.
-/
set_option linter.unusedSectionVars false
namespace FlowMC
open Spec
namespace Toy
open XR

/-- The same configuration with five training loops and four production loops. -/
noncomputable def moreCfg : BundleCfg XR Unit 1 Unit Unit := { xrCfg with nTrainLoops := 5, nProdLoops := 4 }

theorem moreCfg_good : GoodCfg moreCfg := ⟨by decide, by decide, by decide, by decide, by decide, by decide, by decide⟩

theorem mala_more : (fresh (malaBundle moreCfg)).sample xrEnv xrInit ⟨(), none⟩ = (.ok (), after (malaBundle moreCfg)) := by
  obtain ⟨s', h⟩ := C66_never_raises (V := Unit) xrEnv xrEnv_lawful moreCfg moreCfg_good (by decide) (by decide) ⟨(), none⟩ (fun _ _ _ _ => rfl) xr_undefined 1 2 (.root 7) []
    (fresh (malaBundle moreCfg)) rfl xrInit rfl xr_start
  rw [h, after, h]

theorem pt_more : (fresh (ptBundle moreCfg xrPT)).sample xrEnv xrInit ⟨(), none⟩ = (.ok (), after (ptBundle moreCfg xrPT)) := by
  obtain ⟨s', h⟩ := C66_tempered_any_prior (V := Unit) xrEnv xrEnv_lawful moreCfg moreCfg_good
    xrPT (by decide) (by decide) (by decide) 10 rfl (by norm_num) ⟨(), none⟩ (fun _ _ _ _ => rfl) xr_undefined 1 2 (.root 7) [] (fresh (ptBundle moreCfg xrPT)) rfl xrInit rfl xr_start
  rw [h, after, h]

/-! C87: the short and the long run of both bundles -/
example := C87_extends (V := Unit) xrEnv xrEnv_lawful (by decide) rfl none xrCfg xrCfg_good 5 4 (by decide) ⟨(), none⟩ 1 2 (.root 7) [] (fresh (malaBundle xrCfg)) _ (fresh (malaBundle moreCfg)) _ rfl rfl xrInit rfl
  mala_run mala_more
example := C87_extends (V := Unit) xrEnv xrEnv_lawful (by decide) rfl (some xrPT) xrCfg xrCfg_good 5 4 (by decide) ⟨(), none⟩ 1 2 (.root 7) [] (fresh (ptBundle xrCfg xrPT)) _ (fresh (ptBundle moreCfg xrPT)) _ rfl rfl
  xrInit rfl pt_run pt_more

/-- The first training loops of a complete run are completed. -/
theorem first_loops (c : BundleCfg XR Unit 1 Unit Unit) (s1 : Sampler XR Unit 1 Unit Unit Unit) (hrun : (fresh (libraryBundle (some xrPT) c)).sample xrEnv xrInit ⟨(), none⟩ = (.ok (), s1)) (l : ℕ) (hl : l ≤ c.nTrainLoops) :
    ∃ k ys h, runOrder xrEnv (libraryBundle (some xrPT) c).strategies.lookup (firstLoops (some xrPT) l) (.root 7) xrInit.atleast2d ⟨(), none⟩ ⟨(libraryBundle (some xrPT) c).resources, fun _ => 0⟩ = (.ok (k, ys), h) := by
  obtain ⟨k1, xs1, h1, -⟩ := sample_completes xrEnv _ s1 _ rfl xrInit ⟨(), none⟩ hrun
  obtain ⟨e, he⟩ : ∃ e, c.nTrainLoops = l + e := ⟨c.nTrainLoops - l, by omega⟩
  have hord : (libraryBundle (some xrPT) c).strategyOrder = firstLoops (some xrPT) l ++ (repeatPhase e ("parallel_tempering" :: trainingPhase) ++
      (["reset_steppers", "update_state"] ++ repeatPhase c.nProdLoops ("parallel_tempering" :: productionPhase))) := by
    rw [strategyOrder_split]
    generalize hA : trainingPhase = A
    generalize hB : productionPhase = B
    simp only [trainingOrder, firstLoops, initOrder, preOf, repeatPhase, he, List.replicate_add, List.flatten_append, List.append_assoc, List.cons_append, List.nil_append, hA]
  have h2 : Completes xrEnv (libraryBundle (some xrPT) c).strategies.lookup ⟨(), none⟩ (firstLoops (some xrPT) l ++ (repeatPhase e ("parallel_tempering" :: trainingPhase) ++
      (["reset_steppers", "update_state"] ++ repeatPhase c.nProdLoops ("parallel_tempering" :: productionPhase)))) ⟨.root 7, xrInit.atleast2d, ⟨(libraryBundle (some xrPT) c).resources, fun _ => 0⟩⟩ ⟨k1, xs1, s1.heap⟩ := by
    rw [← hord]; exact h1
  rw [completes_append] at h2
  obtain ⟨w, a, -⟩ := h2
  exact ⟨_, _, _, completes_sample a⟩

/-! C87: the state after one training loop -/
example : ∃ k ys h h', runOrder xrEnv (libraryBundle (some xrPT) xrCfg).strategies.lookup (firstLoops (some xrPT) 1) (.root 7) xrInit.atleast2d ⟨(), none⟩ ⟨(libraryBundle (some xrPT) xrCfg).resources, fun _ => 0⟩ = (.ok (k, ys), h) ∧
    runOrder xrEnv (libraryBundle (some xrPT) moreCfg).strategies.lookup (firstLoops (some xrPT) 1) (.root 7) xrInit.atleast2d ⟨(), none⟩ ⟨(libraryBundle (some xrPT) moreCfg).resources, fun _ => 0⟩ = (.ok (k, ys), h') ∧
    ResAgree notRecorded h h' := by
  obtain ⟨k, ys, h, e⟩ := first_loops xrCfg _ pt_run 1 (by decide)
  obtain ⟨k', ys', h', e'⟩ := first_loops moreCfg _ pt_more 1 (by decide)
  obtain ⟨rfl, rfl, hA⟩ := C87_training xrEnv xrEnv_lawful (by decide) rfl (some xrPT) xrCfg xrCfg_good 5 4 (by decide) ⟨(), none⟩ (.root 7) xrInit.atleast2d rfl 1 (by decide) _ _ _ _ _ _ e e'
  exact ⟨_, _, _, _, e, e', hA⟩

end Toy
end FlowMC
