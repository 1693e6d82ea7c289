import Verif.Props.Extend
import Verif.Props.WitnessRuns
/-
C84, C85: runs that meet the hypotheses.
-/
set_option linter.unusedSectionVars false
namespace FlowMC
open Spec
namespace Toy
open XR

/-- The same configuration with seven production loops. -/
noncomputable def longCfg : BundleCfg XR Unit 1 Unit Unit := { xrCfg with nProdLoops := 7 }

theorem longCfg_good : GoodCfg longCfg := ⟨by decide, by decide, by decide, by decide, by decide, by decide, by decide⟩

theorem mala_long : (fresh (malaBundle longCfg)).sample xrEnv xrInit ⟨(), none⟩ = (.ok (), after (malaBundle longCfg)) := by
  obtain ⟨s', h⟩ := C66_never_raises (V := Unit) xrEnv xrEnv_lawful longCfg longCfg_good (by decide) (by decide) ⟨(), none⟩ (fun _ _ _ _ => rfl) xr_undefined 1 2 (.root 7) []
    (fresh (malaBundle longCfg)) rfl xrInit rfl xr_start
  rw [h, after, h]

theorem pt_long : (fresh (ptBundle longCfg xrPT)).sample xrEnv xrInit ⟨(), none⟩ = (.ok (), after (ptBundle longCfg xrPT)) := by
  obtain ⟨s', h⟩ := C66_tempered_any_prior (V := Unit) xrEnv xrEnv_lawful longCfg longCfg_good
    xrPT (by decide) (by decide) (by decide) 10 rfl (by norm_num) ⟨(), none⟩ (fun _ _ _ _ => rfl) xr_undefined 1 2 (.root 7) [] (fresh (ptBundle longCfg xrPT)) rfl xrInit rfl xr_start
  rw [h, after, h]

/-! C85: the short and the long run of both bundles -/
example := C85_extends (V := Unit) xrEnv xrEnv_lawful none xrCfg xrCfg_good 7 (by decide) ⟨(), none⟩ 1 2 (.root 7) [] (fresh (malaBundle xrCfg)) _ (fresh (malaBundle longCfg)) _ rfl rfl xrInit rfl mala_run mala_long
example := C85_extends (V := Unit) xrEnv xrEnv_lawful (some xrPT) xrCfg xrCfg_good 7 (by decide) ⟨(), none⟩ 1 2 (.root 7) [] (fresh (ptBundle xrCfg xrPT)) _ (fresh (ptBundle longCfg xrPT)) _ rfl rfl xrInit rfl pt_run pt_long
example := C85_training xrEnv (some xrPT) xrCfg 7 ⟨(), none⟩ (.root 7) xrInit.atleast2d

/-! C84: resources that differ in the production buffers -/
example := C84_take_steps xrEnv (localStepper xrCfg) (.root 3) xrInit.atleast2d ⟨(), none⟩ ⟨(malaBundle xrCfg).resources, fun _ => 0⟩ ⟨(malaBundle longCfg).resources, fun _ => 0⟩
  (fresh_agree none xrCfg 7 _) ⟨by simp [notProduction, localStepper], by simp [notProduction, localStepper], by simp [notProduction, localStepper], by
    intro st hst key hk n hn
    simp only [localStepper] at hst hk
    have : st = initialState := by
      have e : (malaBundle xrCfg).resources "sampler_state" = some (.state initialState) := rfl
      rw [e] at hst; cases hst; rfl
    subst this
    simp only [List.mem_cons, List.not_mem_nil, or_false] at hk
    rcases hk with rfl | rfl | rfl <;> (cases hn; simp [notProduction])⟩
example := C84_train_model xrEnv (modelTrainer xrCfg) (.root 3) xrInit.atleast2d ⟨(malaBundle xrCfg).resources, fun _ => 0⟩ ⟨(malaBundle longCfg).resources, fun _ => 0⟩
  (fresh_agree none xrCfg 7 _) (by simp [notProduction, modelTrainer]) (by simp [notProduction, modelTrainer]) (by simp [notProduction, modelTrainer]) (by simp [notProduction, modelTrainer])
example := C84_tempering xrEnv (ptStrat xrCfg xrPT) (.root 3) xrInit.atleast2d ⟨(), none⟩ ⟨(ptBundle xrCfg xrPT).resources, fun _ => 0⟩ ⟨(ptBundle longCfg xrPT).resources, fun _ => 0⟩
  (fresh_agree (some xrPT) xrCfg 7 _) (by simp [notProduction, ptStrat]) (by simp [notProduction, ptStrat]) (by simp [notProduction, ptStrat]) (by simp [notProduction, ptStrat])
example := C84_update_state (F := XR) (D := Unit) (M := Unit) (O := Unit) updateStateStrat (.root 3) xrInit.atleast2d ⟨(malaBundle xrCfg).resources, fun _ => 0⟩ ⟨(malaBundle longCfg).resources, fun _ => 0⟩
  (fresh_agree none xrCfg 7 _) (by simp [notProduction, updateStateStrat])

end Toy
end FlowMC
