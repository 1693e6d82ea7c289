import Verif.Props.WitnessRuns
import Verif.Props.Shared
/-
Non-vacuity of C112.
-/
set_option linter.unusedSectionVars false
namespace FlowMC
open Spec
namespace Toy
open XR

/-- A process in which nothing has been constructed yet. -/
def emptyStore : Store XR Unit 1 Unit Unit := ⟨fun _ _ => none, fun _ _ => 0⟩

/-- A sampler with key `n` made from a bundle whose dictionaries have identities `r`, `r`. -/
noncomputable def objOf (n : Nat) (r : Ref) : SamplerObj XR Unit 1 Unit Unit Unit := .ofBundle 1 2 (.root n) (malaBundle xrCfg) r r []

theorem obj_run (σ : Store XR Unit 1 Unit Unit) (r : Ref) :
    (runCalls xrEnv (σ.alloc (malaBundle xrCfg) r r) [⟨objOf 7 r, xrInit, ⟨(), none⟩⟩]).1 = [.ok ()] := by
  have hv : (objOf 7 r).view (σ.alloc (malaBundle xrCfg) r r) = fresh (malaBundle xrCfg) := by
    simp [objOf, SamplerObj.view, SamplerObj.ofBundle, Store.alloc, fresh]
  simp only [runCalls, SamplerObj.sample, hv, mala_run]

/-- Two samplers on one bundle. -/
example := C112_training_samples (V := Unit) xrEnv xrCfg (malaBundle xrCfg) .mala emptyStore 4 4 1 2 1 2 (.root 7) (.root 8) [] [] xrInit xrInit ⟨(), none⟩ ⟨(), none⟩
  (obj_run emptyStore 4) "positions_training" (by decide)
example : SameBundle (objOf 7 4) (objOf 8 4) := ⟨rfl, rfl⟩
example := C112_shared (V := Unit) xrEnv (objOf 7 4) (objOf 8 4) ⟨rfl, rfl⟩ (emptyStore.alloc (malaBundle xrCfg) 4 4) xrInit ⟨(), none⟩

/-- Two samplers on two bundles, their calls interleaved. -/
example := C112_separate (V := Unit) xrEnv (objOf 7 4) ((emptyStore.alloc (malaBundle xrCfg) 4 4).alloc (malaBundle xrCfg) 5 5)
  [(false, ⟨objOf 8 5, xrInit, ⟨(), none⟩⟩), (true, ⟨objOf 7 4, xrInit, ⟨(), none⟩⟩), (false, ⟨objOf 8 5, xrInit, ⟨(), none⟩⟩)] (by
    intro c hc
    simp only [List.mem_cons, List.not_mem_nil, or_false] at hc
    rcases hc with rfl | rfl | rfl
    · exact ⟨fun h => Bool.noConfusion h, fun _ => ⟨by decide, by decide⟩⟩
    · exact ⟨fun _ => ⟨rfl, rfl⟩, fun h => Bool.noConfusion h⟩
    · exact ⟨fun h => Bool.noConfusion h, fun _ => ⟨by decide, by decide⟩⟩)

end Toy
end FlowMC
