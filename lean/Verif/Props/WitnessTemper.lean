import Verif.Props.TemperChains
import Verif.Props.WitnessTraining
import Verif.Props.WitnessCalls
/-
Non-vacuity of the theorems about chain independence of tempering and optimisation: one chain is kept, the other chain, its replicas and every random number outside the kept
chain's keys are changed.
-/
set_option linter.unusedSectionVars false
namespace FlowMC
open Spec
namespace Toy

/-- The tempering call from other random numbers. -/
theorem temperSiteOff (S : Key → Prop) (b : Bool) : TemperSite temperStrat (temperHeap b) (envOff S).rng [(fun _ => 55 : Pos Int 1), fun _ => 100].length 2 "P" "T"
    (Buffer.new "P" [2, 2, 1] 2) { (Buffer.new "T" [3] 0 : Buffer Int) with data := arr1 0 [1, 2, 3] } (fun k x lp t data => grwKernel (envOff S).rng 1 k x lp t data)
    ⟨⟨Toy.target, []⟩, Toy.target⟩ (.bool b) where
  names := ⟨[], rfl⟩
  ne := by decide
  kernel := ⟨.grw 1, rfl, rfl⟩
  density := rfl
  posBuf := rfl
  tempBuf := rfl
  state := ⟨_, rfl, rfl⟩
  posShape := rfl
  tempShape := rfl
  posDim := by decide
  tempDim := rfl

example := C13_tempering env (envOff (temperChainKeys (.root 3) 1)) temperStrat (.root 3) start [fun _ => 55, fun _ => 100] data (temperHeap true) (temperHeap true) 2 "P" "T"
  _ _ _ _ _ _ _ _ (temperSite true) (temperSiteOff _ true) rfl rfl 1 (by decide) rfl (fun _ _ _ => rfl) (envOff_agree _)
example := C13_optimization env (envOff (Desc (.child (.child (.root 3) 1) 1)))
  (⟨target, 2, 1, [(-1, 1)], ⟨Unit, fun _ => (), fun g _ _ => (fun i => -g i, ())⟩⟩ : AdamOptimization Int Unit 1) (.root 3) start [fun _ => 55, fun _ => 100] data (heap 6) (heap 6)
  (Or.inl rfl) 1 (by decide) rfl (envOff_agree _)

end Toy
end FlowMC
