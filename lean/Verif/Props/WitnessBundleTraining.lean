import Verif.Props.BundleTraining
import Verif.Props.WitnessTraining
/-
Non-vacuity of the theorems of BundleTraining.lean and AdamDraws.lean.
-/
namespace FlowMC.Toy
open Spec

/-- Two chains with three recorded training positions each, room for six losses. -/
def bundleTrainHeap : Heap Int Unit 1 Int Int where
  res := fun n => match n with
    | "model" => some (.model 0)
    | "optimizer" => some (.optimizer 0)
    | "positions_training" => some (.buffer { (Buffer.new "positions_training" [2, 3, 1] 1 : Buffer Int) with
        data := arr3 0 2 3 (d := 1) [[fun _ => 1, fun _ => 2, fun _ => 3], [fun _ => 4, fun _ => 5, fun _ => 6]] })
    | "loss_buffer" => some (.buffer (Buffer.new "loss_buffer" [6] 0))
    | _ => none
  pos := fun _ => 0

example := C60_trainer env cfg none data _ rfl (.root 3) start bundleTrainHeap 0 0 _ 2 3 3 6 [] rfl rfl rfl rfl (by decide) (by decide) (by decide) (by decide) (by decide)
  ⟨_, rfl, rfl, rfl, rfl, by simp⟩ (by decide)
example := C60_trainer env cfg (some { ptCfg with historyWindow := 2 }) data _ rfl (.root 3) start bundleTrainHeap 0 0 _ 2 3 3 6 [] rfl rfl rfl rfl (by decide) (by decide) (by decide) (by decide) (by decide)
  ⟨_, rfl, rfl, rfl, rfl, by simp⟩ (by decide)
example := C35_flag_off env temperStrat (.root 3) start data (temperHeap false) _ rfl rfl
example := C35_flag_on env temperStrat (.root 3) start data (temperHeap true) 2 "P" "T" _ _ _ _ (temperSite true)

end FlowMC.Toy
