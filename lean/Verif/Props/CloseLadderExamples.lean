import Verif.Props.CloseLadder
import Verif.Props.IdealTemper
import Verif.Props.ComposeExamples
/-
Non-vacuity of C124: exchanges between replicas of the example world.
-/
open MeasureTheory ProbabilityTheory
set_option linter.unusedSectionVars false
namespace FlowMC
open Spec
namespace Ideal

theorem tempered_call (x : Pos ℝ 2) : tempered.call x ⟨(), none⟩ = -(x 0 ^ 2 + x 1 ^ 2) / 2 := rfl

/-- Non-vacuity of C124 (certain) and (rotation): the more likely walker goes to the colder temperature. -/
example (ω : Outcome) (k : Key) : (exchange { (env ω).rng with uniform := fun _ => 1 / 2 } tempered ⟨(), none⟩ [1, 4] k [![1, 0], ![0, 0]]).1.positions = ([![1, 0], ![0, 0]] : List (Pos ℝ 2)).rotate 1 := by
  refine C124_rotation _ _ _ _ _ _ fun f hf => ?_
  rw [(C124_certain { (env ω).rng with uniform := fun _ => 1 / 2 } tempered ⟨(), none⟩ 1 4 one_pos (by norm_num) k ![1, 0] ![0, 0] (by rw [tempered_call, tempered_call]; norm_num) fun _ => by norm_num).2] at hf
  simpa using hf

/-- Non-vacuity of C124 (probability). -/
example : prob.real {ω | (exchange (env ω).rng tempered ⟨(), none⟩ [1, 4] (.root 5) [![0, 0], ![1, 0]]).2 = [true]} = Real.exp (-(3 / 8)) := by
  rw [C124_probability (drawsFrom (.root 5)) tempered ⟨(), none⟩ 1 4 one_pos (by norm_num) ![0, 0] ![1, 0] (by rw [tempered_call, tempered_call]; norm_num), tempered_call, tempered_call]
  norm_num

/-- Non-vacuity of C124 (close): three replicas. -/
example : 1 - (2 : ℕ) * (1 - Real.exp (-(1 / 2 * (1 / 2)))) ≤ prob.real {ω | (∀ f ∈ (exchange (env ω).rng tempered ⟨(), none⟩ [1, 2, 4] (.root 5) [![0, 0], ![1, 0], ![0, 1]]).2, f = true) ∧
    (exchange (env ω).rng tempered ⟨(), none⟩ [1, 2, 4] (.root 5) [![0, 0], ![1, 0], ![0, 1]]).1.positions = ([![0, 0], ![1, 0], ![0, 1]] : List (Pos ℝ 2)).rotate 1} := by
  refine C124_close (drawsFrom (.root 5)) tempered ⟨(), none⟩ [1, 2, 4] 3 (1 / 2) (1 / 2) (by norm_num) (by norm_num) (fun i hi => ?_) (fun _ => [![0, 0], ![1, 0], ![0, 1]]) (fun _ => rfl) (fun _ a ha b hb => ?_)
  · obtain rfl | rfl : i = 0 ∨ i = 1 := by omega
    · norm_num [abs_le]
    · norm_num [abs_le]
  · simp only [List.mem_cons, List.not_mem_nil, or_false] at ha hb
    rw [tempered_call, tempered_call]
    rcases ha with rfl | rfl | rfl <;> rcases hb with rfl | rfl | rfl <;> norm_num [abs_le]

/-- Non-vacuity of C124 (adaptation): two chains that always exchange. -/
example : adaptTemperature [1, 2, 5, 100] [[true, true, true], [true, true, true]] = ([1, 2, 5, 100] : List ℝ) := by
  refine C124_adaptation _ _ fun j hj => ?_
  simp only [List.length_cons, List.length_nil] at hj
  obtain rfl | rfl : j = 0 ∨ j = 1 := by omega
  · norm_num [exchangedFraction]
  · norm_num [exchangedFraction]

end Ideal
end FlowMC
