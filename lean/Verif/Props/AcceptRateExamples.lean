import Verif.Props.AcceptRate
import Verif.Props.ChainAveragesExamples
/-
Non-vacuity of C104: the acceptance buffer of a long thinned random walk, and the rate it estimates is a proper probability.
-/
open MeasureTheory ProbabilityTheory
open scoped ENNReal
set_option linter.unusedSectionVars false
namespace FlowMC
open Spec
namespace Ideal

/-- Non-vacuity of C104: for all `δ`, `ε` there is a run of the thinned random walk — with real buffers — whose recorded flags of the second chain average to the stationary acceptance rate up to `δ`, except with
probability `ε`. -/
example (x : Pos ℝ 2) (δ ε : ℝ) (hδ : 0 < δ) (hε : 0 < ε) : ∃ (L : ℕ) (w : Outcome → World ℝ Unit 2 Unit Unit) (b : Outcome → Buffer ℝ), 0 < L ∧
    (∀ ω, ({ walkStepper with nSteps := 2 * L } : TakeSteps).run (env ω) (.root 3) [start ω, x] ⟨(), none⟩ (longHeap L) = (.ok ((w ω).key, (w ω).xs), (w ω).heap)) ∧
    (∀ ω, (w ω).heap.res "A" = some (.buffer (b ω))) ∧
    prob.real {ω | δ < |(∑ j ∈ Finset.range L, (b ω).data.get [1, 0 + j]) / L - localRate (.grw (1 / 2) : KernelRes ℝ 2 Unit) target ⟨(), none⟩ (stdNormal 2)|} ≤ ε := by
  obtain ⟨L, hL⟩ := C104_local (.root 3) (drawsFrom _) mixHeap.res ⟨(), none⟩ (stdNormal 2) (by rfl) (by rfl) mixStrats [] (by simp) walkStepper rfl (.grw (1 / 2)) rfl trivial _ rfl target rfl
    (by simp only [target]; fun_prop) (by refine measurable_pi_lambda _ fun i => ?_; simp only [target]; fun_prop) Toy.normal_samplesFrom (by simp [MixingSettings]) (fun _ => x) measurable_const δ ε hδ hε
  have hrun : ∀ ω, ∃ ys h', ({ walkStepper with nSteps := 2 * (L + 1) } : TakeSteps).run (env ω) (.root 3) [start ω, x] ⟨(), none⟩ (longHeap (L + 1)) = (.ok (.child (.root 3) 0, ys), h') := by
    intro ω
    obtain ⟨ys, h', e, -⟩ := serial_call (env ω) { walkStepper with nSteps := 2 * (L + 1) } (.root 3) [start ω, x] ⟨(), none⟩ (longHeap (L + 1)) (L + 1) "P" "L" "A" _ _ _
      ⟨_, "p", "l", "a", [], rfl, rfl, rfl, rfl, rfl⟩ (long_recorders (L + 1)) (by simp only [walkStepper, longHeap, ceil_double]; omega) (.grw (1 / 2)) _ target
      ⟨rfl, rfl, rfl, ⟨_, rfl, rfl⟩⟩ (show 0 < 2 by decide) (by simp)
    exact ⟨ys, h', e⟩
  choose ys h' e using hrun
  have := hL (2 * (L + 1)) (by simp only [walkStepper, ceil_double]; omega) (fun ω => ⟨.root 3, [start ω, x], longHeap (L + 1)⟩) (fun ω => ⟨.root 3, [start ω, x], longHeap (L + 1)⟩)
    (fun ω => ⟨_, ys ω, h' ω⟩) 1 (fun _ => rfl) (fun _ => long_keeps _) (fun _ => rfl) (fun ω => .done _) e 2 (L + 1) 0 (fun _ => rfl) "P" "L" "A" _ _ _
    (fun _ => ⟨_, "p", "l", "a", [], rfl, rfl, rfl, rfl, rfl⟩) (fun _ => long_recorders (L + 1)) (fun _ => rfl) (by simp only [walkStepper, ceil_double]; omega)
  obtain ⟨b, h1, h2⟩ := this
  refine ⟨L + 1, _, b, by omega, e, h1, ?_⟩
  simp only [walkStepper, ceil_double] at h2
  exact h2

theorem rate_one : flowRate target ⟨(), none⟩ (fun x : Pos ℝ 2 => -(x 0 ^ 2 + x 1 ^ 2) / 2) (stdNormal 2) (stdNormal 2) = 1 := by
  have e : ∀ y x : Pos ℝ 2, flowAcceptAt target (⟨(), none⟩ : Data Unit) (fun x : Pos ℝ 2 => -(x 0 ^ 2 + x 1 ^ 2) / 2) y x = 1 := by
    intro y x
    simp only [flowAcceptAt, target]
    rw [mul_comm (Real.exp (-(x 0 ^ 2 + x 1 ^ 2) / 2)), div_self (by positivity), min_self]
  simp only [flowRate, e]
  simp

/-- Non-vacuity of C104 for flow proposals: the flow of the example is perfect, its stationary rate is 1, and its recorded flags average to 1 up to `δ`, except with probability `ε`. -/
example (x : Pos ℝ 2) (δ ε : ℝ) (hδ : 0 < δ) (hε : 0 < ε) : ∃ (L : ℕ) (w : Outcome → World ℝ Unit 2 Unit Unit) (b : Outcome → Buffer ℝ), 0 < L ∧
    (∀ ω, ({ flowStepper with nSteps := L } : TakeSteps).run (env ω) (.root 3) [start ω, x] ⟨(), none⟩ (longHeap L) = (.ok ((w ω).key, (w ω).xs), (w ω).heap)) ∧
    (∀ ω, (w ω).heap.res "A" = some (.buffer (b ω))) ∧ prob.real {ω | δ < |(∑ j ∈ Finset.range L, (b ω).data.get [1, 0 + j]) / L - 1|} ≤ ε := by
  obtain ⟨L, hL⟩ := C104_flow (.root 3) (drawsFrom _) mixHeap.res ⟨(), none⟩ (stdNormal 2) (by rfl) (by rfl) mixStrats [] (by simp) flowStepper rfl () 4 (by decide) rfl _ rfl target rfl (fun _ _ _ _ => rfl)
    (by simp only [target]; fun_prop) Toy.normal_samplesFrom (stdNormal 2) _ (by fun_prop)
    ⟨flow.lawful, fun a _ => flow.rows_meas a trivial, fun a _ => flow.rows_law a trivial, flow.logProb, flow.density⟩ (fun _ => x) measurable_const δ ε hδ hε
  rw [rate_one] at hL
  have ec : ∀ n, ceilDiv' n 1 = n := fun n => by unfold ceilDiv'; omega
  have hrun : ∀ ω, ∃ ys h', ({ flowStepper with nSteps := L + 1 } : TakeSteps).run (env ω) (.root 3) [start ω, x] ⟨(), none⟩ (longHeap (L + 1)) = (.ok (.child (.root 3) 0, ys), h') := by
    intro ω
    obtain ⟨rows, ys, h', -, -, e, -⟩ := group_call (env ω) (flow.lawful ω) { flowStepper with nSteps := L + 1 } (.root 3) [start ω, x] ⟨(), none⟩ (longHeap (L + 1)) (L + 1) "P" "L" "A" _ _ _
      ⟨_, "p", "l", "a", [], rfl, rfl, rfl, rfl, rfl⟩ (long_recorders (L + 1)) (by simp only [flowStepper, longHeap, ec]; omega) () 4 target ⟨rfl, rfl, ⟨_, rfl, rfl⟩⟩ (by decide) (show 0 < 1 by decide) (by simp)
    exact ⟨ys, h', e⟩
  choose ys h' e using hrun
  have := hL (L + 1) (by simp only [flowStepper, ec]; omega) (fun ω => ⟨.root 3, [start ω, x], longHeap (L + 1)⟩) (fun ω => ⟨.root 3, [start ω, x], longHeap (L + 1)⟩)
    (fun ω => ⟨_, ys ω, h' ω⟩) 1 (fun _ => rfl) (fun _ => long_keeps _) (fun _ => rfl) (fun ω => .done _) e 2 (L + 1) 0 (fun _ => rfl) "P" "L" "A" _ _ _
    (fun _ => ⟨_, "p", "l", "a", [], rfl, rfl, rfl, rfl, rfl⟩) (fun _ => long_recorders (L + 1)) (fun _ => rfl) (by simp only [flowStepper, ec]; omega)
  obtain ⟨b, h1, h2⟩ := this
  refine ⟨L + 1, _, b, by omega, e, h1, ?_⟩
  simp only [flowStepper, ec] at h2
  exact h2

end Ideal
end FlowMC
