import Verif.Props.Decay
import Verif.Props.AcceptRateExamples
import Verif.Props.PositiveExamples
/-
Non-vacuity of C123: flow proposals from a flow that covers the target, with any number of steps.
-/
open MeasureTheory ProbabilityTheory
open scoped ENNReal
set_option linter.unusedSectionVars false
namespace FlowMC
open Spec
namespace Ideal

theorem flow_long (L : ℕ) (x : Pos ℝ 2) : ∃ w1 : Outcome → World ℝ Unit 2 Unit Unit,
    ∀ ω, ({ flowStepper with nSteps := L + 1 } : TakeSteps).run (env ω) (.root 3) [start ω, x] ⟨(), none⟩ (longHeap (L + 1)) = (.ok ((w1 ω).key, (w1 ω).xs), (w1 ω).heap) := by
  have ec : ∀ n, ceilDiv' n 1 = n := fun n => by unfold ceilDiv'; omega
  have hrun : ∀ ω, ∃ ys h', ({ flowStepper with nSteps := L + 1 } : TakeSteps).run (env ω) (.root 3) [start ω, x] ⟨(), none⟩ (longHeap (L + 1)) = (.ok (.child (.root 3) 0, ys), h') := by
    intro ω
    obtain ⟨rows, ys, h', -, -, e, -⟩ := group_call (env ω) (flow.lawful ω) { flowStepper with nSteps := L + 1 } (.root 3) [start ω, x] ⟨(), none⟩ (longHeap (L + 1)) (L + 1) "P" "L" "A" _ _ _
      ⟨_, "p", "l", "a", [], rfl, rfl, rfl, rfl, rfl⟩ (long_recorders (L + 1)) (by simp only [flowStepper, longHeap, ec]; omega) () 4 target ⟨rfl, rfl, ⟨_, rfl, rfl⟩⟩ (by decide) (show 0 < 1 by decide) (by simp)
    exact ⟨ys, h', e⟩
  choose ys h' e using hrun
  exact ⟨fun ω => ⟨_, ys ω, h' ω⟩, e⟩

theorem flow_cover (B : ℝ) (hB : 1 ≤ B) : ∀ x : Pos ℝ 2, density (fun x => target.val x (⟨(), none⟩ : Data Unit)) x ≤ B * density (fun x : Pos ℝ 2 => -(x 0 ^ 2 + x 1 ^ 2) / 2) x := by
  intro x
  have : 0 ≤ density (fun x : Pos ℝ 2 => -(x 0 ^ 2 + x 1 ^ 2) / 2) x := by unfold density; positivity
  change density (fun x : Pos ℝ 2 => -(x 0 ^ 2 + x 1 ^ 2) / 2) x ≤ _
  nlinarith

/-- Non-vacuity of C123: the first coordinate under flow proposals, with a cover of `B = 2`. -/
example (x : Pos ℝ 2) (N : ℕ) (hN : 5 ≤ N) : ∃ (w1 : Outcome → World ℝ Unit 2 Unit Unit) (b : Outcome → Buffer ℝ),
    (∀ ω, ({ flowStepper with nSteps := N + 1 } : TakeSteps).run (env ω) (.root 3) [start ω, x] ⟨(), none⟩ (longHeap (N + 1)) = (.ok ((w1 ω).key, (w1 ω).xs), (w1 ω).heap)) ∧ (∀ ω, (w1 ω).heap.res "P" = some (.buffer (b ω))) ∧
    autocovariance prob (fun r ω => (b ω).data.get [0, 0 + r, 0]) (∫ x, x 0 ∂stdNormal 2) 1 3 ≤ (1 - 1 / 2) ^ (3 * 1) * ∫ x, (x 0 - ∫ y, y 0 ∂stdNormal 2) ^ 2 ∂stdNormal 2 := by
  have ec : ∀ n, ceilDiv' n 1 = n := fun n => by unfold ceilDiv'; omega
  obtain ⟨w1, e1⟩ := flow_long N x
  obtain ⟨b, hb, key⟩ := C123_decay (.root 3) (drawsFrom _) mixHeap.res ⟨(), none⟩ (stdNormal 2) mixStrats [] (by simp) (fun ω => ⟨.root 3, [start ω, x], longHeap (N + 1)⟩)
    (fun ω => ⟨.root 3, [start ω, x], longHeap (N + 1)⟩) w1 (fun _ => rfl) (fun _ => long_keeps _) 0 start (fun _ => rfl) start_known start_law (fun ω => .done _) { flowStepper with nSteps := N + 1 } rfl () 4 (by decide) rfl _ rfl
    target rfl (fun _ _ _ _ => rfl) (by simp only [target]; fun_prop) Toy.normal_samplesFrom (stdNormal 2) _ (by fun_prop)
    ⟨flow.lawful, fun a _ => flow.rows_meas a trivial, fun a _ => flow.rows_law a trivial, flow.logProb, flow.density⟩ 2 (by norm_num) (flow_cover 2 (by norm_num)) (Nat.succ_pos N) e1 2 (N + 1) 0 (fun _ => rfl) "P" "L" "A" _ _ _
    (fun _ => ⟨_, "p", "l", "a", [], rfl, rfl, rfl, rfl, rfl⟩) (fun _ => long_recorders (N + 1)) (fun _ => rfl) (by simp only [flowStepper, ec]; omega) (fun x => x 0) (by fun_prop) first_square
  have h1 := (key (fun r ω => (b ω).data.get [0, 0 + r, 0]) (fun _ _ => rfl) 1 3 (by simp only [flowStepper, ec]; omega)).2.2
  exact ⟨w1, b, e1, hb, h1⟩

/-- Non-vacuity of C123 for averages. -/
example (x : Pos ℝ 2) (N : ℕ) : ∃ (w1 : Outcome → World ℝ Unit 2 Unit Unit) (b : Outcome → Buffer ℝ),
    (∀ ω, ({ flowStepper with nSteps := N + 1 } : TakeSteps).run (env ω) (.root 3) [start ω, x] ⟨(), none⟩ (longHeap (N + 1)) = (.ok ((w1 ω).key, (w1 ω).xs), (w1 ω).heap)) ∧ (∀ ω, (w1 ω).heap.res "P" = some (.buffer (b ω))) ∧
    ∫ ω, ((∑ r ∈ Finset.range (N + 1), (b ω).data.get [0, 0 + r, 0]) / (N + 1 : ℕ) - ∫ x, x 0 ∂stdNormal 2) ^ 2 ∂prob ≤ (2 * 2 - 1) / (N + 1 : ℕ) * ∫ x, (x 0 - ∫ y, y 0 ∂stdNormal 2) ^ 2 ∂stdNormal 2 := by
  have ec : ∀ n, ceilDiv' n 1 = n := fun n => by unfold ceilDiv'; omega
  obtain ⟨w1, e1⟩ := flow_long N x
  obtain ⟨b, hb, key⟩ := C123_effective_size (.root 3) (drawsFrom _) mixHeap.res ⟨(), none⟩ (stdNormal 2) mixStrats [] (by simp) (fun ω => ⟨.root 3, [start ω, x], longHeap (N + 1)⟩)
    (fun ω => ⟨.root 3, [start ω, x], longHeap (N + 1)⟩) w1 (fun _ => rfl) (fun _ => long_keeps _) 0 start (fun _ => rfl) start_known start_law (fun ω => .done _) { flowStepper with nSteps := N + 1 } rfl () 4 (by decide) rfl _ rfl
    target rfl (fun _ _ _ _ => rfl) (by simp only [target]; fun_prop) Toy.normal_samplesFrom (stdNormal 2) _ (by fun_prop)
    ⟨flow.lawful, fun a _ => flow.rows_meas a trivial, fun a _ => flow.rows_law a trivial, flow.logProb, flow.density⟩ 2 (by norm_num) (flow_cover 2 (by norm_num)) (Nat.succ_pos N) e1 2 (N + 1) 0 (fun _ => rfl) "P" "L" "A" _ _ _
    (fun _ => ⟨_, "p", "l", "a", [], rfl, rfl, rfl, rfl, rfl⟩) (fun _ => long_recorders (N + 1)) (fun _ => rfl) (by simp only [flowStepper, ec]; omega) (fun x => x 0) (by fun_prop) first_square
  have hC' : ceilDiv' ({ flowStepper with nSteps := N + 1 } : TakeSteps).nSteps ({ flowStepper with nSteps := N + 1 } : TakeSteps).thinning = N + 1 := ec _
  rw [hC'] at key
  exact ⟨w1, b, e1, hb, key.2⟩

/-- Non-vacuity of C123 for the number of rows: for any error and any risk, enough rows. -/
example (x : Pos ℝ 2) (δ ε : ℝ) (hδ : 0 < δ) (hε : 0 < ε) : ∃ (N : ℕ) (w1 : Outcome → World ℝ Unit 2 Unit Unit) (b : Outcome → Buffer ℝ),
    (∀ ω, ({ flowStepper with nSteps := N + 1 } : TakeSteps).run (env ω) (.root 3) [start ω, x] ⟨(), none⟩ (longHeap (N + 1)) = (.ok ((w1 ω).key, (w1 ω).xs), (w1 ω).heap)) ∧ (∀ ω, (w1 ω).heap.res "P" = some (.buffer (b ω))) ∧
    prob.real {ω | δ < |(∑ r ∈ Finset.range (N + 1), (b ω).data.get [0, 0 + r, 0]) / (N + 1 : ℕ) - ∫ x, x 0 ∂stdNormal 2|} ≤ ε := by
  obtain ⟨N, hN⟩ := exists_nat_ge ((2 * 2 - 1) * (∫ x, (x 0 - ∫ y, y 0 ∂stdNormal 2) ^ 2 ∂stdNormal 2) / (ε * δ ^ 2))
  refine ⟨N, ?_⟩
  have ec : ∀ n, ceilDiv' n 1 = n := fun n => by unfold ceilDiv'; omega
  obtain ⟨w1, e1⟩ := flow_long N x
  have hC' : ceilDiv' ({ flowStepper with nSteps := N + 1 } : TakeSteps).nSteps ({ flowStepper with nSteps := N + 1 } : TakeSteps).thinning = N + 1 := ec _
  obtain ⟨b, hb, key⟩ := C123_how_many (.root 3) (drawsFrom _) mixHeap.res ⟨(), none⟩ (stdNormal 2) mixStrats [] (by simp) (fun ω => ⟨.root 3, [start ω, x], longHeap (N + 1)⟩)
    (fun ω => ⟨.root 3, [start ω, x], longHeap (N + 1)⟩) w1 (fun _ => rfl) (fun _ => long_keeps _) 0 start (fun _ => rfl) start_known start_law (fun ω => .done _) { flowStepper with nSteps := N + 1 } rfl () 4 (by decide) rfl _ rfl
    target rfl (fun _ _ _ _ => rfl) (by simp only [target]; fun_prop) Toy.normal_samplesFrom (stdNormal 2) _ (by fun_prop)
    ⟨flow.lawful, fun a _ => flow.rows_meas a trivial, fun a _ => flow.rows_law a trivial, flow.logProb, flow.density⟩ 2 (by norm_num) (flow_cover 2 (by norm_num)) (Nat.succ_pos N) e1 2 (N + 1) 0 (fun _ => rfl) "P" "L" "A" _ _ _
    (fun _ => ⟨_, "p", "l", "a", [], rfl, rfl, rfl, rfl, rfl⟩) (fun _ => long_recorders (N + 1)) (fun _ => rfl) (by simp only [flowStepper, ec]; omega) (fun x => x 0) (by fun_prop) first_square δ ε hδ hε (by
      rw [hC']
      rw [div_le_iff₀ (by positivity)] at hN
      refine hN.trans ?_
      rw [mul_comm]
      exact mul_le_mul_of_nonneg_left (by push_cast; linarith) (by positivity))
  rw [hC'] at key
  exact ⟨w1, b, e1, hb, key⟩

/-- Non-vacuity of C123 for a perfect flow: standard normal target and flow. -/
example (x : Pos ℝ 2) (N : ℕ) : ∃ (w1 : Outcome → World ℝ Unit 2 Unit Unit) (b : Outcome → Buffer ℝ),
    (∀ ω, ({ flowStepper with nSteps := N + 1 } : TakeSteps).run (env ω) (.root 3) [start ω, x] ⟨(), none⟩ (longHeap (N + 1)) = (.ok ((w1 ω).key, (w1 ω).xs), (w1 ω).heap)) ∧ (∀ ω, (w1 ω).heap.res "P" = some (.buffer (b ω))) ∧
    ∫ ω, ((∑ r ∈ Finset.range (N + 1), (b ω).data.get [0, 0 + r, 0]) / (N + 1 : ℕ) - ∫ x, x 0 ∂stdNormal 2) ^ 2 ∂prob = (∫ x, (x 0 - ∫ y, y 0 ∂stdNormal 2) ^ 2 ∂stdNormal 2) / (N + 1 : ℕ) := by
  have ec : ∀ n, ceilDiv' n 1 = n := fun n => by unfold ceilDiv'; omega
  obtain ⟨w1, e1⟩ := flow_long N x
  have hC' : ceilDiv' ({ flowStepper with nSteps := N + 1 } : TakeSteps).nSteps ({ flowStepper with nSteps := N + 1 } : TakeSteps).thinning = N + 1 := ec _
  obtain ⟨b, hb, -, key⟩ := C123_perfect (.root 3) (drawsFrom _) mixHeap.res ⟨(), none⟩ (stdNormal 2) mixStrats [] (by simp) (fun ω => ⟨.root 3, [start ω, x], longHeap (N + 1)⟩)
    (fun ω => ⟨.root 3, [start ω, x], longHeap (N + 1)⟩) w1 (fun _ => rfl) (fun _ => long_keeps _) 0 start (fun _ => rfl) start_known start_law (fun ω => .done _) { flowStepper with nSteps := N + 1 } rfl () 4 (by decide) rfl _ rfl
    target rfl (fun _ _ _ _ => rfl) (by simp only [target]; fun_prop) Toy.normal_samplesFrom (stdNormal 2) _ (by fun_prop)
    ⟨flow.lawful, fun a _ => flow.rows_meas a trivial, fun a _ => flow.rows_law a trivial, flow.logProb, flow.density⟩ (Nat.succ_pos N) e1 2 (N + 1) 0 (fun _ => rfl) "P" "L" "A" _ _ _
    (fun _ => ⟨_, "p", "l", "a", [], rfl, rfl, rfl, rfl, rfl⟩) (fun _ => long_recorders (N + 1)) (fun _ => rfl) (by simp only [flowStepper, ec]; omega) (fun x => x 0) (by fun_prop) first_square
    (by refine measurable_pi_lambda _ fun i => ?_; simp only [target]; fun_prop) (fun x => by simpa using flow_cover 1 le_rfl x)
  rw [hC'] at key
  exact ⟨w1, b, e1, hb, key⟩

end Ideal
end FlowMC
