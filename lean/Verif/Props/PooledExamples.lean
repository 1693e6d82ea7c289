import Verif.Props.Pooled
import Verif.Props.ThinningExamples
import Verif.Props.DecayExamples
/-
Non-vacuity of C125: two chains started from independent draws.
-/
open MeasureTheory ProbabilityTheory
open scoped ENNReal
set_option linter.unusedSectionVars false
namespace FlowMC
open Spec
namespace Ideal

noncomputable def starts (i : ℕ) (ω : Outcome) : Pos ℝ 2 := fun j => (ω none).1 i j

theorem starts_known (i : ℕ) : Measurable[past] (starts i) := (by fun_prop : Measurable fun (x : Raw) (j : Fin 2) => x.1 i j).comp past_measurable
theorem starts_law (i : ℕ) : prob.map (starts i) = stdNormal 2 := (prob_at none (fun x (j : Fin 2) => x.1 i j) (by fun_prop)).trans (raw_row i 2)
theorem starts_indep (i i' : ℕ) (hi : i < 2) (hi' : i' < 2) (hii : i ≠ i') : IndepFun (starts i) (starts i') prob := by
  have hm : ∀ r : Fin 2, AEMeasurable (starts r) prob := fun r => ((starts_known r).mono draws.past_le le_rfl).aemeasurable
  have h : iIndepFun (fun r : Fin 2 => starts r) prob := by
    rw [iIndepFun_iff_map_fun_eq_pi_map hm]
    simp only [starts_law]
    exact (prob_at none (fun x (r : Fin 2) (i : Fin 2) => x.1 r i) (by fun_prop)).trans (raw_rows 2)
  exact h.indepFun (i := ⟨i, hi⟩) (j := ⟨i', hi'⟩) (by simpa using hii)

theorem starts_at (i : ℕ) (hi : i < 2) (ω : Outcome) : [starts 0 ω, starts 1 ω][i]? = some (starts i ω) := by
  obtain rfl | rfl : i = 0 ∨ i = 1 := by omega
  · rfl
  · rfl

theorem pooled_run (N : ℕ) : ∃ w1 : Outcome → World ℝ Unit 2 Unit Unit,
    ∀ ω, ({ flowStepper with nSteps := N + 1 } : TakeSteps).run (env ω) (.root 3) [starts 0 ω, starts 1 ω] ⟨(), none⟩ (longHeap (N + 1)) = (.ok ((w1 ω).key, (w1 ω).xs), (w1 ω).heap) := by
  have ec : ∀ n, ceilDiv' n 1 = n := fun n => by unfold ceilDiv'; omega
  have hrun : ∀ ω, ∃ ys h', ({ flowStepper with nSteps := N + 1 } : TakeSteps).run (env ω) (.root 3) [starts 0 ω, starts 1 ω] ⟨(), none⟩ (longHeap (N + 1)) = (.ok (.child (.root 3) 0, ys), h') := by
    intro ω
    obtain ⟨rows, ys, h', -, -, e, -⟩ := group_call (env ω) (flow.lawful ω) { flowStepper with nSteps := N + 1 } (.root 3) [starts 0 ω, starts 1 ω] ⟨(), none⟩ (longHeap (N + 1)) (N + 1) "P" "L" "A" _ _ _
      ⟨_, "p", "l", "a", [], rfl, rfl, rfl, rfl, rfl⟩ (long_recorders (N + 1)) (by simp only [flowStepper, longHeap, ec]; omega) () 4 target ⟨rfl, rfl, ⟨_, rfl, rfl⟩⟩ (by decide) (show 0 < 1 by decide) (by simp)
    exact ⟨ys, h', e⟩
  choose ys h' e using hrun
  exact ⟨fun ω => ⟨_, ys ω, h' ω⟩, e⟩

theorem long_exactFlow (N : ℕ) : ExactStepper (Desc (.root 3)) prob sig env mixHeap.res ⟨(), none⟩ (stdNormal 2) { flowStepper with nSteps := N } := mix_exactFlow (.root 3)

/-- Non-vacuity of C125: rows of two chains are independent. -/
example (N : ℕ) (hN : 5 ≤ N) : ∃ (w1 : Outcome → World ℝ Unit 2 Unit Unit) (b : Outcome → Buffer ℝ),
    (∀ ω, ({ flowStepper with nSteps := N + 1 } : TakeSteps).run (env ω) (.root 3) [starts 0 ω, starts 1 ω] ⟨(), none⟩ (longHeap (N + 1)) = (.ok ((w1 ω).key, (w1 ω).xs), (w1 ω).heap)) ∧ (∀ ω, (w1 ω).heap.res "P" = some (.buffer (b ω))) ∧
    IndepFun (fun ω (a : Fin 2) => (b ω).data.get [0, 0 + 2, a]) (fun ω (a : Fin 2) => (b ω).data.get [1, 0 + 4, a]) prob := by
  have ec : ∀ n, ceilDiv' n 1 = n := fun n => by unfold ceilDiv'; omega
  obtain ⟨w1, e1⟩ := pooled_run N
  obtain ⟨-, b, hb, -, key⟩ := C125_independent (.root 3) (drawsFrom _) mixHeap.res ⟨(), none⟩ (stdNormal 2) (fun ω => ⟨.root 3, [starts 0 ω, starts 1 ω], longHeap (N + 1)⟩) w1 (fun _ => rfl) (fun _ => long_keeps _) 2 (fun _ => rfl)
    starts starts_at (fun i _ => starts_known i) (fun i _ => starts_law i) (fun i hi i' hi' hii => starts_indep i i' hi hi' hii) { flowStepper with nSteps := N + 1 } (long_exactFlow _) (Nat.succ_pos N) e1 (N + 1) 0 "P" "L" "A" _ _ _
    (fun _ => ⟨_, "p", "l", "a", [], rfl, rfl, rfl, rfl, rfl⟩) (fun _ => long_recorders (N + 1)) (fun _ => rfl) (by simp only [flowStepper, ec]; omega) (by decide)
  exact ⟨w1, b, e1, hb, key 0 (by decide) 1 (by decide) (by decide) 2 (by simp only [flowStepper, ec]; omega) 4 (by simp only [flowStepper, ec]; omega)⟩

/-- Non-vacuity of C125 for pooled averages. -/
example (N : ℕ) : ∃ (w1 : Outcome → World ℝ Unit 2 Unit Unit) (b : Outcome → Buffer ℝ),
    (∀ ω, ({ flowStepper with nSteps := N + 1 } : TakeSteps).run (env ω) (.root 3) [starts 0 ω, starts 1 ω] ⟨(), none⟩ (longHeap (N + 1)) = (.ok ((w1 ω).key, (w1 ω).xs), (w1 ω).heap)) ∧ (∀ ω, (w1 ω).heap.res "P" = some (.buffer (b ω))) ∧
    ∫ ω, ((∑ i ∈ Finset.range 2, ∑ r ∈ Finset.range (N + 1), (b ω).data.get [i, 0 + r, 0]) / ((2 : ℕ) * (N + 1 : ℕ)) - ∫ x, x 0 ∂stdNormal 2) ^ 2 ∂prob =
      (∑ i ∈ Finset.range 2, ∫ ω, ((∑ r ∈ Finset.range (N + 1), (b ω).data.get [i, 0 + r, 0]) / (N + 1 : ℕ) - ∫ x, x 0 ∂stdNormal 2) ^ 2 ∂prob) / ((2 : ℕ) : ℝ) ^ 2 := by
  have ec : ∀ n, ceilDiv' n 1 = n := fun n => by unfold ceilDiv'; omega
  obtain ⟨w1, e1⟩ := pooled_run N
  obtain ⟨b, hb, key⟩ := C125_pooled (.root 3) (drawsFrom _) mixHeap.res ⟨(), none⟩ (stdNormal 2) (fun ω => ⟨.root 3, [starts 0 ω, starts 1 ω], longHeap (N + 1)⟩) w1 (fun _ => rfl) (fun _ => long_keeps _) 2 (fun _ => rfl)
    starts starts_at (fun i _ => starts_known i) (fun i _ => starts_law i) (fun i hi i' hi' hii => starts_indep i i' hi hi' hii) { flowStepper with nSteps := N + 1 } (long_exactFlow _) (Nat.succ_pos N) e1 (N + 1) 0 "P" "L" "A" _ _ _
    (fun _ => ⟨_, "p", "l", "a", [], rfl, rfl, rfl, rfl, rfl⟩) (fun _ => long_recorders (N + 1)) (fun _ => rfl) (by simp only [flowStepper, ec]; omega) (by decide) (fun x => x 0) (by fun_prop) first_square
  have hC' : ceilDiv' ({ flowStepper with nSteps := N + 1 } : TakeSteps).nSteps ({ flowStepper with nSteps := N + 1 } : TakeSteps).thinning = N + 1 := ec _
  rw [hC'] at key
  exact ⟨w1, b, e1, hb, key.2.2⟩

/-- Non-vacuity of C125 for a covering flow. -/
example (N : ℕ) : ∃ (w1 : Outcome → World ℝ Unit 2 Unit Unit) (b : Outcome → Buffer ℝ),
    (∀ ω, ({ flowStepper with nSteps := N + 1 } : TakeSteps).run (env ω) (.root 3) [starts 0 ω, starts 1 ω] ⟨(), none⟩ (longHeap (N + 1)) = (.ok ((w1 ω).key, (w1 ω).xs), (w1 ω).heap)) ∧ (∀ ω, (w1 ω).heap.res "P" = some (.buffer (b ω))) ∧
    ∫ ω, ((∑ i ∈ Finset.range 2, ∑ r ∈ Finset.range (N + 1), (b ω).data.get [i, 0 + r, 0]) / ((2 : ℕ) * (N + 1 : ℕ)) - ∫ x, x 0 ∂stdNormal 2) ^ 2 ∂prob ≤
      (2 * 2 - 1) / ((2 : ℕ) * (N + 1 : ℕ)) * ∫ x, (x 0 - ∫ y, y 0 ∂stdNormal 2) ^ 2 ∂stdNormal 2 := by
  have ec : ∀ n, ceilDiv' n 1 = n := fun n => by unfold ceilDiv'; omega
  obtain ⟨w1, e1⟩ := pooled_run N
  obtain ⟨b, hb, key⟩ := C125_flow (.root 3) (drawsFrom _) mixHeap.res ⟨(), none⟩ (stdNormal 2) (fun ω => ⟨.root 3, [starts 0 ω, starts 1 ω], longHeap (N + 1)⟩) w1 (fun _ => rfl) (fun _ => long_keeps _) 2 (fun _ => rfl)
    starts starts_at (fun i _ => starts_known i) (fun i _ => starts_law i) (fun i hi i' hi' hii => starts_indep i i' hi hi' hii) { flowStepper with nSteps := N + 1 } rfl () 4 (by decide) rfl _ rfl
    target rfl (fun _ _ _ _ => rfl) (by simp only [target]; fun_prop) (by refine measurable_pi_lambda _ fun i => ?_; simp only [target]; fun_prop) Toy.normal_samplesFrom (stdNormal 2) _ (by fun_prop)
    ⟨flow.lawful, fun a _ => flow.rows_meas a trivial, fun a _ => flow.rows_law a trivial, flow.logProb, flow.density⟩ 2 (by norm_num) (flow_cover 2 (by norm_num)) (Nat.succ_pos N) e1 (N + 1) 0 "P" "L" "A" _ _ _
    (fun _ => ⟨_, "p", "l", "a", [], rfl, rfl, rfl, rfl, rfl⟩) (fun _ => long_recorders (N + 1)) (fun _ => rfl) (by simp only [flowStepper, ec]; omega) (by decide) (fun x => x 0) (by fun_prop) first_square
  have hC' : ceilDiv' ({ flowStepper with nSteps := N + 1 } : TakeSteps).nSteps ({ flowStepper with nSteps := N + 1 } : TakeSteps).thinning = N + 1 := ec _
  rw [hC'] at key
  exact ⟨w1, b, e1, hb, key.2⟩

/-- Non-vacuity of C125 for error bars. -/
example (N : ℕ) (δ : ℝ) (hδ : 0 < δ) : ∃ (w1 : Outcome → World ℝ Unit 2 Unit Unit) (b : Outcome → Buffer ℝ),
    (∀ ω, ({ flowStepper with nSteps := N + 1 } : TakeSteps).run (env ω) (.root 3) [starts 0 ω, starts 1 ω] ⟨(), none⟩ (longHeap (N + 1)) = (.ok ((w1 ω).key, (w1 ω).xs), (w1 ω).heap)) ∧ (∀ ω, (w1 ω).heap.res "P" = some (.buffer (b ω))) ∧
    prob.real {ω | δ < |(∑ i ∈ Finset.range 2, ∑ r ∈ Finset.range (N + 1), (b ω).data.get [i, 0 + r, 0]) / ((2 : ℕ) * (N + 1 : ℕ)) - ∫ x, x 0 ∂stdNormal 2|} ≤
      (2 * 2 - 1) / ((2 : ℕ) * (N + 1 : ℕ)) * (∫ x, (x 0 - ∫ y, y 0 ∂stdNormal 2) ^ 2 ∂stdNormal 2) / δ ^ 2 := by
  have ec : ∀ n, ceilDiv' n 1 = n := fun n => by unfold ceilDiv'; omega
  obtain ⟨w1, e1⟩ := pooled_run N
  obtain ⟨b, hb, key⟩ := C125_error_bars (.root 3) (drawsFrom _) mixHeap.res ⟨(), none⟩ (stdNormal 2) (fun ω => ⟨.root 3, [starts 0 ω, starts 1 ω], longHeap (N + 1)⟩) w1 (fun _ => rfl) (fun _ => long_keeps _) 2 (fun _ => rfl)
    starts starts_at (fun i _ => starts_known i) (fun i _ => starts_law i) (fun i hi i' hi' hii => starts_indep i i' hi hi' hii) { flowStepper with nSteps := N + 1 } rfl () 4 (by decide) rfl _ rfl
    target rfl (fun _ _ _ _ => rfl) (by simp only [target]; fun_prop) (by refine measurable_pi_lambda _ fun i => ?_; simp only [target]; fun_prop) Toy.normal_samplesFrom (stdNormal 2) _ (by fun_prop)
    ⟨flow.lawful, fun a _ => flow.rows_meas a trivial, fun a _ => flow.rows_law a trivial, flow.logProb, flow.density⟩ 2 (by norm_num) (flow_cover 2 (by norm_num)) (Nat.succ_pos N) e1 (N + 1) 0 "P" "L" "A" _ _ _
    (fun _ => ⟨_, "p", "l", "a", [], rfl, rfl, rfl, rfl, rfl⟩) (fun _ => long_recorders (N + 1)) (fun _ => rfl) (by simp only [flowStepper, ec]; omega) (by decide) (fun x => x 0) (by fun_prop) first_square δ hδ
  have hC' : ceilDiv' ({ flowStepper with nSteps := N + 1 } : TakeSteps).nSteps ({ flowStepper with nSteps := N + 1 } : TakeSteps).thinning = N + 1 := ec _
  rw [hC'] at key
  exact ⟨w1, b, e1, hb, key⟩

/-- Non-vacuity of C125 for the lower bound. -/
example (N : ℕ) : ∃ (w1 : Outcome → World ℝ Unit 2 Unit Unit) (b : Outcome → Buffer ℝ),
    (∀ ω, ({ flowStepper with nSteps := N + 1 } : TakeSteps).run (env ω) (.root 3) [starts 0 ω, starts 1 ω] ⟨(), none⟩ (longHeap (N + 1)) = (.ok ((w1 ω).key, (w1 ω).xs), (w1 ω).heap)) ∧ (∀ ω, (w1 ω).heap.res "P" = some (.buffer (b ω))) ∧
    (∫ x, (x 0 - ∫ y, y 0 ∂stdNormal 2) ^ 2 ∂stdNormal 2) / ((2 : ℕ) * (N + 1 : ℕ)) ≤
    ∫ ω, ((∑ i ∈ Finset.range 2, ∑ r ∈ Finset.range (N + 1), (b ω).data.get [i, 0 + r, 0]) / ((2 : ℕ) * (N + 1 : ℕ)) - ∫ x, x 0 ∂stdNormal 2) ^ 2 ∂prob := by
  have ec : ∀ n, ceilDiv' n 1 = n := fun n => by unfold ceilDiv'; omega
  obtain ⟨w1, e1⟩ := pooled_run N
  obtain ⟨b, hb, key⟩ := C125_at_most (.root 3) (drawsFrom _) mixHeap.res ⟨(), none⟩ (stdNormal 2) (fun ω => ⟨.root 3, [starts 0 ω, starts 1 ω], longHeap (N + 1)⟩) w1 (fun _ => rfl) (fun _ => long_keeps _) 2 (fun _ => rfl)
    starts starts_at (fun i _ => starts_known i) (fun i _ => starts_law i) (fun i hi i' hi' hii => starts_indep i i' hi hi' hii) { flowStepper with nSteps := N + 1 } (long_exactFlow _) (.inl rfl) (Nat.succ_pos N) e1 (N + 1) 0 "P" "L" "A" _ _ _
    (fun _ => ⟨_, "p", "l", "a", [], rfl, rfl, rfl, rfl, rfl⟩) (fun _ => long_recorders (N + 1)) (fun _ => rfl) (by simp only [flowStepper, ec]; omega) (by decide) (fun x => x 0) (by fun_prop) first_square
  have hC' : ceilDiv' ({ flowStepper with nSteps := N + 1 } : TakeSteps).nSteps ({ flowStepper with nSteps := N + 1 } : TakeSteps).thinning = N + 1 := ec _
  rw [hC'] at key
  exact ⟨w1, b, e1, hb, key⟩

/-- Non-vacuity of C125 for thinning: two random walks, three times as many steps as recorded rows. -/
example (c : ℕ) (hc : 0 < c) : ∃ (w1 w2 : Outcome → World ℝ Unit 2 Unit Unit) (b1 b2 : Outcome → Buffer ℝ),
    (∀ ω, (walkBy (3 * c) 3).run (env ω) (.root 3) [starts 0 ω, starts 1 ω] ⟨(), none⟩ (longHeap (3 * c)) = (.ok ((w1 ω).key, (w1 ω).xs), (w1 ω).heap)) ∧
    (∀ ω, (walkBy (3 * c) 1).run (env ω) (.root 3) [starts 0 ω, starts 1 ω] ⟨(), none⟩ (longHeap (3 * c)) = (.ok ((w2 ω).key, (w2 ω).xs), (w2 ω).heap)) ∧
    (∀ ω, (w1 ω).heap.res "P" = some (.buffer (b1 ω))) ∧ (∀ ω, (w2 ω).heap.res "P" = some (.buffer (b2 ω))) ∧
    ∫ ω, ((∑ i ∈ Finset.range 2, ∑ r ∈ Finset.range (3 * c), (b2 ω).data.get [i, 0 + r, 0]) / ((2 : ℕ) * (3 * c : ℕ)) - ∫ x, x 0 ∂stdNormal 2) ^ 2 ∂prob ≤
      ∫ ω, ((∑ i ∈ Finset.range 2, ∑ r ∈ Finset.range (3 * c / 3), (b1 ω).data.get [i, 0 + r, 0]) / ((2 : ℕ) * (3 * c / 3 : ℕ)) - ∫ x, x 0 ∂stdNormal 2) ^ 2 ∂prob := by
  choose w1 e1 hw1 using fun ω => walk_once ω (3 * c) 3 (3 * c) 0 (by omega) (by omega) (Dvd.intro c rfl) ⟨.root 3, [starts 0 ω, starts 1 ω], longHeap (3 * c)⟩ rfl (walk_ready _) (by omega)
  choose w2 e2 hw2 using fun ω => walk_once ω (3 * c) 1 (3 * c) 0 (by omega) (by omega) (one_dvd _) ⟨.root 3, [starts 0 ω, starts 1 ω], longHeap (3 * c)⟩ rfl (walk_ready _) (by omega)
  obtain ⟨b1, b2, h1, h2, key⟩ := C125_thinning (.root 3) (drawsFrom _) mixHeap.res ⟨(), none⟩ (stdNormal 2) (fun ω => ⟨.root 3, [starts 0 ω, starts 1 ω], longHeap (3 * c)⟩) w1 w2 (fun _ => rfl) (fun _ => long_keeps _) 2 (fun _ => rfl)
    starts starts_at (fun i _ => starts_known i) (fun i _ => starts_law i) (fun i hi i' hi' hii => starts_indep i i' hi hi' hii) (walkBy (3 * c) 3) (walkBy_exact _ _ _)
    (show 0 < 3 * c by omega) (Dvd.intro c rfl) e1 e2 (3 * c) 0 "P" "L" "A" _ _ _ (fun _ => walk_pointsAt (walk_ready _) _ _) (fun _ => long_recorders _) (fun _ => rfl)
    (by show 0 + 3 * c ≤ 3 * c; omega) (by decide) (fun x => x 0) (by fun_prop) first_square
  exact ⟨w1, w2, b1, b2, e1, e2, h1, h2, key⟩

/-- Non-vacuity of C125 for longer calls. -/
example (n m : ℕ) (hn : 0 < n) (hm : 0 < m) : ∃ (w1 w2 : Outcome → World ℝ Unit 2 Unit Unit) (b1 b2 : Outcome → Buffer ℝ),
    (∀ ω, (walkBy n 1).run (env ω) (.root 3) [starts 0 ω, starts 1 ω] ⟨(), none⟩ (longHeap (m * n)) = (.ok ((w1 ω).key, (w1 ω).xs), (w1 ω).heap)) ∧
    (∀ ω, (walkBy (m * n) 1).run (env ω) (.root 3) [starts 0 ω, starts 1 ω] ⟨(), none⟩ (longHeap (m * n)) = (.ok ((w2 ω).key, (w2 ω).xs), (w2 ω).heap)) ∧
    (∀ ω, (w1 ω).heap.res "P" = some (.buffer (b1 ω))) ∧ (∀ ω, (w2 ω).heap.res "P" = some (.buffer (b2 ω))) ∧
    ∫ ω, ((∑ i ∈ Finset.range 2, ∑ r ∈ Finset.range (m * (n / 1)), (b2 ω).data.get [i, 0 + r, 0]) / ((2 : ℕ) * (m * (n / 1) : ℕ)) - ∫ x, x 0 ∂stdNormal 2) ^ 2 ∂prob ≤
      ∫ ω, ((∑ i ∈ Finset.range 2, ∑ r ∈ Finset.range (n / 1), (b1 ω).data.get [i, 0 + r, 0]) / ((2 : ℕ) * (n / 1 : ℕ)) - ∫ x, x 0 ∂stdNormal 2) ^ 2 ∂prob := by
  have hle : n ≤ m * n := Nat.le_mul_of_pos_left _ hm
  choose w1 e1 hw1 using fun ω => walk_once ω n 1 (m * n) 0 hn (by omega) (one_dvd _) ⟨.root 3, [starts 0 ω, starts 1 ω], longHeap (m * n)⟩ rfl (walk_ready _) (by rw [Nat.div_one]; omega)
  choose w2 e2 hw2 using fun ω => walk_once ω (m * n) 1 (m * n) 0 (Nat.mul_pos hm hn) (by omega) (one_dvd _) ⟨.root 3, [starts 0 ω, starts 1 ω], longHeap (m * n)⟩ rfl (walk_ready _) (by rw [Nat.div_one]; omega)
  obtain ⟨b1, b2, h1, h2, key⟩ := C125_longer (.root 3) (drawsFrom _) mixHeap.res ⟨(), none⟩ (stdNormal 2) (fun ω => ⟨.root 3, [starts 0 ω, starts 1 ω], longHeap (m * n)⟩) w1 w2 (fun _ => rfl) (fun _ => long_keeps _) 2 (fun _ => rfl)
    starts starts_at (fun i _ => starts_known i) (fun i _ => starts_law i) (fun i hi i' hi' hii => starts_indep i i' hi hi' hii) (walkBy n 1) (walkBy_exact _ _ _)
    hn (one_dvd _) e1 m hm e2 (m * n) 0 "P" "L" "A" _ _ _ (fun _ => walk_pointsAt (walk_ready _) _ _) (fun _ => long_recorders _) (fun _ => rfl)
    (by show 0 + m * (n / 1) ≤ m * n; rw [Nat.div_one]; omega) (by decide) (fun x => x 0) (by fun_prop) first_square
  exact ⟨w1, w2, b1, b2, e1, e2, h1, h2, key⟩

end Ideal
end FlowMC
