import Verif.Props.Positive
import Verif.Props.AutocovarianceExamples
/-
Non-vacuity of C122: a random walk started from its target, with any thinning dividing the number of steps.
-/
open MeasureTheory ProbabilityTheory
open scoped ENNReal
set_option linter.unusedSectionVars false
namespace FlowMC
open Spec
namespace Ideal

theorem walkBy_walk (n t : ℕ) : WalkOrFlow mixHeap.res (walkBy n t) := Or.inr ⟨_, rfl⟩

/-- The flow stepper of the examples also qualifies. -/
example : WalkOrFlow mixHeap.res flowStepper := Or.inl rfl

/-- Non-vacuity of C122: the autocovariances of the first coordinate of a thinned random walk of at least six rows. -/
example (x : Pos ℝ 2) (t C : ℕ) (ht : 0 < t) (hC : 6 ≤ C) : ∃ (w1 : Outcome → World ℝ Unit 2 Unit Unit) (b : Outcome → Buffer ℝ),
    (∀ ω, (walkBy (t * C) t).run (env ω) (.root 3) [start ω, x] ⟨(), none⟩ (longHeap (t * C)) = (.ok ((w1 ω).key, (w1 ω).xs), (w1 ω).heap)) ∧ (∀ ω, (w1 ω).heap.res "P" = some (.buffer (b ω))) ∧
    Integrable (fun ω => ((b ω).data.get [0, 0 + 0, 0] - 0) * ((b ω).data.get [0, 0 + 5, 0] - 0)) prob ∧
    0 ≤ autocovariance prob (fun r ω => (b ω).data.get [0, 0 + r, 0]) 0 1 3 ∧ autocovariance prob (fun r ω => (b ω).data.get [0, 0 + r, 0]) 0 0 5 ≤ autocovariance prob (fun r ω => (b ω).data.get [0, 0 + r, 0]) 0 1 3 ∧ 2 * autocovariance prob (fun r ω => (b ω).data.get [0, 0 + r, 0]) 0 0 (3 + 1) ≤ autocovariance prob (fun r ω => (b ω).data.get [0, 0 + r, 0]) 0 0 3 + autocovariance prob (fun r ω => (b ω).data.get [0, 0 + r, 0]) 0 0 (3 + 2) := by
  have hpos : 0 < t * C := Nat.mul_pos ht (by omega)
  have hle : C ≤ t * C := Nat.le_mul_of_pos_left _ ht
  have hdiv : t * C / t = C := Nat.mul_div_cancel_left _ ht
  have hceil : ceilDiv' (t * C) t = C := by rw [ceilDiv', show t * C + t - 1 = (t - 1) + t * C by omega, Nat.add_mul_div_left _ _ ht, Nat.div_eq_of_lt (by omega)]; omega
  choose w1 e1 hw1 using fun ω => walk_once ω (t * C) t (t * C) 0 hpos ht (Dvd.intro C rfl) ⟨.root 3, [start ω, x], longHeap (t * C)⟩ rfl (walk_ready _) (by rw [hdiv]; omega)
  obtain ⟨b, hb, key⟩ := C122_positive (.root 3) (drawsFrom _) mixHeap.res ⟨(), none⟩ (stdNormal 2) mixStrats [] (by simp) (fun ω => ⟨.root 3, [start ω, x], longHeap (t * C)⟩)
    (fun ω => ⟨.root 3, [start ω, x], longHeap (t * C)⟩) w1 (fun _ => rfl) (fun _ => long_keeps _) 0 start (fun _ => rfl) start_known start_law (fun ω => .done _) (walkBy (t * C) t) (walkBy_exact _ _ _) (walkBy_walk _ _)
    hpos e1 2 (t * C) 0 (fun _ => rfl) "P" "L" "A" _ _ _ (fun _ => walk_pointsAt (walk_ready _) _ _) (fun _ => long_recorders _) (fun _ => rfl)
    (by show 0 + ceilDiv' (t * C) t ≤ t * C; rw [hceil]; omega) (fun x => x 0) (by fun_prop) first_square 0
  obtain ⟨k1, k2, k3, k4⟩ := key (fun r ω => (b ω).data.get [0, 0 + r, 0]) fun _ _ => rfl
  have hC' : ceilDiv' (walkBy (t * C) t).nSteps (walkBy (t * C) t).thinning = C := hceil
  rw [hC'] at k1 k2 k3 k4
  exact ⟨w1, b, e1, hb, k1 0 5 (by omega), k2 1 3 (by omega), k3 1 0 3 5 (by omega) (by omega) (by omega), k4 0 3 (by omega)⟩

/-- Non-vacuity of C122: effective size: the mean square error of the average of the first coordinate of a thinned random walk of at least six rows. -/
example (x : Pos ℝ 2) (t C : ℕ) (ht : 0 < t) (hC : 6 ≤ C) : ∃ (w1 : Outcome → World ℝ Unit 2 Unit Unit) (b : Outcome → Buffer ℝ),
    (∀ ω, (walkBy (t * C) t).run (env ω) (.root 3) [start ω, x] ⟨(), none⟩ (longHeap (t * C)) = (.ok ((w1 ω).key, (w1 ω).xs), (w1 ω).heap)) ∧ (∀ ω, (w1 ω).heap.res "P" = some (.buffer (b ω))) ∧
    (∫ x, (x 0 - 0) ^ 2 ∂stdNormal 2) / (C : ℝ) ≤ ∫ ω, ((∑ r ∈ Finset.range C, (b ω).data.get [0, 0 + r, 0]) / C - 0) ^ 2 ∂prob := by
  have hpos : 0 < t * C := Nat.mul_pos ht (by omega)
  have hle : C ≤ t * C := Nat.le_mul_of_pos_left _ ht
  have hdiv : t * C / t = C := Nat.mul_div_cancel_left _ ht
  have hceil : ceilDiv' (t * C) t = C := by rw [ceilDiv', show t * C + t - 1 = (t - 1) + t * C by omega, Nat.add_mul_div_left _ _ ht, Nat.div_eq_of_lt (by omega)]; omega
  choose w1 e1 hw1 using fun ω => walk_once ω (t * C) t (t * C) 0 hpos ht (Dvd.intro C rfl) ⟨.root 3, [start ω, x], longHeap (t * C)⟩ rfl (walk_ready _) (by rw [hdiv]; omega)
  obtain ⟨b, hb, key⟩ := C122_effective_size (.root 3) (drawsFrom _) mixHeap.res ⟨(), none⟩ (stdNormal 2) mixStrats [] (by simp) (fun ω => ⟨.root 3, [start ω, x], longHeap (t * C)⟩)
    (fun ω => ⟨.root 3, [start ω, x], longHeap (t * C)⟩) w1 (fun _ => rfl) (fun _ => long_keeps _) 0 start (fun _ => rfl) start_known start_law (fun ω => .done _) (walkBy (t * C) t) (walkBy_exact _ _ _) (walkBy_walk _ _)
    hpos e1 2 (t * C) 0 (fun _ => rfl) "P" "L" "A" _ _ _ (fun _ => walk_pointsAt (walk_ready _) _ _) (fun _ => long_recorders _) (fun _ => rfl)
    (by show 0 + ceilDiv' (t * C) t ≤ t * C; rw [hceil]; omega) (fun x => x 0) (by fun_prop) first_square 0
  have hC' : ceilDiv' (walkBy (t * C) t).nSteps (walkBy (t * C) t).thinning = C := hceil
  rw [hC'] at key
  exact ⟨w1, b, e1, hb, key⟩

end Ideal
end FlowMC
