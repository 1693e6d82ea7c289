import Verif.Props.Thinning
import Verif.Props.SplitCallsExamples
import Mathlib.Analysis.Convex.SpecificFunctions.Basic
/-
Non-vacuity of C120: a random walk started from its target, thinned by three or not, short or long.
-/
open MeasureTheory ProbabilityTheory
open scoped ENNReal
set_option linter.unusedSectionVars false
namespace FlowMC
open Spec
namespace Ideal

theorem sq_loss_convex (c : ℝ) : ConvexOn ℝ Set.univ fun x : ℝ => (x - c) ^ 2 := by
  have := (Even.convexOn_pow (𝕜 := ℝ) even_two).translate_left (-c)
  simpa [Function.comp_def, sub_eq_add_neg, add_comm] using this

/-- Non-vacuity of C120 (thinning): the mean square error of the average of the first coordinate. -/
example (x : Pos ℝ 2) (c : ℕ) (hc : 0 < c) : ∃ (w1 w2 : Outcome → World ℝ Unit 2 Unit Unit) (b1 b2 : Outcome → Buffer ℝ),
    (∀ ω, (walkBy (3 * c) 3).run (env ω) (.root 3) [start ω, x] ⟨(), none⟩ (longHeap (3 * c)) = (.ok ((w1 ω).key, (w1 ω).xs), (w1 ω).heap)) ∧
    (∀ ω, (walkBy (3 * c) 1).run (env ω) (.root 3) [start ω, x] ⟨(), none⟩ (longHeap (3 * c)) = (.ok ((w2 ω).key, (w2 ω).xs), (w2 ω).heap)) ∧
    (∀ ω, (w1 ω).heap.res "P" = some (.buffer (b1 ω))) ∧ (∀ ω, (w2 ω).heap.res "P" = some (.buffer (b2 ω))) ∧
    ∫⁻ ω, ENNReal.ofReal (((∑ r ∈ Finset.range (3 * c), (b2 ω).data.get [0, 0 + r, 0]) / (3 * c : ℕ) - 0) ^ 2) ∂prob ≤
      ∫⁻ ω, ENNReal.ofReal (((∑ j ∈ Finset.range (3 * c / 3), (b1 ω).data.get [0, 0 + j, 0]) / (3 * c / 3 : ℕ) - 0) ^ 2) ∂prob := by
  choose w1 e1 hw1 using fun ω => walk_once ω (3 * c) 3 (3 * c) 0 (by omega) (by omega) (Dvd.intro c rfl) ⟨.root 3, [start ω, x], longHeap (3 * c)⟩ rfl (walk_ready _) (by omega)
  choose w2 e2 hw2 using fun ω => walk_once ω (3 * c) 1 (3 * c) 0 (by omega) (by omega) (one_dvd _) ⟨.root 3, [start ω, x], longHeap (3 * c)⟩ rfl (walk_ready _) (by omega)
  obtain ⟨b1, b2, h1, h2, key⟩ := C120_thinning (.root 3) (drawsFrom _) mixHeap.res ⟨(), none⟩ (stdNormal 2) mixStrats [] (by simp) (fun ω => ⟨.root 3, [start ω, x], longHeap (3 * c)⟩)
    (fun ω => ⟨.root 3, [start ω, x], longHeap (3 * c)⟩) w1 w2 (fun _ => rfl) (fun _ => long_keeps _) 0 start (fun _ => rfl) start_known start_law (fun ω => .done _) (walkBy (3 * c) 3) (walkBy_exact _ _ _)
    (show 0 < 3 * c by omega) (Dvd.intro c rfl) e1 2 (3 * c) 0 (fun _ => rfl) "P" "L" "A" _ _ _ (fun _ => walk_pointsAt (walk_ready _) _ _) (fun _ => long_recorders _) (fun _ => rfl)
    (fun x => x 0) (by fun_prop) (fun x => (x - 0) ^ 2) (sq_loss_convex 0) (by fun_prop) (fun x => sq_nonneg _) (by show 0 + 3 * c ≤ 3 * c; omega) e2
  exact ⟨w1, w2, b1, b2, e1, e2, h1, h2, key⟩

/-- Non-vacuity of C120 (longer calls). -/
example (x : Pos ℝ 2) (n m : ℕ) (hn : 0 < n) (hm : 0 < m) : ∃ (w1 w2 : Outcome → World ℝ Unit 2 Unit Unit) (b1 b2 : Outcome → Buffer ℝ),
    (∀ ω, (walkBy n 1).run (env ω) (.root 3) [start ω, x] ⟨(), none⟩ (longHeap (m * n)) = (.ok ((w1 ω).key, (w1 ω).xs), (w1 ω).heap)) ∧
    (∀ ω, (walkBy (m * n) 1).run (env ω) (.root 3) [start ω, x] ⟨(), none⟩ (longHeap (m * n)) = (.ok ((w2 ω).key, (w2 ω).xs), (w2 ω).heap)) ∧
    (∀ ω, (w1 ω).heap.res "P" = some (.buffer (b1 ω))) ∧ (∀ ω, (w2 ω).heap.res "P" = some (.buffer (b2 ω))) ∧
    ∫⁻ ω, ENNReal.ofReal (((∑ r ∈ Finset.range (m * (n / 1)), (b2 ω).data.get [0, 0 + r, 0]) / (m * (n / 1) : ℕ) - 0) ^ 2) ∂prob ≤
      ∫⁻ ω, ENNReal.ofReal (((∑ j ∈ Finset.range (n / 1), (b1 ω).data.get [0, 0 + j, 0]) / (n / 1 : ℕ) - 0) ^ 2) ∂prob := by
  have hle : n ≤ m * n := Nat.le_mul_of_pos_left _ hm
  choose w1 e1 hw1 using fun ω => walk_once ω n 1 (m * n) 0 hn (by omega) (one_dvd _) ⟨.root 3, [start ω, x], longHeap (m * n)⟩ rfl (walk_ready _) (by rw [Nat.div_one]; omega)
  choose w2 e2 hw2 using fun ω => walk_once ω (m * n) 1 (m * n) 0 (Nat.mul_pos hm hn) (by omega) (one_dvd _) ⟨.root 3, [start ω, x], longHeap (m * n)⟩ rfl (walk_ready _) (by rw [Nat.div_one]; omega)
  obtain ⟨b1, b2, h1, h2, key⟩ := C120_longer (.root 3) (drawsFrom _) mixHeap.res ⟨(), none⟩ (stdNormal 2) mixStrats [] (by simp) (fun ω => ⟨.root 3, [start ω, x], longHeap (m * n)⟩)
    (fun ω => ⟨.root 3, [start ω, x], longHeap (m * n)⟩) w1 w2 (fun _ => rfl) (fun _ => long_keeps _) 0 start (fun _ => rfl) start_known start_law (fun ω => .done _) (walkBy n 1) (walkBy_exact _ _ _)
    hn (one_dvd _) e1 2 (m * n) 0 (fun _ => rfl) "P" "L" "A" _ _ _ (fun _ => walk_pointsAt (walk_ready _) _ _) (fun _ => long_recorders _) (fun _ => rfl)
    (fun x => x 0) (by fun_prop) (fun x => (x - 0) ^ 2) (sq_loss_convex 0) (by fun_prop) (fun x => sq_nonneg _) m hm (by show 0 + m * (n / 1) ≤ m * n; rw [Nat.div_one]; omega) e2
  exact ⟨w1, w2, b1, b2, e1, e2, h1, h2, key⟩

end Ideal
end FlowMC
