import Verif.Props.Autocovariance
import Verif.Props.SplitCallsExamples
/-
Non-vacuity of C121: a random walk started from its target, with any thinning dividing the number of steps.
-/
open MeasureTheory ProbabilityTheory
open scoped ENNReal
set_option linter.unusedSectionVars false
namespace FlowMC
open Spec
namespace Ideal

/-- The first coordinate has a finite second moment under the target. -/
theorem first_square : Integrable (fun x : Pos ℝ 2 => x 0 ^ 2) (stdNormal 2) := by
  have h1 : Integrable (fun x : ℝ => x ^ 2) (gaussianReal 0 1) := (memLp_id_gaussianReal (μ := 0) (v := 1) 2).integrable_sq
  have h2 : (stdNormal 2).map (fun x : Pos ℝ 2 => x 0) = gaussianReal 0 1 := (measurePreserving_eval (fun _ : Fin 2 => gaussianReal 0 1) 0).map_eq
  rw [← h2] at h1
  exact h1.comp_measurable (measurable_pi_apply 0)

/-- Non-vacuity of C121: the autocovariances of the first coordinate of a thinned random walk of at least six rows. -/
example (x : Pos ℝ 2) (t C : ℕ) (ht : 0 < t) (hC : 6 ≤ C) : ∃ (w1 : Outcome → World ℝ Unit 2 Unit Unit) (b : Outcome → Buffer ℝ),
    (∀ ω, (walkBy (t * C) t).run (env ω) (.root 3) [start ω, x] ⟨(), none⟩ (longHeap (t * C)) = (.ok ((w1 ω).key, (w1 ω).xs), (w1 ω).heap)) ∧ (∀ ω, (w1 ω).heap.res "P" = some (.buffer (b ω))) ∧
    Integrable (fun ω => ((b ω).data.get [0, 0 + 0, 0] - 0) * ((b ω).data.get [0, 0 + 5, 0] - 0)) prob ∧
    0 ≤ autocovariance prob (fun r ω => (b ω).data.get [0, 0 + r, 0]) 0 1 (2 * 2) ∧
    0 ≤ autocovariance prob (fun r ω => (b ω).data.get [0, 0 + r, 0]) 0 0 (2 * 2) + autocovariance prob (fun r ω => (b ω).data.get [0, 0 + r, 0]) 0 0 (2 * 2 + 1) ∧
    autocovariance prob (fun r ω => (b ω).data.get [0, 0 + r, 0]) 0 0 (2 * 1 + 2) + autocovariance prob (fun r ω => (b ω).data.get [0, 0 + r, 0]) 0 0 (2 * 1 + 3) ≤
      autocovariance prob (fun r ω => (b ω).data.get [0, 0 + r, 0]) 0 0 (2 * 1) + autocovariance prob (fun r ω => (b ω).data.get [0, 0 + r, 0]) 0 0 (2 * 1 + 1) := by
  have hpos : 0 < t * C := Nat.mul_pos ht (by omega)
  have hle : C ≤ t * C := Nat.le_mul_of_pos_left _ ht
  have hdiv : t * C / t = C := Nat.mul_div_cancel_left _ ht
  have hceil : ceilDiv' (t * C) t = C := by rw [ceilDiv', show t * C + t - 1 = (t - 1) + t * C by omega, Nat.add_mul_div_left _ _ ht, Nat.div_eq_of_lt (by omega)]; omega
  choose w1 e1 hw1 using fun ω => walk_once ω (t * C) t (t * C) 0 hpos ht (Dvd.intro C rfl) ⟨.root 3, [start ω, x], longHeap (t * C)⟩ rfl (walk_ready _) (by rw [hdiv]; omega)
  obtain ⟨b, hb, key⟩ := C121_autocovariances (.root 3) (drawsFrom _) mixHeap.res ⟨(), none⟩ (stdNormal 2) mixStrats [] (by simp) (fun ω => ⟨.root 3, [start ω, x], longHeap (t * C)⟩)
    (fun ω => ⟨.root 3, [start ω, x], longHeap (t * C)⟩) w1 (fun _ => rfl) (fun _ => long_keeps _) 0 start (fun _ => rfl) start_known start_law (fun ω => .done _) (walkBy (t * C) t) (walkBy_exact _ _ _)
    hpos e1 2 (t * C) 0 (fun _ => rfl) "P" "L" "A" _ _ _ (fun _ => walk_pointsAt (walk_ready _) _ _) (fun _ => long_recorders _) (fun _ => rfl)
    (by show 0 + ceilDiv' (t * C) t ≤ t * C; rw [hceil]; omega) (fun x => x 0) (by fun_prop) first_square 0
  obtain ⟨k1, k2, k3, k4⟩ := key (fun r ω => (b ω).data.get [0, 0 + r, 0]) fun _ _ => rfl
  have hC' : ceilDiv' (walkBy (t * C) t).nSteps (walkBy (t * C) t).thinning = C := hceil
  rw [hC'] at k1 k2 k3 k4
  exact ⟨w1, b, e1, hb, k1 0 5 (by omega), k2 1 2 (by omega), k3 0 2 (by omega), k4 0 1 (by omega)⟩

end Ideal
end FlowMC
