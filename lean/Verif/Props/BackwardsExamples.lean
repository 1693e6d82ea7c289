import Verif.Props.Backwards
import Verif.Props.ChainAveragesExamples
/-
Non-vacuity of C118: a thinned random walk started from its target.
-/
open MeasureTheory ProbabilityTheory
open scoped ENNReal
set_option linter.unusedSectionVars false
namespace FlowMC
open Spec
namespace Ideal

/-- Non-vacuity of C118: two chains, one started from the target; the sampler of C99 with `2 * L` steps of the random walk, of which every second one is recorded.  The `L` rows of that chain, read
backwards, are distributed as read forwards, and any `l` successive ones as the first `l`. -/
example (x : Pos ℝ 2) (L : ℕ) (hL : 0 < L) : ∃ (w : Outcome → World ℝ Unit 2 Unit Unit) (b : Outcome → Buffer ℝ),
    (∀ ω, ({ walkStepper with nSteps := 2 * L } : TakeSteps).run (env ω) (.root 3) [start ω, x] ⟨(), none⟩ (longHeap L) = (.ok ((w ω).key, (w ω).xs), (w ω).heap)) ∧
    (∀ ω, (w ω).heap.res "P" = some (.buffer (b ω))) ∧
    prob.map (fun ω (j : Fin L) (a : Fin 2) => (b ω).data.get [0, j.rev, a]) = prob.map (fun ω (j : Fin L) (a : Fin 2) => (b ω).data.get [0, j, a]) ∧
    ∀ p l, p + l ≤ L → prob.map (fun ω (j : Fin l) (a : Fin 2) => (b ω).data.get [0, p + j, a]) = prob.map (fun ω (j : Fin l) (a : Fin 2) => (b ω).data.get [0, j, a]) := by
  have hrun : ∀ ω, ∃ ys h', ({ walkStepper with nSteps := 2 * L } : TakeSteps).run (env ω) (.root 3) [start ω, x] ⟨(), none⟩ (longHeap L) = (.ok (.child (.root 3) 0, ys), h') := by
    intro ω
    obtain ⟨ys, h', e, -⟩ := serial_call (env ω) { walkStepper with nSteps := 2 * L } (.root 3) [start ω, x] ⟨(), none⟩ (longHeap L) L "P" "L" "A" _ _ _
      ⟨_, "p", "l", "a", [], rfl, rfl, rfl, rfl, rfl⟩ (long_recorders L) (by simp only [walkStepper, longHeap, ceil_double]; omega) (.grw (1 / 2)) _ target
      ⟨rfl, rfl, rfl, ⟨_, rfl, rfl⟩⟩ (show 0 < 2 by decide) (by simp; omega)
    exact ⟨ys, h', e⟩
  choose ys h' e using hrun
  have hx : ExactStepper (Desc (.root 3)) prob sig env mixHeap.res ⟨(), none⟩ (stdNormal 2) { walkStepper with nSteps := 2 * L } := mix_exactWalk _
  have hlen : ceilDiv' (2 * L) 2 = L := ceil_double L
  obtain ⟨b, hb, -, hrev⟩ := C118_backwards (.root 3) (drawsFrom _) mixHeap.res ⟨(), none⟩ (stdNormal 2) mixStrats [] (by simp) (fun ω => ⟨.root 3, [start ω, x], longHeap L⟩)
    (fun ω => ⟨.root 3, [start ω, x], longHeap L⟩) (fun ω => ⟨_, ys ω, h' ω⟩) (fun _ => rfl) (fun _ => long_keeps _) 0 start (fun _ => rfl) start_known start_law (fun ω => .done _)
    { walkStepper with nSteps := 2 * L } hx (by simp only; omega) e 2 L 0 (fun _ => rfl) "P" "L" "A" _ _ _ (fun _ => ⟨_, "p", "l", "a", [], rfl, rfl, rfl, rfl, rfl⟩) (fun _ => long_recorders L)
    (fun _ => rfl) (by simp only [walkStepper, ceil_double]; omega)
  refine ⟨_, b, e, hb, ?_, fun p l hp => ?_⟩
  · have gen : ∀ n, n = L → prob.map (fun ω (j : Fin n) (a : Fin 2) => (b ω).data.get [0, 0 + j.rev, a]) = prob.map (fun ω (j : Fin n) (a : Fin 2) => (b ω).data.get [0, 0 + j, a]) →
        prob.map (fun ω (j : Fin L) (a : Fin 2) => (b ω).data.get [0, j.rev, a]) = prob.map (fun ω (j : Fin L) (a : Fin 2) => (b ω).data.get [0, j, a]) := by
      rintro n rfl h
      simpa only [zero_add] using h
    exact gen _ hlen hrev
  · obtain ⟨b', hb', -, hs⟩ := C118_stationary (.root 3) (drawsFrom _) mixHeap.res ⟨(), none⟩ (stdNormal 2) mixStrats [] (by simp) (fun ω => ⟨.root 3, [start ω, x], longHeap L⟩)
      (fun ω => ⟨.root 3, [start ω, x], longHeap L⟩) (fun ω => ⟨_, ys ω, h' ω⟩) (fun _ => rfl) (fun _ => long_keeps _) 0 start (fun _ => rfl) start_known start_law (fun ω => .done _)
      { walkStepper with nSteps := 2 * L } hx (by simp only; omega) e 2 L 0 (fun _ => rfl) "P" "L" "A" _ _ _ (fun _ => ⟨_, "p", "l", "a", [], rfl, rfl, rfl, rfl, rfl⟩) (fun _ => long_recorders L)
      (fun _ => rfl) (by simp only [walkStepper, ceil_double]; omega) p l (by simp only [walkStepper, ceil_double]; omega)
    have : b' = b := funext fun ω => by
      have := (hb' ω).symm.trans (hb ω)
      simpa using this
    subst this
    simpa only [zero_add] using hs

end Ideal
end FlowMC
