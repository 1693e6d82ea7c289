import Verif.Props.ChainAverages
import Verif.Props.AnyOrderExamples
/-
Non-vacuity of C99: long thinned random walks, from a fixed point, estimate the mean of the target.
-/
open MeasureTheory ProbabilityTheory
open scoped ENNReal
set_option linter.unusedSectionVars false
namespace FlowMC
open Spec
namespace Ideal

/-- The resources of the hand-made sampler, with buffers for `c` rows and all cursors at the beginning. -/
noncomputable def longHeap (c : ℕ) : Heap ℝ Unit 2 Unit Unit where
  res := fun n => match n with
    | "P" => some (.buffer (Buffer.new "P" [2, c, 2] 1))
    | "L" => some (.buffer (Buffer.new "L" [2, c] 1))
    | "A" => some (.buffer (Buffer.new "A" [2, c] 1))
    | n => mixHeap.res n
  pos := fun _ => 0

theorem long_keeps (c : ℕ) : KeepsSamplers mixHeap.res (longHeap c) := by
  intro n r hr hs
  by_cases h1 : n = "P"
  · subst h1; simp only [mixHeap, Option.some.injEq] at hr; subst hr; exact hs.elim
  by_cases h2 : n = "L"
  · subst h2; simp only [mixHeap, Option.some.injEq] at hr; subst hr; exact hs.elim
  by_cases h3 : n = "A"
  · subst h3; simp only [mixHeap, Option.some.injEq] at hr; subst hr; exact hs.elim
  have : (longHeap c).res n = mixHeap.res n := by
    simp only [longHeap]
  rw [this, hr]

theorem ceil_double (L : ℕ) : ceilDiv' (2 * L) 2 = L := by unfold ceilDiv'; omega

theorem long_recorders (c : ℕ) : Recorders (longHeap c) 2 c "P" "L" "A" (Buffer.new "P" [2, c, 2] 1) (Buffer.new "L" [2, c] 1) (Buffer.new "A" [2, c] 1) :=
  ⟨rfl, rfl, rfl, rfl, rfl, rfl, rfl, rfl, rfl, by decide⟩

theorem coord_stdNormal : Integrable (fun x : Pos ℝ 2 => x 0) (stdNormal 2) := by
  have h := (measurePreserving_eval (fun _ : Fin 2 => gaussianReal 0 1) 0)
  exact h.integrable_comp_of_integrable (g := fun x : ℝ => x) ((memLp_id_gaussianReal (μ := 0) (v := 1) 1).integrable (by simp) : Integrable id _)

/-- Non-vacuity of C99: two chains, one started at a point `x` chosen by the user.  For all `δ`, `ε` there is a run of the thinned random walk — with real buffers — whose recorded rows of that chain have first
coordinates averaging to the mean of the target up to `δ`, except with probability `ε`. -/
example (x : Pos ℝ 2) (δ ε : ℝ) (hδ : 0 < δ) (hε : 0 < ε) : ∃ (L : ℕ) (w : Outcome → World ℝ Unit 2 Unit Unit) (b : Outcome → Buffer ℝ), 0 < L ∧
    (∀ ω, ({ walkStepper with nSteps := 2 * L } : TakeSteps).run (env ω) (.root 3) [start ω, x] ⟨(), none⟩ (longHeap L) = (.ok ((w ω).key, (w ω).xs), (w ω).heap)) ∧
    (∀ ω, (w ω).heap.res "P" = some (.buffer (b ω))) ∧
    prob.real {ω | δ < |(∑ j ∈ Finset.range L, (b ω).data.get [1, 0 + j, 0]) / L - ∫ x : Pos ℝ 2, x 0 ∂(stdNormal 2)|} ≤ ε := by
  obtain ⟨L, hL⟩ := C99_averages (.root 3) (drawsFrom _) mixHeap.res ⟨(), none⟩ (stdNormal 2) mixStrats [] (by simp) walkStepper (mix_exactWalk _)
    (.inr ⟨_, _, target, rfl, rfl, rfl, by simp [MixingSettings]⟩) (fun _ => x) measurable_const (fun x => x 0) (by fun_prop) coord_stdNormal δ ε hδ hε
  have hrun : ∀ ω, ∃ ys h', ({ walkStepper with nSteps := 2 * (L + 1) } : TakeSteps).run (env ω) (.root 3) [start ω, x] ⟨(), none⟩ (longHeap (L + 1)) = (.ok (.child (.root 3) 0, ys), h') := by
    intro ω
    obtain ⟨ys, h', e, -⟩ := serial_call (env ω) { walkStepper with nSteps := 2 * (L + 1) } (.root 3) [start ω, x] ⟨(), none⟩ (longHeap (L + 1)) (L + 1) "P" "L" "A" _ _ _
      ⟨_, "p", "l", "a", [], rfl, rfl, rfl, rfl, rfl⟩ (long_recorders (L + 1)) (by simp only [walkStepper, longHeap, ceil_double]; omega) (.grw (1 / 2)) _ target
      ⟨rfl, rfl, rfl, ⟨_, rfl, rfl⟩⟩ (show 0 < 2 by decide) (by simp)
    exact ⟨ys, h', e⟩
  choose ys h' e using hrun
  have := hL (2 * (L + 1)) (by simp only [walkStepper, ceil_double]; omega) (fun ω => ⟨.root 3, [start ω, x], longHeap (L + 1)⟩) (fun ω => ⟨.root 3, [start ω, x], longHeap (L + 1)⟩)
    (fun ω => ⟨_, ys ω, h' ω⟩) 1 (fun _ => rfl) (fun _ => long_keeps _) (fun _ => rfl) (fun ω => .done _) e 2 (L + 1) 0 (fun _ => rfl) "P" "L" "A" _ _ _
    (fun _ => ⟨_, "p", "l", "a", [], rfl, rfl, rfl, rfl, rfl⟩) (fun _ => long_recorders (L + 1)) (fun _ => rfl) (by simp only [walkStepper, ceil_double]; omega)
  obtain ⟨b, h1, h2⟩ := this
  refine ⟨L + 1, _, b, by omega, e, h1, ?_⟩
  simp only [walkStepper, ceil_double] at h2
  exact h2

end Ideal
end FlowMC
