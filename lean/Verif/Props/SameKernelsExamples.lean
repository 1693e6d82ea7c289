import Verif.Props.SameKernels
/-
C116: concrete cases.
-/
namespace FlowMC
open Spec
noncomputable section

/-- A standard normal log-density in two dimensions, and a flat one. -/
def roundTarget : Target ℝ Unit 2 := ⟨fun x _ => -(x 0) ^ 2 / 2 - (x 1) ^ 2 / 2, fun x _ i => -x i⟩
def flatTarget : Target ℝ Unit 2 := ⟨fun _ _ => 3, fun _ _ _ => 0⟩

/-- Two heaps that differ in the kernel only: a hundred steps from `(1, 2)` give the same chain. -/
example (rng : Rng ℝ) (k : Key) : ∃ K K' : LocalKernel ℝ Unit 2, (KernelRes.hmc (1 / 10) 0 unitMat unitMat : KernelRes ℝ 2 Unit).local? rng = some K ∧
    (KernelRes.mala (1 / 10) : KernelRes ℝ 2 Unit).local? rng = some K' ∧ serialSample K roundTarget ⟨(), none⟩ 100 k ![1, 2] = serialSample K' roundTarget ⟨(), none⟩ 100 k ![1, 2] := by
  obtain ⟨K, K', h1, h2, h3⟩ := C116_serial (M := Unit) rng (1 / 10) (by norm_num) roundTarget ⟨(), none⟩
  exact ⟨K, K', h1, h2, h3 _ _ _⟩

example (rng : Rng ℝ) (k : Key) : ∃ K K' : LocalKernel ℝ Unit 2, (KernelRes.hmc (1 / 10) 9 unitMat unitMat : KernelRes ℝ 2 Unit).local? rng = some K ∧
    (KernelRes.grw (1 / 10 * ((9 : ℕ) + 1)) : KernelRes ℝ 2 Unit).local? rng = some K' ∧ serialSample K flatTarget ⟨(), none⟩ 100 k ![1, 2] = serialSample K' flatTarget ⟨(), none⟩ 100 k ![1, 2] := by
  obtain ⟨K, K', h1, h2, h3⟩ := (C116_serial_flat (M := Unit) rng (1 / 10) 9 flatTarget ⟨(), none⟩ fun _ _ => rfl).2
  exact ⟨K, K', h1, h2, h3 _ _ _⟩

/-- One step on numbers: from `(1, 2)` with draws `z = (1, -1)` both kernels propose `(1.095, 1.89)`. -/
example (u : ℝ) : hmcStep (1 / 10) 0 unitMat unitMat roundTarget ⟨(), none⟩ ![1, -1] u ![1, 2] (roundTarget.val ![1, 2] ⟨(), none⟩) = malaStep (1 / 10) roundTarget ⟨(), none⟩ ![1, -1] u ![1, 2] 0 ∧
    malaProposal (1 / 10) ![1, 2] (roundTarget.grad ![1, 2] ⟨(), none⟩) ![1, -1] = ![1095 / 1000, 189 / 100] := by
  refine ⟨C116_step _ (by norm_num) _ _ _ _ _ _, ?_⟩
  funext i
  fin_cases i <;> simp [malaProposal, malaMean, roundTarget, two] <;> norm_num

/-- The hypotheses of `C116_take_steps` are met by a heap with a kernel, a log-density and a state. -/
example [BufNum ℝ] (env : Env ℝ Unit 2 Unit Unit) (k : Key) (xs : List (Pos ℝ 2)) (h : Heap ℝ Unit 2 Unit Unit) (hk : h.res "kernel" = some (.kernel (.hmc (1 / 10) 0 unitMat unitMat)))
    (hl : h.res "logpdf" = some (.logpdf ⟨roundTarget, []⟩)) (s : TakeSteps) (h1 : s.kind = .serial) (h2 : s.kernelName = "kernel") (h3 : s.logpdfName = "logpdf") :
    (s.run env k xs ⟨(), none⟩ (withKernel "kernel" (.mala (1 / 10)) h)).1 = (s.run env k xs ⟨(), none⟩ h).1 := by
  rw [C116_take_steps "kernel" _ (.mala (1 / 10)) h hk env s h1 h2 ⟨(), none⟩ (fun r t hr ht => C116_serial env.rng _ (by norm_num) t _) k xs]

end
end FlowMC
