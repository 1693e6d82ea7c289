import Verif.Props.WallAverages
import Verif.Props.WallAdaptiveExamples
import Verif.Props.ChainAveragesExamples
/-
Non-vacuity of C100: the mean of the first coordinate under the normal law cut off at a half plane, from a run with a flow trained on the way.
-/
open MeasureTheory ProbabilityTheory
open scoped ENNReal
set_option linter.unusedSectionVars false
namespace FlowMC
open Spec
namespace Learn
open Ideal
noncomputable section
open Classical

/-- The first coordinate, an unbounded function, has a mean under the truncated normal law. -/
theorem coord_half : Integrable (fun x : Pos ℝ 2 => x 0) (normalised (wallMeasure half halfLp)) := by
  obtain ⟨Z, hZ⟩ := half_scaled
  have h1 : (2 • (stdNormal 2).restrict half : Measure (Fin 2 → ℝ)) Set.univ = 1 := measure_univ
  have h2 : Integrable (fun x : Pos ℝ 2 => x 0) (2 • (stdNormal 2).restrict half : Measure (Fin 2 → ℝ)) := by
    have := (coord_stdNormal.restrict (s := half)).smul_measure (c := 2) (by simp)
    rwa [ofNat_smul_eq_nsmul] at this
  rw [hZ] at h2
  have h3 := half_mass
  have hz : Z ≠ 0 := by rintro rfl; rw [hZ] at h1; simp at h1
  have hz' : Z ≠ ∞ := by
    rintro rfl
    rw [hZ, Measure.smul_apply, smul_eq_mul, ENNReal.top_mul h3.1] at h1
    simp at h1
  rw [integrable_smul_measure hz hz'] at h2
  exact h2.smul_measure (by simp [h3.1])

/-- Non-vacuity of C100: two chains, one of them started on the wall; in a long enough run every production row is a finite point of the half plane and the first coordinates of each chain average to the mean of the
truncated normal law up to `δ`, except with probability `ε`. -/
example (δ ε : ℝ) (hδ : 0 < δ) (hε : 0 < ε) : ∃ (n : ℕ) (s' : Outcome → Sampler XR Unit 2 (Pos ℝ 2) ℕ Unit) (b : Outcome → Buffer XR), 0 < n ∧
    (∀ ω, ∃ s, Sampler.new 2 2 (.root 7) none none none (some (malaBundle (wallRunCfg.withProd n))) [] = .ok s ∧ s.sample (wallEnv ω) (.mat [emb (corner 0), emb (corner 1)]) ⟨(), none⟩ = (.ok (), s' ω)) ∧
    (∀ ω, (s' ω).heap.res "positions_production" = some (.buffer (b ω))) ∧
    (∀ ω, ∀ i < 2, ∀ j < n * 4, ∃ y : Pos ℝ 2, 0 ≤ y 0 ∧ ∀ a : Fin 2, (b ω).data.get [i, j, a] = XR.fin (y a)) ∧
    prob.real {ω | ∃ i < 2, δ < |(∑ j ∈ Finset.range (n * 4), cellReal ((b ω).data.get [i, j, 0])) / (n * 4 : ℕ) - ∫ x : Pos ℝ 2, x 0 ∂(normalised (wallMeasure half halfLp))|} ≤ ε := by
  obtain ⟨L, hL⟩ := C100_adaptive (V := Unit) draws wallRunCfg (by decide) (by decide) (fun _ => rfl) ⟨(), none⟩ wallAdaptive wallTraining trivial (.root 7) (fun ω => .mat [emb (corner 0), emb (corner 1)]) (fun _ => rfl)
    (fun i hi => by
      rw [show wallRunCfg.nChains = 2 from rfl] at hi
      refine ⟨fun _ => corner i, measurable_const, fun _ => ⟨?_, corner_mem i⟩⟩
      rcases (show i = 0 ∨ i = 1 by omega) with rfl | rfl <;> rfl) (fun x => x 0) (by fun_prop) coord_half δ ε hδ hε
  obtain ⟨s', b, h1, h2, h3, h4⟩ := hL (L + 1) (by omega) 2 2 [] _ rfl
  have e : (wallRunCfg.withProd (L + 1)).nProdSteps = (L + 1) * 4 := by simp only [BundleCfg.nProdSteps, BundleCfg.withProd, wallRunCfg]; omega
  rw [e] at h4
  simp only [e] at h3
  exact ⟨L + 1, s', b, by omega, fun ω => ⟨_, rfl, h1 ω⟩, h2, fun ω i hi j hj => h3 ω i hi j hj, h4⟩

end
end Learn
end FlowMC
