import Verif.Props.Intervals
import Verif.Props.InexactExamples
/-
Non-vacuity of C103: credible intervals and medians of the first coordinate.
-/
open MeasureTheory ProbabilityTheory
open scoped ENNReal
set_option linter.unusedSectionVars false
namespace FlowMC
open Spec
namespace Bars
open Ideal
noncomputable section
open Classical

/-- Non-vacuity of C103: in a long enough run, with probability `1 - ε`, every interval that contains nine tenths of the first coordinates of the rows of a chain has a probability of at least 0.89 under the target. -/
example (ε : ℝ) (hε : 0 < ε) : ∃ L, ∀ n, L ≤ n → ∃ (s' : Outcome → Sampler ℝ Unit 2 (Pos ℝ 2) ℕ Unit) (b : Outcome → Buffer ℝ),
    (∀ ω, ∃ s, Sampler.new 2 2 (.root 7) none none none (some (malaBundle (cfg.withProd n))) [] = .ok s ∧ s.sample (env ω) (.mat [![1000, -1000], start ω]) ⟨(), none⟩ = (.ok (), s' ω)) ∧
    (∀ ω, (s' ω).heap.res "positions_production" = some (.buffer (b ω))) ∧
    prob.real {ω | ∃ i < 2, ∃ lo hi : ℝ, 0.9 ≤ (((Finset.range (n * 4)).filter fun j => lo ≤ (b ω).data.get [i, j, 0] ∧ (b ω).data.get [i, j, 0] ≤ hi).card : ℝ) / (n * 4 : ℕ) ∧
      (normalised (targetMeasure fun x => narrow.val x ⟨(), none⟩)).real {x | lo ≤ x 0 ∧ x 0 ≤ hi} < 0.89} ≤ ε := by
  obtain ⟨L, hL⟩ := C103_adaptive (V := Unit) draws cfg (by decide) (by decide) (fun _ => rfl) ⟨(), none⟩ adaptive training (fun j => by fin_cases j <;> simp [BundleCfg.flow, cfg]) (.root 7)
    (fun ω => .mat [![1000, -1000], start ω]) (fun _ => rfl) starts (fun x => x 0) (measurable_pi_apply 0) 0.01 ε (by norm_num) hε
  refine ⟨L, fun n hn => ?_⟩
  obtain ⟨s', b, g1, g2, g3⟩ := hL n hn 2 2 [] _ rfl
  refine ⟨s', b, fun ω => ⟨_, rfl, g1 ω⟩, g2, (measureReal_mono ?_ (measure_ne_top _ _)).trans g3⟩
  rintro ω ⟨i, hi, lo, up, h1, h2⟩
  refine ⟨i, hi, fun hc => ?_⟩
  have e : (cfg.withProd n).nProdSteps = n * 4 := by simp only [BundleCfg.nProdSteps, BundleCfg.withProd, cfg, Learn.cfg]; omega
  have := (C103_credible _ _ _ _ _ hc 0.9).1 lo up
  simp only [fractionIn, chainRows, EReal.coe_le_coe_iff, e] at this
  have h3 := this h1
  rw [show cfg.logpdf = narrow from rfl] at h3
  linarith

/-- Non-vacuity of C103 (hard boundaries): sample medians of the first coordinate are medians, up to one percent, of the law on the unit square. -/
example (ε : ℝ) (hε : 0 < ε) : ∃ (n : ℕ) (s' : Outcome → Sampler XR Unit 2 (Pos ℝ 2) ℕ Unit) (b : Outcome → Buffer XR), 0 < n ∧
    (∀ ω, ∃ s, Sampler.new 2 2 (.root 7) none none none (some (malaBundle (wallCfg.withProd n))) [] = .ok s ∧ s.sample (wallEnv ω) (.mat [emb (begin' 0), emb (begin' 1)]) ⟨(), none⟩ = (.ok (), s' ω)) ∧
    (∀ ω, (s' ω).heap.res "positions_production" = some (.buffer (b ω))) ∧
    prob.real {ω | ∃ i < 2, ∃ q : ℝ, 1 / 2 ≤ fractionIn (fun x : Pos ℝ 2 => x 0) (wallRows (b ω) i) (n * 4) ⊥ q ∧ 1 / 2 ≤ fractionIn (fun x : Pos ℝ 2 => x 0) (wallRows (b ω) i) (n * 4) q ⊤ ∧
      ((normalised (wallMeasure square fun x => x 0)).real {x | x 0 ≤ q} < 0.49 ∨ (normalised (wallMeasure square fun x => x 0)).real {x | q ≤ x 0} < 0.49)} ≤ ε := by
  obtain ⟨L, hL⟩ := C103_walls (V := Unit) draws wallCfg (by decide) (by decide) (fun _ => rfl) ⟨(), none⟩ wallAdaptive wallTraining (fun j => by fin_cases j <;> simp [BundleCfg.flow, wallCfg]) (.root 7)
    (fun ω => .mat [emb (begin' 0), emb (begin' 1)]) (fun _ => rfl)
    (fun i hi => by
      rw [show wallCfg.nChains = 2 from rfl] at hi
      refine ⟨fun _ => begin' i, measurable_const, fun _ => ⟨?_, begin_mem i⟩⟩
      rcases (show i = 0 ∨ i = 1 by omega) with rfl | rfl <;> rfl)
    (fun x => x 0) (measurable_pi_apply 0) 0.01 ε (by norm_num) hε
  obtain ⟨s', b, h1, h2, -, h4⟩ := hL (L + 1) (by omega) 2 2 [] _ rfl
  refine ⟨L + 1, s', b, by omega, fun ω => ⟨_, rfl, h1 ω⟩, h2, (measureReal_mono ?_ (measure_ne_top _ _)).trans h4⟩
  rintro ω ⟨i, hi, q, k1, k2, k3⟩
  refine ⟨i, hi, fun hc => ?_⟩
  have e : (wallCfg.withProd (L + 1)).nProdSteps = (L + 1) * 4 := by simp only [BundleCfg.nProdSteps, BundleCfg.withProd, wallCfg, Learn.wallRunCfg]; omega
  rw [e] at hc
  have := (C103_credible _ _ _ _ _ hc (1 / 2)).2.2 q k1 (by linarith)
  rcases k3 with k | k <;> linarith [this.1, this.2]

end
end Bars
end FlowMC
