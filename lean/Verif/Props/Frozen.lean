import Verif.Model.Optimizer
import Verif.Props.FlowFalse
/-
C52: parameters read through `stop_gradient` are changed by training (weight decay), with consequences for C38 and C46.
-/
set_option linter.unusedSectionVars false
open MeasureTheory ProbabilityTheory
open scoped ENNReal
namespace FlowMC
open Spec
noncomputable section
open Classical

variable {ι : Type} [Fintype ι]

theorem adamwStep_zero (lr b1 : ℝ) (g : ι → ℝ) (sp : AdamState ι × (ι → ℝ)) (i : ι) (hg : g i = 0) (hm : sp.1.mu i = 0) (hn : sp.1.nu i = 0) :
    (adamwStep lr b1 g sp).1.mu i = 0 ∧ (adamwStep lr b1 g sp).1.nu i = 0 ∧ (adamwStep lr b1 g sp).2 i = (1 - lr / 10000) * sp.2 i := by
  have hc : clipByGlobalNorm g i = 0 := by simp [clipByGlobalNorm, hg]
  refine ⟨by simp [adamwStep, hc, hm], by simp [adamwStep, hc, hn], ?_⟩
  simp only [adamwStep, hc, hm, hn]
  norm_num
  ring

/-- C52, what holds: a parameter whose gradient is zero at every step (a frozen parameter) is multiplied by `1 - 1e-4 · lr` at every step, for all models, data,
numbers of steps, learning rates and momenta; nothing else happens to it. -/
theorem C52_frozen_decay_partial (lr b1 : ℝ) (grads : List ((ι → ℝ) → ι → ℝ)) (i : ι) (hz : ∀ g ∈ grads, ∀ p, g p i = 0) (p : ι → ℝ) :
    (adamwRun lr b1 grads (.init, p)).2 i = (1 - lr / 10000) ^ grads.length * p i := by
  have key : ∀ (gs : List ((ι → ℝ) → ι → ℝ)) (sp : AdamState ι × (ι → ℝ)), (∀ g ∈ gs, ∀ p, g p i = 0) → sp.1.mu i = 0 → sp.1.nu i = 0 →
      (adamwRun lr b1 gs sp).2 i = (1 - lr / 10000) ^ gs.length * sp.2 i := by
    intro gs
    induction gs with
    | nil => intro sp _ _ _; simp [adamwRun]
    | cons g gs ih =>
      intro sp hz hm hn
      obtain ⟨h1, h2, h3⟩ := adamwStep_zero lr b1 (g sp.2) sp i (hz g (by simp) _) hm hn
      rw [adamwRun, ih _ (fun g' hg' => hz g' (by simp [hg'])) h1 h2, h3, List.length_cons, pow_succ]
      ring
  exact key grads _ hz rfl rfl

/-- C52, exactly when it holds: with a positive learning rate below `10000` and at least one step, a frozen parameter is unchanged if and only if it is zero. -/
theorem C52_frozen_iff_zero (lr b1 : ℝ) (h0 : 0 < lr) (h1 : lr < 10000) (grads : List ((ι → ℝ) → ι → ℝ)) (hne : grads ≠ []) (i : ι)
    (hz : ∀ g ∈ grads, ∀ p, g p i = 0) (p : ι → ℝ) : (adamwRun lr b1 grads (.init, p)).2 i = p i ↔ p i = 0 := by
  rw [C52_frozen_decay_partial lr b1 grads i hz]
  constructor
  · intro h
    by_contra hp
    have h2 : (1 - lr / 10000) ^ grads.length = 1 := mul_right_cancel₀ hp (by rw [h, one_mul])
    have hlt : (1 - lr / 10000) ^ grads.length < 1 := pow_lt_one₀ (by linarith) (by linarith) (by simpa using hne)
    linarith
  · intro h; rw [h, mul_zero]

/-- C52 is false: one step with the default learning rate changes a frozen mask entry 1 to `1 - 1e-7`. -/
theorem C52_not_frozen (b1 : ℝ) (grad : (Fin 1 → ℝ) → Fin 1 → ℝ) (hz : ∀ p, grad p 0 = 0) :
    (adamwRun (1 / 1000) b1 [grad] (.init, fun _ => 1)).2 0 = 1 - 1 / 10000000 ∧ (1 - 1 / 10000000 : ℝ) ≠ 1 := by
  refine ⟨?_, by norm_num⟩
  rw [C52_frozen_decay_partial _ _ _ _ (by simpa using hz)]
  norm_num

/-! ### Consequence for C38: RealNVP's masks stop being 0/1, and the trained flow is not invertible -/

/-- A one-feature RealNVP with two layers; the mask of the second layer is `c` (constructed: 1); its networks have constant outputs `a` (before `tanh`) and 0. -/
def decayedNVP (a c : ℝ) : RealNVP 1 :=
  { base := stdGaussian 1
    layers := [⟨nvpMask 1 0, 1, .last (fun _ _ => 0) (fun _ => 0), .last (fun _ _ => 0) (fun _ => 0)⟩,
      ⟨fun j => c * nvpMask 1 1 j, 1, .last (fun _ _ => 0) (fun _ => a), .last (fun _ _ => 0) (fun _ => 0)⟩]
    dataMean := fun _ => 0
    dataVar := fun _ => 1 }

theorem decayedNVP_forward (a c : ℝ) (x : Pos ℝ 1) : ((decayedNVP a c).forward x).1 0 = x 0 * ((1 - c) * Real.exp (Real.tanh a) + c) := by
  rw [RealNVP.forward_eq]
  simp [decayedNVP, seqMaps, NVPLayer.coupling, CouplingLayer.forward, mlpAffine, MLP.call, linear, sumFin, nvpMask]
  ring

theorem decayedNVP_inverse (a c : ℝ) (x : Pos ℝ 1) : ((decayedNVP a c).inverse x).1 0 = x 0 * ((1 - c) * Real.exp (-Real.tanh a) + c) := by
  rw [RealNVP.inverse_eq]
  simp [decayedNVP, seqMaps, NVPLayer.coupling, CouplingLayer.inverse, mlpAffine, MLP.call, linear, sumFin, nvpMask]
  ring

/-- C38/C52: after any positive number of optimizer steps with zero gradient for the masks, the RealNVP whose second mask is the decayed constructed mask is not
invertible by its own `inverse` (whenever that layer's scale network is not zero): training breaks C38. -/
theorem C52_mask_decay_breaks_inverse (lr b1 : ℝ) (h0 : 0 < lr) (h1 : lr < 10000) (grads : List ((Fin 1 → ℝ) → Fin 1 → ℝ)) (hne : grads ≠ [])
    (hz : ∀ g ∈ grads, ∀ p, g p 0 = 0) (a : ℝ) (ha : a ≠ 0) :
    (∀ c, c = 1 → InversePair (decayedNVP a c).forward (decayedNVP a c).inverse) ∧
    ¬ InversePair (decayedNVP a ((adamwRun lr b1 grads (.init, nvpMask 1 1)).2 0)).forward (decayedNVP a ((adamwRun lr b1 grads (.init, nvpMask 1 1)).2 0)).inverse := by
  constructor
  · rintro c rfl
    refine C38_inverse_pair _ fun l hl => ?_
    simp only [decayedNVP, List.mem_cons, List.not_mem_nil, or_false] at hl
    rcases hl with rfl | rfl
    · exact (C38_masks 0).1
    · simpa using (C38_masks (d := 1) 1).1
  · intro h
    have hm : nvpMask 1 1 0 = 1 := by simp [nvpMask]
    have hc : (adamwRun lr b1 grads (.init, nvpMask 1 1)).2 0 = (1 - lr / 10000) ^ grads.length := by
      rw [C52_frozen_decay_partial _ _ _ _ hz, hm, mul_one]
    rw [hc] at h
    have hlt : (1 - lr / 10000) ^ grads.length < 1 := pow_lt_one₀ (by linarith) (by linarith) (by simpa using hne)
    have hpos : 0 < (1 - lr / 10000) ^ grads.length := pow_pos (by linarith) _
    set c := (1 - lr / 10000) ^ grads.length
    have hl := congrFun (h.left fun _ => 1) 0
    rw [decayedNVP_inverse, decayedNVP_forward] at hl
    set s := Real.tanh a with hs
    have hs0 : s ≠ 0 := by
      rw [hs, Real.tanh_eq_sinh_div_cosh]
      exact div_ne_zero (by rw [Ne, Real.sinh_eq_zero]; exact ha) (Real.cosh_pos a).ne'
    have hee : Real.exp s * Real.exp (-s) = 1 := by rw [← Real.exp_add, add_neg_cancel, Real.exp_zero]
    have hsum : 2 < Real.exp s + Real.exp (-s) := by
      have h2 : Real.exp s ≠ 1 := by rw [Ne, Real.exp_eq_one_iff]; exact hs0
      have hp := Real.exp_pos s
      have : Real.exp (-s) = (Real.exp s)⁻¹ := Real.exp_neg s
      have h3 : 0 < (Real.exp s - 1) ^ 2 := by
        have : Real.exp s - 1 ≠ 0 := sub_ne_zero.2 h2
        positivity
      have : 0 < Real.exp s * (Real.exp s + Real.exp (-s) - 2) := by
        have e : Real.exp s * (Real.exp s + Real.exp (-s) - 2) = (Real.exp s - 1) ^ 2 := by
          rw [mul_sub, mul_add, hee]; ring
        rw [e]; exact h3
      have := (pos_iff_pos_of_mul_pos this).1 hp
      linarith
    have hexp : (1 : ℝ) * ((1 - c) * Real.exp s + c) * ((1 - c) * Real.exp (-s) + c) = 1 + c * (1 - c) * (Real.exp s + Real.exp (-s) - 2) := by
      have : (1 : ℝ) * ((1 - c) * Real.exp s + c) * ((1 - c) * Real.exp (-s) + c) =
          (1 - c) ^ 2 * (Real.exp s * Real.exp (-s)) + c * (1 - c) * (Real.exp s + Real.exp (-s)) + c ^ 2 := by ring
      rw [this, hee]; ring
    rw [hexp] at hl
    have : 0 < c * (1 - c) * (Real.exp s + Real.exp (-s) - 2) := mul_pos (mul_pos hpos (by linarith)) (by linarith)
    linarith

/-! ### Consequence for C46: RealNVP's default base distribution shrinks, but `log_prob` still uses `N(0, 1)` -/

variable {Ω D M O : Type} {past : MeasurableSpace Ω} {sig : Key → MeasurableSpace Ω} [mΩ : MeasurableSpace Ω] {P : Measure Ω}
  [IsProbabilityMeasure P] {env : Ω → Env ℝ D 1 M O}

/-- C46/C52: after any positive number of optimizer steps the default base distribution of RealNVP has a decayed covariance `c < 1`, so the samples no longer have
density proportional to `exp(log_prob)`. -/
theorem C52_base_decay_breaks_density (h : IdealDraws past sig P env) (dr : MLPDraws) (nHidden : ℕ) (k : Key) (lr b1 : ℝ) (h0 : 0 < lr) (h1 : lr < 10000)
    (grads : List ((Fin 1 → ℝ) → Fin 1 → ℝ)) (hne : grads ≠ []) (hz : ∀ g ∈ grads, ∀ p, g p 0 = 0) :
    let c := (adamwRun lr b1 grads (.init, fun _ => 1)).2 0
    let m := RealNVP.init dr 1 0 nHidden k (some (gaussian (fun _ => 0) (fun _ _ => Real.sqrt c))) none none
    ¬ ∃ q : Measure (Fin 1 → ℝ), IsProbabilityMeasure q ∧ SamplesFrom q m.logProb ∧ IidRows P sig (fun k' n ω => m.sample (env ω).rng k' n) q := by
  intro c m hq
  have hc : c = (1 - lr / 10000) ^ grads.length := by
    show (adamwRun lr b1 grads (.init, fun _ => 1)).2 0 = _
    rw [C52_frozen_decay_partial _ _ _ _ hz, mul_one]
  have hlt : c < 1 := by rw [hc]; exact pow_lt_one₀ (by linarith) (by linarith) (by simpa using hne)
  have hpos : 0 < c := by rw [hc]; exact pow_pos (by linarith) _
  have := ((C46_realNVP_base_iff h dr nHidden k 0 (Real.sqrt c) (Real.sqrt_pos.2 hpos)).2.1 hq).2
  rw [Real.sqrt_eq_one] at this
  linarith

end
end FlowMC

namespace FlowMC
/-- Three steps with zero gradients meet the hypotheses of C52. -/
example : (adamwRun (1 / 1000) (9 / 10) [fun _ _ => 0, fun _ _ => 0, fun _ _ => 0] (.init, fun _ : Fin 2 => 5)).2 0 ≠ 5 := by
  intro h
  have := (C52_frozen_iff_zero (1 / 1000) (9 / 10) (by norm_num) (by norm_num) [fun _ _ => 0, fun _ _ => 0, fun _ _ => 0] (by simp) (0 : Fin 2) (by simp) fun _ => 5).1 h
  norm_num at this
end FlowMC
