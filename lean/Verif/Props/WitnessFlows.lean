import Verif.Props.IdealWorld
import Verif.Props.FlowDensity
import Verif.Props.FlowFalse
import Verif.Props.FlowGuard
import Verif.Props.FlowMatching
import Verif.Props.Frozen
import Verif.Props.Likelihood
import Verif.Props.Composable
import Verif.Props.MisfitFlows
/-
Concrete instances of the flow theorems (C37-C47, C52, C55, C56, C73, C75, C76): the hypotheses are met by flows built by the
constructors, in the ideal world of `IdealWorld.lean`.
-/
open MeasureTheory ProbabilityTheory
open scoped ENNReal
set_option linter.unusedSectionVars false
namespace FlowMC
open Spec
noncomputable section
namespace Witness

/-- Network initialisation with every number equal to one half. -/
def halves : MLPDraws := ⟨fun _ _ _ => (fun _ _ => 1 / 2, fun _ => 1 / 2), fun _ _ _ _ _ => 1⟩

theorem halves_bounded (k : Key) (n m : ℕ) : (∀ i j, |(halves.lin k n m).1 i j| ≤ 1) ∧ ∀ i, |(halves.lin k n m).2 i| ≤ 1 := by
  constructor
  · intro i j; norm_num [halves, abs_of_pos]
  · intro i; norm_num [halves, abs_of_pos]

/-- The ideal world with the flow operations of RealNVP. -/
def nvpEnv (d : ℕ) (ω : Ideal.Outcome) : Env ℝ Unit d (RealNVPModel d) Unit where
  rng := (Ideal.env ω).rng
  ops := ⟨fun m k n => m.1.sample (Ideal.env ω).rng k n, fun m => m.1.logProb, fun m o _ => (0, m, o), fun m _ => m⟩
  big := 1000

theorem nvpDraws (d : ℕ) : IdealDraws Ideal.past Ideal.sig Ideal.prob (nvpEnv d) :=
  ⟨Ideal.draws.past_le, Ideal.draws.sig_le, Ideal.draws.indep, Ideal.draws.normal_meas, Ideal.draws.normal_law, Ideal.draws.uniform_meas, Ideal.draws.uniform_law⟩

/-- The ideal world with the flow operations of the spline flow. -/
def splineEnv (d K : ℕ) (ω : Ideal.Outcome) : Env ℝ Unit d (SplineModel d K) Unit where
  rng := (Ideal.env ω).rng
  ops := ⟨fun m k n => m.1.sample 0 (Ideal.env ω).rng k n, fun m => m.1.logProb 0, fun m o _ => (0, m, o), fun m _ => m⟩
  big := 1000

theorem splineDraws (d K : ℕ) : IdealDraws Ideal.past Ideal.sig Ideal.prob (splineEnv d K) :=
  ⟨Ideal.draws.past_le, Ideal.draws.sig_le, Ideal.draws.indep, Ideal.draws.normal_meas, Ideal.draws.normal_law, Ideal.draws.uniform_meas, Ideal.draws.uniform_law⟩

/-- A RealNVP with three layers and stored variance 4. -/
def nvp (d : ℕ) : RealNVP d := RealNVP.init halves d 3 4 (.root 0) none (some fun _ => 1) (some fun _ => 4)
theorem nvp_masks (d : ℕ) : ∀ l ∈ (nvp d).layers, ZeroOne l.mask := by
  intro l hl
  simp only [nvp, RealNVP.init, List.mem_map, List.mem_range] at hl
  obtain ⟨i, _, rfl⟩ := hl
  exact (C38_masks i).1
theorem nvp_var (d : ℕ) (i : Fin d) : 0 < (nvp d).dataVar i := by norm_num [nvp, RealNVP.init]
theorem nvp_base (d : ℕ) : (nvp d).base = stdGaussian d := rfl
theorem nvp_rows (d : ℕ) : ∀ rng k n, ((nvp d).base.sample rng k n).length = n := by intro rng k n; simp [nvp_base, stdGaussian]
def nvpModel (d : ℕ) : RealNVPModel d := ⟨nvp d, nvp_rows d⟩

theorem chol_two (d : ℕ) : CholeskyFactor (2 • (1 : Matrix (Fin d) (Fin d) ℝ)) :=
  ⟨fun a b h => by simp [Matrix.one_apply_ne h.ne], fun a => by simp⟩

/-- A spline flow with two layers of eight bins, base N(1, 4). -/
def spl : SplineFlow 3 8 := SplineFlow.init halves 3 8 2 [16, 16] (.root 0) (-10) 10 (some (gaussian (fun _ => 1) (2 • 1))) none (some fun _ => 9)
theorem spl_good : spl.Wellformed ∧ spl.AffineTrivial := C43_constructed halves 2 [16, 16] (.root 0) (-10) 10 _ _ _ (by norm_num) (by norm_num)
theorem spl_var (i : Fin 3) : 0 < spl.dataVar i := by norm_num [spl, SplineFlow.init]
theorem spl_base : spl.base = gaussian (fun _ => 1) (2 • 1) := rfl
theorem spl_rows : ∀ rng k n, (spl.base.sample rng k n).length = n := by intro rng k n; simp [spl_base, gaussian]

theorem knots : ValidKnots (K := 2) ![-1, 0, 2] ![-1, 1, 2] ![1, 2, 1 / 2] :=
  ⟨by norm_num, Fin.strictMono_iff_lt_succ.2 fun i => by fin_cases i <;> simp, Fin.strictMono_iff_lt_succ.2 fun i => by fin_cases i <;> simp,
    fun i => by fin_cases i <;> norm_num⟩
theorem knots_clip : ClipInactive (K := 2) (1 / 100) ![-1, 0, 2] ![-1, 1, 2] ![1, 2, 1 / 2] := by
  intro i
  have e : (![-1, 1, 2] : Fin 3 → ℝ) 2 = 2 ∧ (![-1, 0, 2] : Fin 3 → ℝ) 2 = 2 ∧ (![1, 2, 1 / 2] : Fin 3 → ℝ) 2 = 1 / 2 := ⟨rfl, rfl, rfl⟩
  fin_cases i <;> norm_num [e.1, e.2.1, e.2.2]
def cfg : SplineCfg := ⟨-10, 10, 1 / 10000, 1 / 10000⟩
/-- A network output with unequal bins. -/
def row : Fin (8 * 3 + 1) → ℝ := fun i => i.1 / 10

/-! C37, C38 -/
def layer : CouplingLayer 3 := ⟨mlpAffine (fun x => x) (fun x => x) 1, nvpMask 3 0⟩
example : (layer.forward ![1, 2, 3]).1 0 = 1 ∧ (layer.inverse ![1, 2, 3]).1 0 = 1 :=
  C37_passthrough layer ![1, 2, 3] 0 (((C38_masks (d := 3) 0).2 0).2 (by decide))
example := C37_transformed layer ![1, 2, 3] 2 (by
  rcases (C38_masks (d := 3) 0).1 2 with h | h
  · exact h
  · exact absurd (((C38_masks (d := 3) 0).2 2).1 h) (by decide))
example := C37_inverse_pair layer (C38_masks 0).1 (C37_mlpAffine _ _ _)
example := C38_inverse_pair (nvp 2) (nvp_masks 2)

/-! C39-C42 -/
example := C39_knots cfg row (by norm_num) (by norm_num [cfg]) (by norm_num [cfg])
example := C39_valid cfg row (by norm_num) (by norm_num [cfg]) (by norm_num [cfg]) (by norm_num [cfg]) (by norm_num [cfg])
example := C40_strictMono knots
example := C40_continuous knots
example := C40_linear_below knots (x := -5) (by norm_num)
example := C40_linear_above knots (x := 5) (by simp [Fin.last]; norm_num)
example := C40_knots knots 1
example := C40_surjective knots
example := C40_bijective knots
example := C41_inv_fwd knots knots_clip (1 / 2)
example := C41_fwd_inv knots knots_clip (1 / 2)
example := C41_inv_logdet knots knots_clip (1 / 2)
example := C42_logdet_is_log_derivative knots (1 / 2)
example := C42_logdet_eq knots (1 / 2)
example := C37_rqSpline (d := 3) (K := 8) 0 cfg (fun x i => x 0 + i.1)
  (fun c f => C39_valid cfg _ (by norm_num) (by norm_num [cfg]) (by norm_num [cfg]) (by norm_num [cfg]) (by norm_num [cfg]))
  (fun c f i => sq_nonneg _)

/-! C43-C46 -/
example := C43_inverse_pair_partial 0 spl spl_good.1 (guardOff_zero _) spl_good.2
example := C43_new_flow_inverse (d := 3) (K := 8) halves halves_bounded 2 [16, 16] 16 rfl (by norm_num) (.root 0) (-10) 10 none none none (by norm_num) (by norm_num) (by norm_num)
example := C44_realNVP (nvpDraws 2) (nvp 2) (nvp_masks 2) (nvp_var 2) (nvp_base 2)
example := C44_realNVP_constructed (nvpDraws 2) halves 3 4 (.root 0) none (some fun _ => 4) (fun v hv i => by cases hv; norm_num)
example := C44_spline_partial (splineDraws 3 8) 0 spl spl_good.1 (guardOff_zero _) spl_good.2 spl_var (spl_base ▸ C46_gaussian (splineDraws 3 8) _ (chol_two 3))
example := C44_realNVP_idealFlow (nvpDraws 2) (fun _ _ _ _ => rfl) (fun _ _ => rfl) (nvpModel 2) (nvp_masks 2) (nvp_var 2) (nvp_base 2)
example := C44_spline_idealFlow_partial (splineDraws 3 8) 0 (fun _ _ _ _ => rfl) (fun _ _ => rfl) ⟨spl, spl_rows⟩ spl_good.1 (guardOff_zero _) spl_good.2 spl_var
  (spl_base ▸ C46_gaussian (splineDraws 3 8) _ (chol_two 3))
example := C44_trained_spline_wrong_density (nvpDraws 1) 0 (fun _ => sq_nonneg _)
example := C44_spline_as_constructed (d := 3) (K := 8) (nvpDraws 3) halves halves_bounded 2 [16, 16] 16 rfl (by norm_num) (.root 0) (-10) 10 none (some fun _ => 9)
  (fun v hv i => by cases hv; norm_num) (by norm_num) (by norm_num) (by norm_num)
example := C45_realNVP_partial (nvp 2) (nvp_masks 2) (nvp_var 2)
example := C45_spline_partial 0 spl spl_good.1 spl_var (C46_gaussian (splineDraws 3 8) (fun _ => 1) (chol_two 3)).logProb_meas
  (C46_gaussian (splineDraws 3 8) (fun _ => 1) (chol_two 3)).normalised.measure_univ
example := C46_stdGaussian (nvpDraws 3)
example := C46_gaussian (nvpDraws 3) (fun _ => 1) (chol_two 3)
example := C46_realNVP_partial (nvpDraws 2) (nvp 2) (nvp_masks 2) (nvp_var 2) (nvp_base 2 ▸ C46_stdGaussian (nvpDraws 2)) (fun _ => rfl)
example := C46_spline (splineDraws 3 8) 0 spl spl_good.1 (guardOff_zero _) spl_good.2 spl_var _ _ (chol_two 3) spl_base
example := C46_realNVP_base_iff (nvpDraws 1) halves 4 (.root 0) 3 2 (by norm_num)
example := C46_realNVP_ignores_base (nvpDraws 1) halves 4 (.root 0)
example := C47_num_bins halves 3 8 [16, 16] 1 (.root 0) (by norm_num)
example := C52_base_decay_breaks_density (nvpDraws 1) halves 4 (.root 0) (1 / 1000) (9 / 10) (by norm_num) (by norm_num) [fun _ _ => 0, fun _ _ => 0] (by simp) (by simp)

/-! C55, C56 -/
example := C55_training (d := 2) (⟨fun m _ => m, fun _ _ => 2, fun m _ => m, condOT, fun m o _ => (0, m, o)⟩ : FMOps ℝ 2 ℝ Unit) rfl 1 ⟨fun _ => 0, fun _ => 3, 1 / 2⟩ 1
example := C55_loss_zero_iff driftModel (by norm_num) [(fun _ => 0, fun _ => 3, 1 / 2), (fun _ => 1, fun _ => 5, 1 / 4)] (by simp)
example := C56_density_partial (nvpDraws 1) driftModel driftModel_smooth driftModel_exact (by intro i; norm_num [driftModel])
example := C56_wrong_density (nvpDraws 1)

/-! C75 -/
theorem names_inj : Function.Injective (![ "a", "b"] : Fin 2 → String) := by intro i j; fin_cases i <;> fin_cases j <;> simp
example := C75_gaussians (nvpDraws 3) ![1, 2] ![ "a", "b"] names_inj (fun _ _ => 1) (fun i => 2 • 1) (fun i => chol_two _) (.root 0) 7

/-! C76 -/
example := C76_realNVP (nvpDraws 2) (nvp 2) (nvp_masks 2) (nvp_var 2) (nvp_base 2)
example := C76_spline_untrained (splineDraws 3 8) 0 spl spl_good.1 (guardOff_zero _) spl_good.2 spl_var (spl_base ▸ C46_gaussian (splineDraws 3 8) _ (chol_two 3))
example := C76_batch (fun x : Pos ℝ 2 => isoNormLogpdf x (fun _ => 0) 1) 1 one_pos [fun _ => 1, fun _ => 2] (by simp)
example := C76_expected (d := 2) (fun x => isoNormLogpdf x (fun _ => 0) 1) (stdNormal 2) (isoNorm_integrable _) 5 (by norm_num)

/-! C73 -/
example := C73_realNVP_samples_base (nvpDraws 2) (fun _ _ _ _ => rfl) (fun _ _ => rfl) halves 4 (.root 0) (fun _ => 1) (chol_two 2) 3 (by norm_num) ⟨(), none⟩
  Ideal.start Ideal.start_known (1 / 100) (by norm_num)

end Witness
end
end FlowMC
