import Verif.Props.ConvergeExamples
import Verif.Props.WallConvergeExamples
import Verif.Props.IdealTemper
import Verif.Props.HMC
import Verif.Props.MisfitFlows
import Verif.Props.WitnessCalls
import Verif.Props.Draws
import Verif.Props.TemperBias
import Verif.Props.FlowInit
import Verif.Props.AdamDraws
import Verif.Props.WitnessTraining
import Verif.Props.Special
/-
Concrete, non-trivial cases that meet the hypotheses of the kernel-level theorems: a two-dimensional normal target, a two-dimensional normal target cut at a wall, a normal flow,
a ladder of two temperatures, a diagonal mass matrix.
-/
open MeasureTheory ProbabilityTheory
open scoped ENNReal
set_option linter.unusedSectionVars false
namespace FlowMC
open Spec
namespace Ideal
noncomputable section

/-- A mass matrix `diag(1, 4)` and the Cholesky factor `diag(1, 1/2)` of its inverse. -/
def mass : Mat ℝ 2 := fun i j => if i = j then (if i = 0 then 1 else 4) else 0
def massRoot : Mat ℝ 2 := fun i j => if i = j then (if i = 0 then 1 else 1 / 2) else 0

theorem mass_diag : IsPosDiag mass := ⟨fun i j h => if_neg h, fun i => by by_cases h : i = 0 <;> simp [mass, h]⟩
theorem mass_chol : IsCholeskyInv mass massRoot := by
  refine ⟨fun i j h => if_neg h.ne, fun i => ?_, fun i j => ?_⟩
  · by_cases h : i = 0 <;> simp [massRoot, h]
  · rw [Fin.sum_univ_two, Fin.sum_univ_two, Fin.sum_univ_two]
    fin_cases i <;> fin_cases j <;> norm_num [mass, massRoot]

/-- The log-density of the flow: standard normal up to a constant. -/
def lnf (x : Pos ℝ 2) : ℝ := -(x 0 ^ 2 + x 1 ^ 2) / 2
theorem lnf_meas : Measurable lnf := by unfold lnf; fun_prop
theorem lnf_samples : SamplesFrom (stdNormal 2) lnf := Toy.normal_samplesFrom

def dat : Data Unit := ⟨(), none⟩

/-- Kernels: C21–C26. -/
example := C21_mala (1/10) (by norm_num) target dat (fun _ => 1) (fun _ => 2) _ 0 rfl
example := C21_accept_certain (1/2) (1/3) (by norm_num) (by norm_num) (by norm_num)
example := C22_grw_reversible (1/10) target dat target_measurable
example := C22_grw_invariant (1/10) target dat target_measurable
example := C22_grw_detailedBalance (1/10) target dat target_measurable
example := C23_mala_invariant (1/10) (by norm_num) target dat target_measurable target_grad_measurable (fun _ => 0)
example := C23_mala_detailedBalance (1/10) (by norm_num) target dat target_measurable target_grad_measurable (fun _ => 0)
example := C24_volume (1/10) 3 mass (fun x => target.grad x dat) target_grad_measurable
example := C25_hmc_reversible_partial (1/10) 3 mass massRoot mass_diag mass_chol target dat target_measurable target_grad_measurable
example := C25_hmc_invariant_partial (1/10) 3 mass massRoot mass_diag mass_chol target dat target_measurable target_grad_measurable
example := C26_flow_reversible narrow dat (by simp only [narrow]; fun_prop) lnf lnf_meas (stdNormal 2) lnf_samples
example := C26_flow_invariant narrow dat (by simp only [narrow]; fun_prop) lnf lnf_meas (stdNormal 2) lnf_samples

/-- Tempering: C31, C32, C78. -/
example := C31_pair_reversible tempered dat target_measurable measurable_const temps 0 (by decide)
example := C32_cold_chain (P := prob) tempered dat target_measurable measurable_const temps rfl _ replicas_joint replicas (replicas_known.mono draws.past_le le_rfl) replicas_law

/-- Targets with hard boundaries: C67, C74. -/
example := C67_grw half_walled (1/10)
example := C67_mala half_walled (1/10) (by norm_num) (fun _ => .fin 0)
example := C67_flow half_walled lnf lnf_meas (stdNormal 2) lnf_samples

/-- A start inside the walls. -/
theorem corner_start : (Measure.dirac (corner 0)) halfᶜ = 0 := by
  rw [Measure.dirac_apply' _ half_meas.compl]
  simp [corner_mem]

example := C74_grw half_walled half_mass.1 half_mass.2 (1/10) (by norm_num) (Measure.dirac (corner 0)) corner_start
example := C74_mala half_walled half_mass.1 half_mass.2 (1/10) (by norm_num) (Measure.dirac (corner 0)) corner_start
example := C74_flow half_walled half_mass.1 half_mass.2 lnf lnf_meas (stdNormal 2) lnf_samples (Measure.dirac (corner 0)) corner_start

/-- Convergence: C70, C71, C73. -/
example := C70_grw (1/10) (by norm_num) target dat target_measurable target_finite (Measure.dirac fun _ => 1000)
example := C70_mala (1/10) (by norm_num) target dat target_measurable target_grad_measurable target_finite (Measure.dirac fun _ => 1000)
example := C70_flow target dat target_measurable lnf lnf_meas (stdNormal 2) lnf_samples target_finite (Measure.dirac fun _ => 1000)
example := C70_sweep_rows draws () (stdNormal 2) lnf lnf_meas flow 3 (by decide) target (fun _ _ _ _ => rfl) dat target_measurable target_finite (fun _ _ => 1000) measurable_const (1/100) (by norm_num)
example := C71_alternating (M := Unit) (.mala (1/10)) (show (1/10 : ℝ) ≠ 0 by norm_num) target dat target_measurable target_grad_measurable lnf lnf_meas (stdNormal 2) lnf_samples target_finite 1 le_rfl
  (fun x => (one_mul _).ge) (Measure.dirac fun _ => 1000)
example := C29_flow_draws (F := ℝ) (D := Unit) (d := 2) (M := Unit) (O := Unit) () 3 (by decide) 7 (.root 0)

/-- A walled target whose gradient is finite everywhere (`-inf` outside the half plane, gradient of the normal density everywhere). -/
def smoothHalf : Target XR Unit 2 where
  val := halfTarget.val
  grad x _ := emb (fun i => -unemb x i)

theorem smoothHalf_walled : Walled half halfLp (fun x i => -x i) smoothHalf dat where
  inside := half_walled.inside
  grad x _ := by simp only [smoothHalf, unemb_emb]
  outside := half_walled.outside
  meas := half_walled.meas
  meas_lp := half_walled.meas_lp
  meas_grad := half_walled.meas_grad

example := C67_hmc smoothHalf_walled (fun x => by simp only [smoothHalf, unemb_emb]) (1/10) 3 mass massRoot mass_diag mass_chol

/-- A log-density wrong by more than a constant: the flow reports `-(x₀² + x₁²)/4`. -/
def wrong (x : Pos ℝ 2) : ℝ := -(x 0 ^ 2 + x 1 ^ 2) / 4
theorem wrong_meas : Measurable wrong := by unfold wrong; fun_prop
theorem wrong_finite : targetMeasure (misfit (fun x => target.val x dat) wrong lnf) Set.univ ≠ ∞ := by
  refine ne_top_of_le_ne_top (b := targetMeasure (fun x : Pos ℝ 2 => target.val x dat) Set.univ) target_finite ?_
  simp only [targetMeasure, withDensity_apply _ MeasurableSet.univ]
  refine lintegral_mono fun x => ENNReal.ofReal_le_ofReal (Real.exp_le_exp.2 ?_)
  simp only [misfit, target, wrong, lnf]
  nlinarith [sq_nonneg (x 0), sq_nonneg (x 1)]

example := C73_correct_iff target dat target_measurable wrong lnf wrong_meas lnf_meas (stdNormal 2) lnf_samples target_finite wrong_finite (Measure.dirac fun _ => 1000)

/-- The right-hand side of C73 is false for the wrong log-density: it is not a constant away. -/
example : ¬ ∃ c : ℝ, ∀ᵐ x : Pos ℝ 2, wrong x = lnf x + c := by
  rintro ⟨c, hc⟩
  have hcont : Continuous fun x : Pos ℝ 2 => wrong x - (lnf x + c) := by unfold wrong lnf; fun_prop
  have h0 : (fun x : Pos ℝ 2 => wrong x - (lnf x + c)) =ᵐ[volume] fun _ => 0 := hc.mono fun x hx => by simp only [hx, sub_self]
  have h := (Continuous.ae_eq_iff_eq volume hcont continuous_const).1 h0
  have a := congrFun h (fun _ => 0)
  have b := congrFun h (fun _ => 2)
  simp only [wrong, lnf] at a b
  linarith

example := C73_loop_iff target dat target_measurable wrong lnf wrong_meas lnf_meas (stdNormal 2) lnf_samples target_finite wrong_finite (noise 2)
  (fun ω x => (malaStep (1/10) target dat ω.1 ω.2 x (target.val x dat)).pos)

/-- C29. -/
example := C29_flow_draws (F := ℝ) (D := Unit) (d := 2) (M := Unit) (O := Unit) () 3 (by decide) 7 (.root 0)

/-- C78: the cold chain of the example in `IdealTemper`. -/
example [BufNum ℝ] := C78_cold_chain_drifts (M := Unit) draws (fun n => if n = "pt" then some (.parallelTempering swapStrat) else none) "pt" swapStrat rfl rfl tempered dat target_measurable
  measurable_const 4 (by norm_num) _ replicas_joint (.root 5) {none} (none_disjoint _)
    (temperHeap false) (fun ω => [start ω]) "P" "T" posBuf (fun _ => tempBuf) _ (.bool false) rfl 1 (fun _ => rfl)
    (fun ω => { names := ⟨[], rfl⟩, ne := by decide, kernel := ⟨.mala (1/10), rfl, rfl⟩, density := rfl, posBuf := rfl, tempBuf := rfl, state := ⟨_, rfl, rfl⟩,
                posShape := rfl, tempShape := rfl, posDim := by simp [Ideal.posBuf], tempDim := rfl })
    (fun ω => by simp [ladder, tempBuf, arr1, List.range_succ]) 0 (by decide)
    (by simp only [replicasOf_eq]; exact replicas_known.mono (past_le_info (by simp)) le_rfl) (by simp only [replicasOf_eq]; exact replicas_law)
example [BufNum ℝ] := C78_first_call_partial (M := Unit) draws temperStrat (.mala (1/10)) (show (1/10 : ℝ) ≠ 0 by norm_num) _ (fun _ => rfl) tempered dat target_measurable measurable_const
    target_grad_measurable measurable_const 1 1 temps rfl _ replicas_joint (.root 5) {none} (none_disjoint _) (temperHeap false) (fun ω => [start ω]) "P" "T" posBuf (fun _ => tempBuf)
    (.bool false) rfl (fun _ => rfl)
    (fun ω => { names := ⟨[], rfl⟩, ne := by decide, kernel := ⟨.mala (1/10), rfl, rfl⟩, density := rfl, posBuf := rfl, tempBuf := rfl, state := ⟨_, rfl, rfl⟩,
                posShape := rfl, tempShape := rfl, posDim := by simp [Ideal.posBuf], tempDim := rfl })
    (fun ω => by simp [ladder, tempBuf, arr1, temps, List.range_succ]) 0 (by decide)
    (by simp only [replicasOf_eq]; exact replicas_known.mono (past_le_info (by simp)) le_rfl) (by simp only [replicasOf_eq]; exact replicas_law)

end
end Ideal

namespace Toy
open XR

/-- A heap over the extended reals: three recording buffers, a random walk kernel and a log-density that is `-inf` at non-finite points. -/
noncomputable def xrHeap : Heap XR Unit 1 Unit Unit where
  res n := match n with
    | "P" => some (.buffer (Buffer.new "P" [2, 6, 1] 1))
    | "L" => some (.buffer (Buffer.new "L" [2, 6] 1))
    | "A" => some (.buffer (Buffer.new "A" [2, 6] 1))
    | "state" => some (.state (State.new (fun k => match k with | "p" => some (.str "P") | "l" => some (.str "L") | "a" => some (.str "A") | _ => none)))
    | "kernel" => some (.kernel (.grw (fin (1/2))))
    | "density" => some (.logpdf ⟨xrTarget, []⟩)
    | _ => none
  pos _ := 0
def xrStepper : TakeSteps where
  kind := .serial
  ident := "s"
  logpdfName := "density"
  kernelName := "kernel"
  stateName := "state"
  bufferNames := ["p", "l", "a"]
  nSteps := 5
  thinning := 2
  chainBatchSize := 0

/-- C20: a call with two chains, five steps and thinning two, started at 0 and 3. -/
example := C20_recorded xrEnv xrStepper (.root 0) [fun _ => fin 0, fun _ => fin 3] ⟨(), none⟩ xrHeap 6 "P" "L" "A" _ _ _
  ⟨_, "p", "l", "a", [], rfl, rfl, rfl, rfl, rfl⟩ ⟨rfl, rfl, rfl, rfl, rfl, rfl, rfl, rfl, rfl, by decide⟩ (by decide) (.grw (fin (1/2)))
  (fun k x lp t data => grwKernel xrEnv.rng (fin (1/2)) k x lp t data) xrTarget ⟨rfl, rfl, rfl, ⟨_, rfl, rfl⟩⟩ (by decide) (by decide) (by
    intro x hx
    simp only [List.mem_cons, List.not_mem_nil, or_false] at hx
    rcases hx with rfl | rfl <;> simp [xrTarget, Ieee.Bad, Ieee.isNaN, Ieee.negInf])
/-- C20 for flow proposals: from a point with log-density -4 to one with log-density 0, uniform number 1/2: accepted, and the log-density of the proposal is not bad. -/
example : ¬ Ieee.Bad (fin 0 : XR) := C20_nf_kernel (d := 1) (fin (1/2)) ⟨fun _ => fin 2, fin (-4), fin 0⟩ (fun _ => fin 0, fin 0, fin 0) (by
  have hl : (Transc.log (fin (1/2)) : XR) = fin (Real.log (1/2)) := by
    show (if (1/2 : ℝ) < 0 then nan else if (1/2 : ℝ) = 0 then ninf else fin (Real.log (1/2))) = _
    norm_num
  have hn : Real.log (1/2) < 0 := Real.log_neg (by norm_num) (by norm_num)
  simp only [nfBody, acceptTest, hl, XR.sub_def, XR.neg, XR.add]
  show decide (_ < _) = true
  rw [decide_eq_true_eq]; linarith)
example := C53_call (M := Unit) (O := Unit) _ int_order rng (⟨target, 2, 1, [(-1, 1)], ⟨Unit, fun _ => (), fun g _ _ => (fun i => -g i, ())⟩⟩ : AdamOptimization Int Unit 1) data (.root 1) [fun _ => 5] (by decide)

end Toy
end FlowMC
