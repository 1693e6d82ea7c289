import Verif.Props.Coupling
import Mathlib.MeasureTheory.Constructions.Polish.Basic
import Mathlib.MeasureTheory.Constructions.Polish.StronglyMeasurable
import Mathlib.MeasureTheory.Function.SpecialFunctions.Basic
/-
Coupling layers, sequences of layers and whitening transport volume as their log-determinants say; the networks are measurable.
-/
set_option linter.unusedSectionVars false
open MeasureTheory ProbabilityTheory
open scoped ENNReal
namespace FlowMC
open Spec
noncomputable section
open Classical

variable {d : ℕ}

theorem measurable_tanh : Measurable Real.tanh := by
  have : Real.tanh = fun x => Real.sinh x / Real.cosh x := funext Real.tanh_eq_sinh_div_cosh
  rw [this]; exact Real.measurable_sinh.div Real.measurable_cosh

theorem measurable_linear {n m : ℕ} (W : Fin m → Fin n → ℝ) (b : Fin m → ℝ) : Measurable (linear W b) := by
  refine measurable_pi_lambda _ fun i => ?_
  have : (fun x : Fin n → ℝ => linear W b x i) = fun x => (∑ j, W i j * x j) + b i := by funext x; rw [linear, sumFin_eq]
  rw [this]; fun_prop

theorem measurable_mlp (act : ℝ → ℝ) (ha : Measurable act) : {n m : ℕ} → (net : MLP n m) → Measurable (net.call act)
  | _, _, .last W b => measurable_linear W b
  | _, _, .hidden W b rest => by
    refine (measurable_mlp act ha rest).comp (measurable_pi_lambda _ fun i => ha.comp ?_)
    exact (measurable_pi_apply i).comp (measurable_linear W b)

theorem measurable_relu : Measurable relu := measurable_id.max measurable_const

/-- A 0/1 masked coupling layer over a smooth elementwise bijector transports volume according to its log-determinant. -/
theorem coupling_transports (l : CouplingLayer d) (hm : ZeroOne l.mask) (hb : Elementwise l.bij) (hd : LogDerivative l.bij)
    (m1 : Measurable (fun p : Pos ℝ d × Pos ℝ d => (l.bij.fwd p.1 p.2).1)) (m2 : Measurable (fun p : Pos ℝ d × Pos ℝ d => (l.bij.fwd p.1 p.2).2)) :
    Transports (fun x => (l.forward x).1) (fun x => (l.forward x).2) := by
  have hc : ∀ x : Pos ℝ d, (fun j => if l.mask j = 1 then x j else 0) = fun j => x j * l.mask j := by
    intro x; funext j
    rcases hm j with h | h <;> simp [h]
  have mpair : Measurable (fun x : Pos ℝ d => (x, fun j => x j * l.mask j)) := by fun_prop
  have n1 : ∀ i, Measurable (fun x : Pos ℝ d => (l.bij.fwd x fun j => x j * l.mask j).1 i) := fun i => (measurable_pi_apply i).comp (m1.comp mpair)
  have n2 : ∀ i, Measurable (fun x : Pos ℝ d => (l.bij.fwd x fun j => x j * l.mask j).2 i) := fun i => (measurable_pi_apply i).comp (m2.comp mpair)
  refine Transports.conditional (fun i => l.mask i = 1) (fun c i t => (l.bij.fwd (fun _ => t) c).1 i) (fun c i t => (l.bij.fwd (fun _ => t) c).2 i)
    hd ?_ ?_ _ ?_ _ ?_ ?_ ?_
  · intro c i s
    refine ⟨(l.bij.inv (fun _ => s) c).1 i, ?_⟩
    have := (hb.fwd_local (fun _ => (l.bij.inv (fun _ => s) c).1 i) (l.bij.inv (fun _ => s) c).1 c i rfl).1
    simp only
    rw [this, hb.right]
  · intro c i t t' h
    have e1 := congrFun (hb.left (fun _ => t) c) i
    have e2 := congrFun (hb.left (fun _ => t') c) i
    have := (hb.inv_local (l.bij.fwd (fun _ => t) c).1 (l.bij.fwd (fun _ => t') c).1 c i h).1
    rw [e1, e2] at this; exact this
  · intro x i
    rw [hc]
    rcases hm i with h | h
    · rw [if_neg (by rw [h]; norm_num), C37_transformed l x i h]
      exact (hb.fwd_local x (fun _ => x i) (fun j => x j * l.mask j) i rfl).1
    · rw [if_pos h, (C37_passthrough l x i h).1]
  · intro x
    rw [hc]
    show sumFin _ = _
    rw [sumFin_eq]
    refine Finset.sum_congr rfl fun i _ => ?_
    rcases hm i with h | h
    · rw [if_neg (by rw [h]; norm_num), h, sub_zero, one_mul]
      exact (hb.fwd_local x (fun _ => x i) (fun j => x j * l.mask j) i rfl).2
    · rw [if_pos h, h, sub_self, zero_mul]
  · refine measurable_pi_lambda _ fun i => ?_
    simp only [CouplingLayer.forward]
    exact (measurable_const.mul (n1 i)).add (measurable_const.mul (measurable_pi_apply i))
  · have : (fun x => (l.forward x).2) = fun x => ∑ i, (1 - l.mask i) * (l.bij.fwd x fun j => x j * l.mask j).2 i := by
      funext x; exact sumFin_eq _
    rw [this]
    exact Finset.measurable_sum _ fun i _ => measurable_const.mul (n2 i)

theorem seqMaps_transports {L : Type} (F : L → Pos ℝ d → Pos ℝ d × ℝ) (ls : List L) (h : ∀ l ∈ ls, Transports (fun x => (F l x).1) (fun x => (F l x).2)) :
    Transports (fun x => (seqMaps (ls.map F) x).1) (fun x => (seqMaps (ls.map F) x).2) := by
  induction ls with
  | nil => exact Transports.id
  | cons l ls ih => exact (h l (by simp)).comp (ih fun l' hl' => h l' (by simp [hl']))

theorem whiten_transports (mean var : Pos ℝ d) (hv : ∀ i, 0 < var i) : Transports (whiten mean var) (fun _ => -∑ i, Real.log (Real.sqrt (var i))) := by
  have hs : ∀ i, 0 < Real.sqrt (var i) := fun i => Real.sqrt_pos.2 (hv i)
  refine ⟨measurable_pi_lambda _ fun i => ?_, measurable_const, fun F _ => ?_⟩
  · simp only [whiten]; fun_prop
  · have := lintegral_diagonal (fun i x => (x - mean i) / Real.sqrt (var i)) (fun i _ => -Real.log (Real.sqrt (var i))) (fun i x => ?_) (fun i y => ?_) (fun i a b h => ?_) F
    · rw [← this]
      simp only [Finset.sum_neg_distrib]
      rfl
    · rw [Real.exp_neg, Real.exp_log (hs i)]
      exact (((hasDerivAt_id x).sub_const (mean i)).div_const (Real.sqrt (var i))).congr_deriv (by simp)
    · exact ⟨y * Real.sqrt (var i) + mean i, by simp only [add_sub_cancel_right]; exact mul_div_cancel_right₀ _ (hs i).ne'⟩
    · simp only at h
      have := (div_left_inj' (hs i).ne').1 h
      linarith

theorem unwhiten_whiten (mean var : Pos ℝ d) (hv : ∀ i, 0 < var i) (x : Pos ℝ d) : unwhiten mean var (whiten mean var x) = x := by
  funext i
  simp only [unwhiten, whiten]
  rw [div_mul_cancel₀ _ (Real.sqrt_pos.2 (hv i)).ne']; ring

theorem measurable_unwhiten (mean var : Pos ℝ d) : Measurable (unwhiten mean var) := by
  refine measurable_pi_lambda _ fun i => ?_
  simp only [unwhiten]; fun_prop

/-- The inverse direction is measurable when the forward direction is. -/
theorem inverse_measurable {F G : Pos ℝ d → Pos ℝ d × ℝ} (hp : InversePair F G) (hF : Measurable (fun x => (F x).1)) : Measurable (fun y => (G y).1) := by
  have hemb : MeasurableEmbedding (fun x => (F x).1) := hF.measurableEmbedding fun a b h => by
    have := congrArg (fun y => (G y).1) h
    simpa only [hp.left] using this
  intro s hs
  have : (fun y => (G y).1) ⁻¹' s = (fun x => (F x).1) '' s := by
    ext y
    constructor
    · intro h; exact ⟨(G y).1, h, hp.right y⟩
    · rintro ⟨x, hx, rfl⟩
      simpa only [Set.mem_preimage, hp.left] using hx
  rw [this]
  exact hemb.measurableSet_image.2 hs

/-- The density of a sample of a flow: base draws pushed through the inverse and un-whitened. -/
theorem flow_density {F G : Pos ℝ d → Pos ℝ d × ℝ} (hp : InversePair F G) (hT : Transports (fun x => (F x).1) (fun x => (F x).2))
    (mean var : Pos ℝ d) (hv : ∀ i, 0 < var i) (b : Pos ℝ d → ℝ) (mb : Measurable b) :
    (targetMeasure b).map (fun z => unwhiten mean var (G z).1) =
      ENNReal.ofReal (Real.exp (-∑ i, Real.log (Real.sqrt (var i)))) • targetMeasure (fun x => (F (whiten mean var x)).2 + b (F (whiten mean var x)).1) := by
  have mG := inverse_measurable hp hT.meas
  have mS : Measurable (fun z => unwhiten mean var (G z).1) := (measurable_unwhiten mean var).comp mG
  have hW := whiten_transports mean var hv
  ext A hA
  rw [Measure.map_apply mS hA, Measure.smul_apply, smul_eq_mul, targetMeasure, targetMeasure, withDensity_apply _ (mS hA), withDensity_apply _ hA,
    ← lintegral_indicator (mS hA), ← lintegral_indicator hA]
  have mI : Measurable (((fun z => unwhiten mean var (G z).1) ⁻¹' A).indicator fun a => ENNReal.ofReal (Real.exp (b a))) :=
    (mb.exp.ennreal_ofReal).indicator (mS hA)
  rw [← hT.change _ mI]
  have mJ : Measurable fun x => ENNReal.ofReal (Real.exp (F x).2) * ((fun z => unwhiten mean var (G z).1) ⁻¹' A).indicator (fun a => ENNReal.ofReal (Real.exp (b a))) (F x).1 :=
    (hT.ldMeas.exp.ennreal_ofReal).mul (mI.comp hT.meas)
  rw [← hW.change _ mJ]
  rw [lintegral_const_mul' _ _ ENNReal.ofReal_ne_top]
  congr 1
  refine lintegral_congr fun x => ?_
  simp only [Set.indicator, Set.mem_preimage, hp.left, unwhiten_whiten mean var hv]
  split
  · rw [← ENNReal.ofReal_mul (Real.exp_pos _).le, ← Real.exp_add]
  · rw [mul_zero]

end
end FlowMC
