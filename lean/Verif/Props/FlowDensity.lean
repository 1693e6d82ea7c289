import Verif.Spec.FlowLaw
import Verif.Lemmas.FlowRows
import Verif.Props.SplineBroken
import Mathlib.LinearAlgebra.Matrix.Block
/-
C44 (flow samples have the flow's density), C45 (normalisation), C46 (base distribution).
-/
set_option linter.unusedSectionVars false
open MeasureTheory ProbabilityTheory
open scoped ENNReal
namespace FlowMC
open Spec
noncomputable section
open Classical

variable {Ω D M O : Type} {d K : ℕ} {past : MeasurableSpace Ω} {sig : Key → MeasurableSpace Ω} [mΩ : MeasurableSpace Ω] {P : Measure Ω}
  [IsProbabilityMeasure P] {env : Ω → Env ℝ D d M O}

/-! ### Base distributions -/

theorem getD_map_finRange {α : Type} {n : ℕ} (f : Fin n → α) (i : Fin n) (a : α) : ((List.finRange n).map f).getD i.1 a = f i := by
  simp [List.getD]

/-- Independent rows stay independent rows under a map applied to every row. -/
theorem Spec.IidRows.mapRows {rows : Key → ℕ → Ω → List (Fin d → ℝ)} {q : Measure (Fin d → ℝ)} [IsProbabilityMeasure q] (hs : ∀ k, sig k ≤ mΩ)
    (h : IidRows P sig rows q) {S : Pos ℝ d → Pos ℝ d} (hS : Measurable S) : IidRows P sig (fun k n ω => (rows k n ω).map S) (q.map S) := by
  have e : ∀ k n, (fun ω (i : Fin n) => ((rows k n ω).map S).getD i 0) = (fun v (i : Fin n) => S (v i)) ∘ fun ω (i : Fin n) => (rows k n ω).getD i 0 := by
    intro k n; funext ω i
    have hi : i.1 < (rows k n ω).length := by rw [h.length]; exact i.2
    simp [List.getD, List.getElem?_eq_getElem hi]
  have mS : ∀ n, Measurable (fun (v : Fin n → Pos ℝ d) (i : Fin n) => S (v i)) := fun n => measurable_pi_lambda _ fun i => hS.comp (measurable_pi_apply i)
  refine ⟨fun k n ω => by rw [List.length_map, h.length], fun k n => ?_, fun k n => ?_⟩
  · rw [e]; exact (mS n).comp (h.meas k n)
  · rw [e, ← Measure.map_map (mS n) ((h.meas k n).mono (hs k) le_rfl), h.law, pi_rows_map n q hS]

theorem normalRow_eq (rng : Rng ℝ) (k : Key) (n : ℕ) (i : Fin n) (j : Fin d) : normalRow rng k n d i j = rng.normal k (n * d) (finProdFinEquiv (i, j)) := by
  unfold normalRow
  congr 1
  ext
  simp [finProdFinEquiv, Nat.mul_comm, Nat.add_comm]

/-- The rows of `normal(key, (n, d))` are independent standard normal vectors. -/
theorem normalRows_iid (h : IdealDraws past sig P env) : IidRows P sig (fun k n ω => (List.finRange n).map (normalRow (env ω).rng k n d)) (stdNormal d) := by
  have e : ∀ k n, (fun ω (i : Fin n) => ((List.finRange n).map (normalRow (env ω).rng k n d)).getD i 0) =
      (fun (v : Fin (n * d) → ℝ) (i : Fin n) (j : Fin d) => v (finProdFinEquiv (i, j))) ∘ fun ω => (env ω).rng.normal k (n * d) := by
    intro k n; funext ω i
    rw [getD_map_finRange]
    funext j
    exact normalRow_eq _ _ _ _ _
  have mS : ∀ n, Measurable (fun (v : Fin (n * d) → ℝ) (i : Fin n) (j : Fin d) => v (finProdFinEquiv (i, j))) := fun n =>
    measurable_pi_lambda _ fun i => measurable_pi_lambda _ fun j => measurable_pi_apply _
  refine ⟨fun k n ω => by simp, fun k n => ?_, fun k n => ?_⟩
  · rw [e]; exact (mS n).comp (h.normal_meas k trivial _)
  · rw [e, ← Measure.map_map (mS n) ((h.normal_meas k trivial _).mono (h.sig_le k) le_rfl), h.normal_law _ trivial, stdNormal_rows]

theorem measurable_isoNorm (m : Pos ℝ d) (c : ℝ) : Measurable (fun x : Pos ℝ d => isoNormLogpdf x m c) := by
  simp only [isoNormLogpdf, sumFin_eq]
  fun_prop

/-- C46: the default base distribution is consistent. -/
theorem C46_stdGaussian (h : IdealDraws past sig P env) : ConsistentBase P sig env (stdGaussian d) := by
  have e := stdNormal_density d
  refine ⟨measurable_isoNorm _ _, ?_, ?_⟩
  · show IsProbabilityMeasure (targetMeasure fun x : Fin d → ℝ => isoNormLogpdf x (fun _ => 0) 1)
    rw [← e]; infer_instance
  · show IidRows P sig _ (targetMeasure fun x : Fin d → ℝ => isoNormLogpdf x (fun _ => 0) 1)
    rw [← e]
    exact normalRows_iid h

/-- C46: the default base distribution is `Gaussian(0, I)`. -/
theorem C46_stdGaussian_eq (d : ℕ) : stdGaussian d = gaussian (fun _ => 0) 1 := by
  unfold stdGaussian gaussian
  congr 1
  · funext x
    simp only [isoNormLogpdf, sumFin_eq, two, Transc.log, Transc.pi, inv_one, Matrix.one_mulVec, sub_zero, Matrix.one_apply_eq, Real.log_one, Finset.sum_const_zero]
    norm_num
  · funext rng k n
    simp [Matrix.one_mulVec]

/-- A Cholesky factor: lower triangular with positive diagonal. -/
def CholeskyFactor (L : Matrix (Fin d) (Fin d) ℝ) : Prop := (∀ i j, i < j → L i j = 0) ∧ ∀ i, 0 < L i i

theorem CholeskyFactor.det {L : Matrix (Fin d) (Fin d) ℝ} (h : CholeskyFactor L) : L.det = ∏ i, L i i :=
  Matrix.det_of_isLowerTriangular L fun i j hij => h.1 i j hij

theorem CholeskyFactor.det_pos {L : Matrix (Fin d) (Fin d) ℝ} (h : CholeskyFactor L) : 0 < L.det := by
  rw [h.det]; exact Finset.prod_pos fun i _ => h.2 i

theorem solve_transports (mean : Pos ℝ d) {L : Matrix (Fin d) (Fin d) ℝ} (h : CholeskyFactor L) :
    Transports (fun x : Pos ℝ d => L⁻¹.mulVec (fun i => x i - mean i)) (fun _ => -∑ i, Real.log (L i i)) := by
  have mlin : Measurable (fun x : Pos ℝ d => L⁻¹.mulVec x) := (Matrix.toLin' L⁻¹).continuous_of_finiteDimensional.measurable
  have msub : Measurable (fun x : Pos ℝ d => (fun i => x i - mean i)) := by fun_prop
  have mT : Measurable (fun x : Pos ℝ d => L⁻¹.mulVec (fun i => x i - mean i)) := mlin.comp msub
  refine ⟨mT, measurable_const, fun F hF => ?_⟩
  have hd := h.det_pos
  rw [lintegral_const_mul' _ _ ENNReal.ofReal_ne_top]
  have e1 : ∫⁻ x : Pos ℝ d, F (L⁻¹.mulVec (fun i => x i - mean i)) = ∫⁻ x : Pos ℝ d, F (L⁻¹.mulVec x) :=
    lintegral_sub_right_eq_self (fun x : Pos ℝ d => F (L⁻¹.mulVec x)) mean
  have e2 : ∫⁻ x : Pos ℝ d, F (L⁻¹.mulVec x) = ENNReal.ofReal L.det * ∫⁻ x, F x := by
    have hdet : LinearMap.det (Matrix.toLin' L⁻¹) = L.det⁻¹ := by rw [LinearMap.det_toLin', Matrix.det_nonsing_inv, Ring.inverse_eq_inv']
    have hm := Real.map_linearMap_volume_pi_eq_smul_volume_pi (f := Matrix.toLin' L⁻¹) (by rw [hdet]; exact inv_ne_zero hd.ne')
    have : ∫⁻ x : Pos ℝ d, F (L⁻¹.mulVec x) = ∫⁻ y, F y ∂(Measure.map (Matrix.toLin' L⁻¹) volume) := by
      rw [lintegral_map hF (Matrix.toLin' L⁻¹).continuous_of_finiteDimensional.measurable]
      rfl
    rw [this, hm, lintegral_smul_measure, hdet, inv_inv, abs_of_pos hd]
    rfl
  rw [e1, e2, ← mul_assoc, ← ENNReal.ofReal_mul (Real.exp_pos _).le]
  have : Real.exp (-∑ i, Real.log (L i i)) * L.det = 1 := by
    rw [h.det, ← Real.log_prod (fun i _ => (h.2 i).ne'), Real.exp_neg, Real.exp_log (Finset.prod_pos fun i _ => h.2 i)]
    exact inv_mul_cancel₀ (Finset.prod_pos fun i _ => h.2 i).ne'
  rw [this, ENNReal.ofReal_one, one_mul]

theorem gaussian_density (mean : Pos ℝ d) {L : Matrix (Fin d) (Fin d) ℝ} (h : CholeskyFactor L) :
    (stdNormal d).map (fun z a => mean a + L.mulVec z a) = targetMeasure (gaussian mean L).logProb := by
  have hu : IsUnit L.det := (Ne.isUnit h.det_pos.ne')
  have hp : InversePair (fun x : Pos ℝ d => (L⁻¹.mulVec (fun i => x i - mean i), -∑ i, Real.log (L i i))) (fun z : Pos ℝ d => (fun a => mean a + L.mulVec z a, ∑ i, Real.log (L i i))) := by
    refine ⟨fun x => funext fun a => ?_, fun y => ?_, fun x => by simp, fun y => by simp⟩
    · simp only [Matrix.mulVec_mulVec, Matrix.mul_nonsing_inv _ hu, Matrix.one_mulVec]; ring
    · simp only [add_sub_cancel_left]
      rw [show (fun i => L.mulVec y i) = L.mulVec y from rfl, Matrix.mulVec_mulVec, Matrix.nonsing_inv_mul _ hu, Matrix.one_mulVec]
  have := flow_density hp (solve_transports mean h) (fun _ => 0) (fun _ => 1) (fun _ => one_pos) (fun x => isoNormLogpdf x (fun _ => 0) 1) (measurable_isoNorm _ _)
  rw [← stdNormal_density] at this
  have e1 : (fun z : Pos ℝ d => unwhiten (fun _ => 0) (fun _ => 1) (fun a => mean a + L.mulVec z a)) = fun z a => mean a + L.mulVec z a := by
    funext z a; simp [unwhiten]
  have e2 : ∀ x : Pos ℝ d, whiten (fun _ => 0) (fun _ => 1) x = x := by intro x; funext a; simp [whiten]
  simp only [e1, e2] at this
  rw [this]
  simp only [Real.sqrt_one, Real.log_one, Finset.sum_const_zero, neg_zero, Real.exp_zero, ENNReal.ofReal_one, one_smul]
  congr 1
  funext x
  simp only [gaussian, isoNormLogpdf, sumFin_eq, two, Transc.log, Transc.pi, sub_zero, Real.log_one]
  norm_num
  ring

/-- C46: every `Gaussian(mean, cov)` is a consistent base distribution. -/
theorem C46_gaussian (h : IdealDraws past sig P env) (mean : Pos ℝ d) {L : Matrix (Fin d) (Fin d) ℝ} (hL : CholeskyFactor L) :
    ConsistentBase P sig env (gaussian mean L) := by
  have e := gaussian_density mean hL
  have hS : Measurable (fun (z : Pos ℝ d) a => mean a + L.mulVec z a) := by
    have mlin : Measurable (fun x : Pos ℝ d => L.mulVec x) := (Matrix.toLin' L).continuous_of_finiteDimensional.measurable
    exact measurable_pi_lambda _ fun a => measurable_const.add ((measurable_pi_apply a).comp mlin)
  have hb : Measurable (gaussian mean L).logProb := by
    have := (solve_transports mean hL).meas
    simp only [gaussian, sumFin_eq]
    have hy : ∀ i, Measurable (fun x : Pos ℝ d => L⁻¹.mulVec (fun i => x i - mean i) i) := fun i => (measurable_pi_apply i).comp this
    exact ((measurable_const.mul (Finset.measurable_sum _ fun i _ => (hy i).mul (hy i))).sub measurable_const).sub measurable_const
  refine ⟨hb, ?_, ?_⟩
  · rw [← e]; exact Measure.isProbabilityMeasure_map hS.aemeasurable
  · rw [← e]
    have := (normalRows_iid h).mapRows h.sig_le hS
    refine cast ?_ this
    congr 1
    funext k n ω
    simp [gaussian, List.map_map, Function.comp_def]

/-! ### C44 -/

theorem Spec.IidRows.unique {rows : Key → ℕ → Ω → List (Fin d → ℝ)} {q q' : Measure (Fin d → ℝ)} [IsProbabilityMeasure q] [IsProbabilityMeasure q']
    (h : IidRows P sig rows q) (h' : IidRows P sig rows q') : q = q' := by
  have := (h.law (.root 0) 1).symm.trans (h'.law (.root 0) 1)
  have e := congrArg (fun μ => μ.map (fun v : Fin 1 → Fin d → ℝ => v 0)) this
  rwa [(measurePreserving_eval (fun _ : Fin 1 => q) 0).map_eq, (measurePreserving_eval (fun _ : Fin 1 => q') 0).map_eq] at e

theorem flow_rows (hs : ∀ k, sig k ≤ mΩ) {base : BaseDist d} (hb : ConsistentBase P sig env base) {F G : Pos ℝ d → Pos ℝ d × ℝ} (hp : InversePair F G)
    (hT : Transports (fun x => (F x).1) (fun x => (F x).2)) (mean var : Pos ℝ d) (hv : ∀ i, 0 < var i) :
    ∃ q : Measure (Fin d → ℝ), IsProbabilityMeasure q ∧ SamplesFrom q (fun x => (F (whiten mean var x)).2 + base.logProb (F (whiten mean var x)).1) ∧
      IidRows P sig (fun k n ω => (base.sample (env ω).rng k n).map (fun z => unwhiten mean var (G z).1)) q := by
  have := hb.normalised
  have mS : Measurable (fun z => unwhiten mean var (G z).1) := (measurable_unwhiten mean var).comp (inverse_measurable hp hT.meas)
  exact ⟨(targetMeasure base.logProb).map (fun z => unwhiten mean var (G z).1), Measure.isProbabilityMeasure_map mS.aemeasurable,
    ⟨_, flow_density hp hT mean var hv base.logProb hb.logProb_meas⟩, hb.rows.mapRows hs mS⟩

/-- C44 for RealNVP: with 0/1 masks, positive variances and the standard normal base, `sample(key, n)` returns `n` independent points whose density is
proportional to `exp(log_prob)`, for all weights, layer counts and dimensions. -/
theorem C44_realNVP (h : IdealDraws past sig P env) (m : RealNVP d) (hm : ∀ l ∈ m.layers, ZeroOne l.mask) (hv : ∀ i, 0 < m.dataVar i) (hb : m.base = stdGaussian d) :
    ∃ q : Measure (Fin d → ℝ), IsProbabilityMeasure q ∧ SamplesFrom q m.logProb ∧ IidRows P sig (fun k n ω => m.sample (env ω).rng k n) q := by
  obtain ⟨q, h1, h2, h3⟩ := flow_rows h.sig_le (C46_stdGaussian (d := d) h) (C38_inverse_pair m hm) (nvp_transports m hm) m.dataMean m.dataVar hv
  refine ⟨q, h1, h2, ?_⟩
  unfold RealNVP.sample
  rw [hb]
  exact h3

/-- C44 for every constructed RealNVP with the default base distribution. -/
theorem C44_realNVP_constructed (h : IdealDraws past sig P env) (dr : MLPDraws) (nLayers nHidden : ℕ) (k : Key) (mean var : Option (Pos ℝ d))
    (hv : ∀ v, var = some v → ∀ i, 0 < v i) :
    ∃ q : Measure (Fin d → ℝ), IsProbabilityMeasure q ∧ SamplesFrom q (RealNVP.init dr d nLayers nHidden k none mean var).logProb ∧
      IidRows P sig (fun k' n ω => (RealNVP.init dr d nLayers nHidden k none mean var).sample (env ω).rng k' n) q := by
  refine C44_realNVP h _ (fun l hl => ?_) (fun i => ?_) rfl
  · simp only [RealNVP.init, List.mem_map, List.mem_range] at hl
    obtain ⟨i, _, rfl⟩ := hl
    exact (C38_masks i).1
  · cases var with
    | none => exact one_pos
    | some v => exact hv v rfl i

/-- C44 for the spline flow, the part that holds: while the affine parts are trivial, with any consistent base distribution. -/
theorem C44_spline_partial (h : IdealDraws past sig P env) (tiny : ℝ) (m : SplineFlow d K) (hw : m.Wellformed) (hg : m.GuardOff tiny) (ha : m.AffineTrivial)
    (hv : ∀ i, 0 < m.dataVar i) (hb : ConsistentBase P sig env m.base) :
    ∃ q : Measure (Fin d → ℝ), IsProbabilityMeasure q ∧ SamplesFrom q (m.logProb tiny) ∧ IidRows P sig (fun k n ω => m.sample tiny (env ω).rng k n) q :=
  flow_rows h.sig_le hb (C43_inverse_pair_partial tiny m hw hg ha) (spline_transports tiny m hw hg ha) m.dataMean m.dataVar hv

/-! ### C45 -/

theorem scalarAffine_logDerivative (scale shift : ℝ) : LogDerivative (scalarAffine (d := d) scale shift) := by
  intro c i t
  simp only [scalarAffine]
  exact (((hasDerivAt_id t).add_const shift).mul_const (Real.exp scale)).congr_deriv (by simp)

/-- Without a guard nothing is to be checked. -/
theorem guardOff_zero (m : SplineFlow d K) : m.GuardOff 0 := fun _ _ _ _ _ => sq_nonneg _

/-- `forward` of the spline flow transports volume according to its log-determinant for all parameters, also trained affine parts.  (`forward` does not use the guard of the quadratic
formula, so it may be taken to be 0.) -/
theorem spline_transports_all (tiny : ℝ) (m : SplineFlow d K) (hw : m.Wellformed) :
    Transports (fun x => (m.forward tiny x).1) (fun x => (m.forward tiny x).2) := by
  have hg := guardOff_zero m
  rw [show m.forward tiny = m.forward 0 from rfl]
  generalize (0 : ℝ) = tiny at hg ⊢
  rw [show m.forward tiny = _ from funext (m.forward_eq tiny)]
  refine seqMaps_transports _ _ fun l hl => ?_
  obtain ⟨h1, h2⟩ := rqSpline_measurable tiny m.cfg (measurable_mlp Real.tanh measurable_tanh l.mlp)
  refine Transports.comp ?_ (coupling_transports (l.spline tiny m.cfg) (hw.masks l hl) (C37_rqSpline tiny m.cfg (l.mlp.call Real.tanh) (fun _ _ => hw.valid _) (hg l hl))
    (rqSpline_logDerivative _ _ _ fun _ _ => hw.valid _) h1 h2)
  refine coupling_transports l.affine (fun _ => Or.inl rfl) (C37_scalarAffine _ _) (scalarAffine_logDerivative _ _) ?_ ?_
  · simp only [SplineLayer.affine, scalarAffine]; fun_prop
  · simp only [SplineLayer.affine, scalarAffine]; fun_prop

/-- The integral of `exp(log_prob)` for a flow whose forward map transports volume. -/
theorem flow_mass {F : Pos ℝ d → Pos ℝ d × ℝ} (hT : Transports (fun x => (F x).1) (fun x => (F x).2)) (mean var : Pos ℝ d) (hv : ∀ i, 0 < var i) (b : Pos ℝ d → ℝ)
    (mb : Measurable b) : targetMeasure (fun x => (F (whiten mean var x)).2 + b (F (whiten mean var x)).1) Set.univ =
      ENNReal.ofReal (∏ i, Real.sqrt (var i)) * targetMeasure b Set.univ := by
  have hW := whiten_transports mean var hv
  have hs : ∀ i, 0 < Real.sqrt (var i) := fun i => Real.sqrt_pos.2 (hv i)
  have m1 : Measurable fun y => ENNReal.ofReal (Real.exp (b y)) := mb.exp.ennreal_ofReal
  have m2 : Measurable fun x => ENNReal.ofReal (Real.exp (F x).2) * ENNReal.ofReal (Real.exp (b (F x).1)) := (hT.ldMeas.exp.ennreal_ofReal).mul (m1.comp hT.meas)
  rw [targetMeasure, targetMeasure, withDensity_apply _ MeasurableSet.univ, withDensity_apply _ MeasurableSet.univ, setLIntegral_univ, setLIntegral_univ,
    ← hT.change _ m1, ← hW.change _ m2, lintegral_const_mul' _ _ ENNReal.ofReal_ne_top, ← mul_assoc, ← ENNReal.ofReal_mul (Finset.prod_nonneg fun i _ => (hs i).le)]
  have : (∏ i, Real.sqrt (var i)) * Real.exp (-∑ i, Real.log (Real.sqrt (var i))) = 1 := by
    rw [← Real.log_prod (fun i _ => (hs i).ne'), Real.exp_neg, Real.exp_log (Finset.prod_pos fun i _ => hs i)]
    exact mul_inv_cancel₀ (Finset.prod_pos fun i _ => hs i).ne'
  rw [this, ENNReal.ofReal_one, one_mul]
  refine lintegral_congr fun x => ?_
  rw [Real.exp_add, ENNReal.ofReal_mul (Real.exp_pos _).le]

theorem stdNormal_mass (d : ℕ) : targetMeasure (fun x : Fin d → ℝ => isoNormLogpdf x (fun _ => 0) 1) Set.univ = 1 := by
  rw [← stdNormal_density]; exact measure_univ

/-- C45, what holds for RealNVP: the integral of `exp(log_prob)` is the product of the data standard deviations (the missing whitening Jacobian), for every base
distribution; so it is 1 exactly when that product is 1. -/
theorem C45_realNVP_partial (m : RealNVP d) (hm : ∀ l ∈ m.layers, ZeroOne l.mask) (hv : ∀ i, 0 < m.dataVar i) :
    targetMeasure m.logProb Set.univ = ENNReal.ofReal (∏ i, Real.sqrt (m.dataVar i)) := by
  have := flow_mass (nvp_transports m hm) m.dataMean m.dataVar hv (fun x => isoNormLogpdf x (fun _ => 0) 1) (measurable_isoNorm _ _)
  rw [stdNormal_mass, mul_one] at this
  exact this

/-- C45, what holds for the spline flow, also after training. -/
theorem C45_spline_partial (tiny : ℝ) (m : SplineFlow d K) (hw : m.Wellformed) (hv : ∀ i, 0 < m.dataVar i)
    (mb : Measurable m.base.logProb) (hb : targetMeasure m.base.logProb Set.univ = 1) :
    targetMeasure (m.logProb tiny) Set.univ = ENNReal.ofReal (∏ i, Real.sqrt (m.dataVar i)) := by
  have := flow_mass (spline_transports_all tiny m hw) m.dataMean m.dataVar hv m.base.logProb mb
  rw [hb, mul_one] at this
  exact this

/-- C45 is false: for data with variance 4 the integral is 2.  (One feature, no layers; the same happens for every constructed model.) -/
theorem C45_not_normalised (dr : MLPDraws) (nLayers nHidden : ℕ) (k : Key) (base : Option (BaseDist 1)) (mean : Option (Pos ℝ 1)) :
    targetMeasure (RealNVP.init dr 1 nLayers nHidden k base mean (some fun _ => 4)).logProb Set.univ = 2 := by
  rw [C45_realNVP_partial]
  · simp only [RealNVP.init, Option.getD_some, Finset.univ_unique, Finset.prod_const, Finset.card_singleton, pow_one]
    rw [show (4 : ℝ) = 2 ^ 2 by norm_num, Real.sqrt_sq (by norm_num)]
    norm_num
  · intro l hl
    simp only [RealNVP.init, List.mem_map, List.mem_range] at hl
    obtain ⟨i, _, rfl⟩ := hl
    exact (C38_masks i).1
  · intro i; norm_num [RealNVP.init]

/-! ### C46 -/

/-- C46, RealNVP, the part that holds: `log_prob` is the density of the samples (up to the whitening constant) when `base_dist` is any consistent distribution whose
density is the standard normal one. -/
theorem C46_realNVP_partial (h : IdealDraws past sig P env) (m : RealNVP d) (hm : ∀ l ∈ m.layers, ZeroOne l.mask) (hv : ∀ i, 0 < m.dataVar i)
    (hb : ConsistentBase P sig env m.base) (hn : ∀ x, m.base.logProb x = isoNormLogpdf x (fun _ => 0) 1) :
    ∃ q : Measure (Fin d → ℝ), IsProbabilityMeasure q ∧ SamplesFrom q m.logProb ∧ IidRows P sig (fun k n ω => m.sample (env ω).rng k n) q := by
  obtain ⟨q, h1, h2, h3⟩ := flow_rows h.sig_le hb (C38_inverse_pair m hm) (nvp_transports m hm) m.dataMean m.dataVar hv
  simp only [hn] at h2
  exact ⟨q, h1, h2, h3⟩

/-- C46, spline flow: `log_prob` uses the base distribution that `sample` draws from, whatever consistent distribution the user supplies. -/
theorem C46_spline (h : IdealDraws past sig P env) (tiny : ℝ) (m : SplineFlow d K) (hw : m.Wellformed) (hg : m.GuardOff tiny) (ha : m.AffineTrivial)
    (hv : ∀ i, 0 < m.dataVar i) (mean : Pos ℝ d) (L : Matrix (Fin d) (Fin d) ℝ) (hL : CholeskyFactor L) (hb : m.base = gaussian mean L) :
    ∃ q : Measure (Fin d → ℝ), IsProbabilityMeasure q ∧ SamplesFrom q (m.logProb tiny) ∧ IidRows P sig (fun k n ω => m.sample tiny (env ω).rng k n) q :=
  C44_spline_partial h tiny m hw hg ha hv (hb ▸ C46_gaussian h mean hL)

/-! ### The concrete flows inside the sampler -/

/-- RealNVP models whose base distribution returns the requested number of rows. -/
abbrev RealNVPModel (d : ℕ) := {m : RealNVP d // ∀ rng k n, (m.base.sample rng k n).length = n}

/-- Spline flows whose base distribution returns the requested number of rows. -/
abbrev SplineModel (d K : ℕ) := {m : SplineFlow d K // ∀ rng k n, (m.base.sample rng k n).length = n}

/-- C44 in the form the global sampler uses: in an ideal world whose flow operations are those of RealNVP, a RealNVP with 0/1 masks, positive variances and the
default base is an ideal flow, so C26 and C28 apply to it. -/
theorem C44_realNVP_idealFlow {env : Ω → Env ℝ D d (RealNVPModel d) O} (h : IdealDraws past sig P env)
    (hs : ∀ ω m k n, (env ω).ops.sample m k n = m.1.sample (env ω).rng k n) (hl : ∀ ω m, (env ω).ops.logProb m = m.1.logProb)
    (m : RealNVPModel d) (hm : ∀ l ∈ m.1.layers, ZeroOne l.mask) (hv : ∀ i, 0 < m.1.dataVar i) (hb : m.1.base = stdGaussian d) :
    ∃ q : Measure (Fin d → ℝ), IsProbabilityMeasure q ∧ IdealFlow P sig env m q m.1.logProb := by
  obtain ⟨q, h1, h2, h3⟩ := C44_realNVP h m.1 hm hv hb
  refine ⟨q, h1, fun ω m k n => ?_, fun k _ n => ?_, fun k _ n => ?_, fun ω => hl ω m, h2⟩
  · rw [hs, RealNVP.sample, List.length_map, m.2]
  · simp only [hs]; exact h3.meas k n
  · simp only [hs]; exact h3.law k n

/-- C44, the same for the spline flow while its affine parts are trivial. -/
theorem C44_spline_idealFlow_partial {env : Ω → Env ℝ D d (SplineModel d K) O} (h : IdealDraws past sig P env) (tiny : ℝ)
    (hs : ∀ ω m k n, (env ω).ops.sample m k n = m.1.sample tiny (env ω).rng k n) (hl : ∀ ω m, (env ω).ops.logProb m = m.1.logProb tiny)
    (m : SplineModel d K) (hw : m.1.Wellformed) (hg : m.1.GuardOff tiny) (ha : m.1.AffineTrivial) (hv : ∀ i, 0 < m.1.dataVar i)
    (hb : ConsistentBase P sig env m.1.base) :
    ∃ q : Measure (Fin d → ℝ), IsProbabilityMeasure q ∧ IdealFlow P sig env m q (m.1.logProb tiny) := by
  obtain ⟨q, h1, h2, h3⟩ := C44_spline_partial h tiny m.1 hw hg ha hv hb
  refine ⟨q, h1, fun ω m k n => ?_, fun k _ n => ?_, fun k _ n => ?_, fun ω => hl ω m, h2⟩
  · rw [hs, SplineFlow.sample, List.length_map, m.2]
  · simp only [hs]; exact h3.meas k n
  · simp only [hs]; exact h3.law k n

end
end FlowMC
