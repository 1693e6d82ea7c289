import Verif.Spec.TrainedSpline
import Verif.Props.FlowFalse
import Verif.Props.MisfitRun
/-
C91: what a spline flow with arbitrary (trained) parameters proposes, and what its flow proposals therefore sample.
-/
set_option linter.unusedSectionVars false
open MeasureTheory ProbabilityTheory
open scoped ENNReal
namespace FlowMC
open Spec
noncomputable section
open Classical

variable {d K : ℕ} {D M O Ω : Type} {past : MeasurableSpace Ω} {sig : Key → MeasurableSpace Ω} [mΩ : MeasurableSpace Ω] {P : Measure Ω} [IsProbabilityMeasure P] {env : Ω → Env ℝ D d M O}

/-- One layer with its halves exchanged. -/
def SplineLayer.swp (tiny : ℝ) (c : SplineCfg) (l : SplineLayer d K) (x : Pos ℝ d) : Pos ℝ d × ℝ :=
  ((l.affine.forward ((l.spline tiny c).forward x).1).1, ((l.spline tiny c).forward x).2 + (l.affine.forward ((l.spline tiny c).forward x).1).2)

theorem splineThenAffine_eq (tiny : ℝ) (c : SplineCfg) (ls : List (SplineLayer d K)) (x : Pos ℝ d) : splineThenAffine tiny c ls x = seqMaps (ls.map fun l => l.swp tiny c) x := by
  induction ls generalizing x with
  | nil => rfl
  | cons l ls ih => simp only [splineThenAffine, List.map_cons, seqMaps, ih]; rfl

theorem inversePair_comp {X : Type} {f f' g g' : X → X × ℝ} (h : InversePair f f') (k : InversePair g g') :
    InversePair (fun x => ((g (f x).1).1, (f x).2 + (g (f x).1).2)) (fun y => ((f' (g' y).1).1, (g' y).2 + (f' (g' y).1).2)) := by
  refine ⟨fun x => ?_, fun y => ?_, fun x => ?_, fun y => ?_⟩
  · simp only [k.left, h.left]
  · simp only [h.right, k.right]
  · simp only [k.left, h.logdet_left, k.logdet_left]; ring
  · simp only [h.right, h.logdet_right, k.logdet_right]; ring

/-- C91: `inverse` of a spline flow, for ALL parameter values, is the inverse of the layers with spline and affine halves exchanged (not of `forward`), with opposite log-determinants. -/
theorem C91_inverse (tiny : ℝ) (m : SplineFlow d K) (hw : m.Wellformed) (hg : m.GuardOff tiny) :
    InversePair (splineThenAffine tiny m.cfg m.layers) (m.inverse tiny) := by
  have := seqMaps_inverse (fun l : SplineLayer d K => l.swp tiny m.cfg) (fun l => l.bwd tiny m.cfg) m.layers fun l hl =>
    inversePair_comp (C37_inverse_pair (l.spline tiny m.cfg) (hw.masks l hl) (C37_rqSpline tiny m.cfg (l.mlp.call Real.tanh) (fun _ _ => hw.valid _) (hg l hl)))
      (C37_inverse_pair l.affine (fun _ => Or.inl rfl) (C37_scalarAffine _ _))
  rw [show splineThenAffine tiny m.cfg m.layers = _ from funext (splineThenAffine_eq tiny m.cfg m.layers), show m.inverse tiny = _ from funext (m.inverse_eq tiny)]
  exact this

theorem swapped_transports (tiny : ℝ) (m : SplineFlow d K) (hw : m.Wellformed) :
    Transports (fun x => (splineThenAffine tiny m.cfg m.layers x).1) (fun x => (splineThenAffine tiny m.cfg m.layers x).2) := by
  have hg := guardOff_zero m
  have e : ∀ x, splineThenAffine tiny m.cfg m.layers x = splineThenAffine 0 m.cfg m.layers x := by
    intro x
    rw [splineThenAffine_eq, splineThenAffine_eq]
    rfl
  simp only [e]
  generalize (0 : ℝ) = tiny at hg ⊢
  simp only [splineThenAffine_eq]
  refine seqMaps_transports _ _ fun l hl => ?_
  obtain ⟨h1, h2⟩ := rqSpline_measurable tiny m.cfg (measurable_mlp Real.tanh measurable_tanh l.mlp)
  have hS := coupling_transports (l.spline tiny m.cfg) (hw.masks l hl) (C37_rqSpline tiny m.cfg (l.mlp.call Real.tanh) (fun _ _ => hw.valid _) (hg l hl))
    (rqSpline_logDerivative _ _ _ fun _ _ => hw.valid _) h1 h2
  have hA := coupling_transports (l.affine (d := d)) (fun _ => Or.inl rfl) (C37_scalarAffine _ _) (scalarAffine_logDerivative _ _)
    (by simp only [SplineLayer.affine, scalarAffine]; fun_prop) (by simp only [SplineLayer.affine, scalarAffine]; fun_prop)
  exact Transports.comp hS hA

theorem transports_logDensity_meas {F : Pos ℝ d → Pos ℝ d × ℝ} (hT : Transports (fun x => (F x).1) (fun x => (F x).2)) (mean var : Pos ℝ d) {b : Pos ℝ d → ℝ} (mb : Measurable b) :
    Measurable (fun x => (F (whiten mean var x)).2 + b (F (whiten mean var x)).1) := by
  have mw : Measurable (whiten mean var) := by
    unfold whiten; fun_prop
  exact (hT.ldMeas.comp mw).add (mb.comp (hT.meas.comp mw))

theorem sampleLogDensity_measurable (tiny : ℝ) (m : SplineFlow d K) (hw : m.Wellformed) (mb : Measurable m.base.logProb) : Measurable (sampleLogDensity tiny m) :=
  transports_logDensity_meas (swapped_transports tiny m hw) m.dataMean m.dataVar mb

theorem splineLogProb_measurable (tiny : ℝ) (m : SplineFlow d K) (hw : m.Wellformed) (mb : Measurable m.base.logProb) : Measurable (m.logProb tiny) :=
  transports_logDensity_meas (spline_transports_all tiny m hw) m.dataMean m.dataVar mb

/-- C91: `sample(key, n)` of a spline flow with any parameters returns `n` independent points with log-density `sampleLogDensity` up to a constant. -/
theorem C91_density (h : IdealDraws past sig P env) (tiny : ℝ) (m : SplineFlow d K) (hw : m.Wellformed) (hg : m.GuardOff tiny) (hv : ∀ i, 0 < m.dataVar i)
    (hb : ConsistentBase P sig env m.base) :
    ∃ q : Measure (Fin d → ℝ), IsProbabilityMeasure q ∧ SamplesFrom q (sampleLogDensity tiny m) ∧ IidRows P sig (fun k n ω => m.sample tiny (env ω).rng k n) q :=
  flow_rows h.sig_le hb (C91_inverse tiny m hw hg) (swapped_transports tiny m hw) m.dataMean m.dataVar hv

theorem samplesFrom_finite {q : Measure (Pos ℝ d)} [IsProbabilityMeasure q] {a : Pos ℝ d → ℝ} (h : SamplesFrom q a) : targetMeasure a Set.univ ≠ ∞ ∧ q = normalised (targetMeasure a) := by
  obtain ⟨Z, hZ⟩ := h
  have h1 : Z * targetMeasure a Set.univ = 1 := by
    have : q Set.univ = 1 := measure_univ
    rwa [hZ, Measure.smul_apply, smul_eq_mul] at this
  have hne : targetMeasure a Set.univ ≠ ∞ := by
    intro h
    rw [h] at h1
    by_cases h0 : Z = 0
    · simp [h0] at h1
    · rw [ENNReal.mul_top h0] at h1; simp at h1
  refine ⟨hne, ?_⟩
  rw [hZ, normalised, ENNReal.eq_inv_of_mul_eq_one_left h1]

theorem samplesFrom_congr {q : Measure (Pos ℝ d)} {a b : Pos ℝ d → ℝ} (h : SamplesFrom q a) {c : ℝ} (hb : Measurable b) (ha : Measurable a) (hc : ∀ᵐ x, b x = a x + c) : SamplesFrom q b := by
  obtain ⟨Z, hZ⟩ := h
  refine ⟨Z * ENNReal.ofReal (Real.exp (-c)), ?_⟩
  rw [hZ, mul_smul]
  congr 1
  rw [targetMeasure, targetMeasure, ← withDensity_smul _ (by fun_prop)]
  refine withDensity_congr_ae ?_
  filter_upwards [hc] with x hx
  rw [Pi.smul_apply, smul_eq_mul, hx, ← ENNReal.ofReal_mul (Real.exp_pos _).le, ← Real.exp_add]
  ring_nf

/-- C91: exactly when `log_prob` of a spline flow is (up to a constant) the log-density of its samples: when it agrees almost everywhere, up to a constant, with `sampleLogDensity`, i.e.
when the order of the two halves of the layers does not matter. -/
theorem C91_correct_iff (h : IdealDraws past sig P env) (tiny : ℝ) (m : SplineFlow d K) (hw : m.Wellformed) (hg : m.GuardOff tiny) (hv : ∀ i, 0 < m.dataVar i)
    (hb : ConsistentBase P sig env m.base) :
    (∃ q : Measure (Fin d → ℝ), IsProbabilityMeasure q ∧ SamplesFrom q (m.logProb tiny) ∧ IidRows P sig (fun k n ω => m.sample tiny (env ω).rng k n) q) ↔
      ∃ c : ℝ, ∀ᵐ x, m.logProb tiny x = sampleLogDensity tiny m x + c := by
  have m1 := sampleLogDensity_measurable tiny m hw hb.logProb_meas
  have m2 := splineLogProb_measurable tiny m hw hb.logProb_meas
  obtain ⟨q, p, s, r⟩ := C91_density h tiny m hw hg hv hb
  constructor
  · rintro ⟨q', p', s', r'⟩
    obtain rfl := r.unique r'
    obtain ⟨f1, e1⟩ := samplesFrom_finite s
    obtain ⟨f2, e2⟩ := samplesFrom_finite s'
    exact (normalised_eq_iff m2 m1 f2 f1).1 (e2.symm.trans e1)
  · rintro ⟨c, hc⟩
    exact ⟨q, p, samplesFrom_congr s m2 m1 hc, r⟩

/-- A spline flow with any parameters as a global sampler, in the form C73 uses. -/
theorem spline_flowSamples {env : Ω → Env ℝ D d (SplineModel d K) O} (h : IdealDraws past sig P env) (tiny : ℝ)
    (hs : ∀ ω m k n, (env ω).ops.sample m k n = m.1.sample tiny (env ω).rng k n) (hl : ∀ ω m, (env ω).ops.logProb m = m.1.logProb tiny)
    (m : SplineModel d K) (hw : m.1.Wellformed) (hg : m.1.GuardOff tiny) (hv : ∀ i, 0 < m.1.dataVar i) (hb : ConsistentBase P sig env m.1.base) :
    ∃ q : Measure (Fin d → ℝ), IsProbabilityMeasure q ∧ SamplesFrom q (sampleLogDensity tiny m.1) ∧ FlowSamples P sig env m q (m.1.logProb tiny) := by
  obtain ⟨q, h1, h2, h3⟩ := C91_density h tiny m.1 hw hg hv hb
  refine ⟨q, h1, h2, fun ω m k n => ?_, fun k _ n => ?_, fun k _ n => ?_, fun ω => hl ω m⟩
  · rw [hs, SplineFlow.sample, List.length_map, m.2]
  · simp only [hs]; exact h3.meas k n
  · simp only [hs]; exact h3.law k n

/-- **C91 (rows).** A spline flow with any (trained) parameters as global sampler, any target: the rows of a sweep of flow proposals, from the `N`-th on, have up to `ε` the density
proportional to `target(x) · exp(sampleLogDensity(x)) / exp(log_prob(x))`. -/
theorem C91_sweep_rows {env : Ω → Env ℝ D d (SplineModel d K) O} (h : IdealDraws past sig P env) (tiny : ℝ)
    (hs : ∀ ω m k n, (env ω).ops.sample m k n = m.1.sample tiny (env ω).rng k n) (hl : ∀ ω m, (env ω).ops.logProb m = m.1.logProb tiny)
    (m : SplineModel d K) (hw : m.1.Wellformed) (hg : m.1.GuardOff tiny) (hv : ∀ i, 0 < m.1.dataVar i) (hb : ConsistentBase P sig env m.1.base)
    (batch : ℕ) (hbatch : 0 < batch) (t : Target ℝ D d) (hn : IgnoresNSteps t) (data : Data D) (ht : Measurable (fun x => t.val x data))
    (hfin : targetMeasure (fun x => t.val x data - m.1.logProb tiny x + sampleLogDensity tiny m.1 x) Set.univ ≠ ∞) (X : Ω → Pos ℝ d) (hX : Measurable[past] X) (ε : ℝ) (hε : 0 < ε) :
    ∃ N, ∀ (n : ℕ) (k : Key), ∃ rows : Ω → List (StepOut ℝ d), (∀ ω, groupSample (env ω) m batch t data n k (X ω) = .ok (rows ω) ∧ (rows ω).length = n) ∧
      ∀ j, N ≤ j → j < n → ∃ Y : Ω → Pos ℝ d, (∀ ω, ((rows ω)[j]?).map (·.pos) = some (Y ω)) ∧ Measurable Y ∧
        CloseInLaw P Y (normalised (targetMeasure fun x => t.val x data - m.1.logProb tiny x + sampleLogDensity tiny m.1 x)) ε := by
  obtain ⟨q, h1, h2, h3⟩ := spline_flowSamples h tiny hs hl m hw hg hv hb
  exact C73_sweep_rows h m q _ _ (splineLogProb_measurable tiny m.1 hw hb.logProb_meas) (sampleLogDensity_measurable tiny m.1 hw hb.logProb_meas) h3 h2 batch hbatch t hn data ht hfin X hX ε hε

theorem badSpline_guardOff (tiny : ℝ) (ht : ClipInactive tiny badKnots.xPos badKnots.yPos badKnots.slopes) : badSpline.GuardOff tiny := by
  intro l hl cond f
  simp only [badSpline, List.mem_singleton] at hl
  have : f = 0 := Subsingleton.elim _ _
  subst this hl
  simp only [condKnots, badNet]
  exact ht

/-- C91 is not an idle distinction: for the trained one-layer flow `badSpline` (valid settings, default base) `log_prob` is not the log-density of the samples, even up to a constant and
almost everywhere. -/
theorem C91_trained_wrong {env : Ω → Env ℝ D 1 M O} (h : IdealDraws past sig P env) (tiny : ℝ) (ht : ClipInactive tiny badKnots.xPos badKnots.yPos badKnots.slopes) :
    ¬ ∃ c : ℝ, ∀ᵐ x, badSpline.logProb tiny x = sampleLogDensity tiny badSpline x + c := by
  have hb : ConsistentBase P sig env badSpline.base := C46_stdGaussian (d := 1) h
  rw [← C91_correct_iff h tiny badSpline badSpline_wellformed (badSpline_guardOff tiny ht) (fun _ => one_pos) hb]
  exact C44_trained_spline_wrong_density h tiny ht

/-- While the affine halves are as constructed the order does not matter, so C44 for untrained affine parts is an instance of C91. -/
theorem C91_trivial (tiny : ℝ) (m : SplineFlow d K) (ha : m.AffineTrivial) (x : Pos ℝ d) : sampleLogDensity tiny m x = m.logProb tiny x := by
  have e : ∀ x, splineThenAffine tiny m.cfg m.layers x = m.forward tiny x := by
    intro x
    rw [splineThenAffine_eq, SplineFlow.forward_eq]
    congr 1
    refine List.map_congr_left fun l hl => funext fun y => ?_
    simp [SplineLayer.swp, SplineLayer.fwd, (affine_trivial (ha l hl) _).1]
  simp only [sampleLogDensity, e, SplineFlow.logProb]

section
variable [BufNum ℝ]

/-- **C91 (production phase).** A run of `RQSpline_MALA_Bundle` in an ideal random world whose flow, when training is over, is a spline flow with any parameters; every chain then has exactly the normalised target
distribution.  All production rows have exactly the target distribution if and only if exchanging the halves of the layers changes `log_prob` by a constant only (almost everywhere). -/
theorem C91_production_iff {env : Ω → Env ℝ D d (SplineModel d K) O} (h : IdealDraws past sig P env) (tiny : ℝ)
    (hs : ∀ ω m k n, (env ω).ops.sample m k n = m.1.sample tiny (env ω).rng k n) (hl : ∀ ω m, (env ω).ops.logProb m = m.1.logProb tiny)
    (m : SplineModel d K) (hw : m.1.Wellformed) (hg : m.1.GuardOff tiny) (hv : ∀ i, 0 < m.1.dataVar i) (hb : ConsistentBase P sig env m.1.base)
    (c : BundleCfg ℝ D d (SplineModel d K) O) (hc : GoodCfg c) (hstep : c.stepSize ≠ 0) (hch : 0 < c.nChains) (hloop : 0 < c.nProdLoops) (data : Data D)
    (ht : Measurable (fun x => c.logpdf.val x data)) (hgr : Measurable (fun x => c.logpdf.grad x data)) (hig : IgnoresNSteps c.logpdf)
    (hfin : targetMeasure (fun x => c.logpdf.val x data) Set.univ ≠ ∞) (hfin' : targetMeasure (fun x => c.logpdf.val x data - m.1.logProb tiny x + sampleLogDensity tiny m.1 x) Set.univ ≠ ∞)
    (k : Key) (key : Ω → Key) (xs : Ω → List (Pos ℝ d)) (hx : ∀ ω, (xs ω).length = c.nChains) (w w' : Ω → World ℝ D d (SplineModel d K) O)
    (htrain : ∀ ω, Completes (env ω) (malaBundle c).strategies.lookup data (repeatPhase c.nTrainLoops trainingPhase ++ ["reset_steppers", "update_state"])
      ⟨key ω, xs ω, ⟨(malaBundle c).resources, fun _ => 0⟩⟩ (w ω))
    (hkey : ∀ ω, (w ω).key = k) (hflow : ∀ ω, (w ω).heap.res "global_sampler" = some (.kernel (.nf m c.nfBatch)))
    (hstart : ∀ i < c.nChains, ∃ X : Ω → Pos ℝ d, (∀ ω, (w ω).xs[i]? = some (X ω)) ∧ Measurable[past] X ∧ P.map X = normalised (targetMeasure fun x => c.logpdf.val x data))
    (hprod : ∀ ω, Completes (env ω) (malaBundle c).strategies.lookup data (repeatPhase c.nProdLoops productionPhase) (w ω) (w' ω)) :
    (∀ i < c.nChains, ∀ j < c.nProdSteps, ∃ Y : Ω → Pos ℝ d, Measurable Y ∧ P.map Y = normalised (targetMeasure fun x => c.logpdf.val x data) ∧
      ∀ ω, ∃ b, (w' ω).heap.res "positions_production" = some (.buffer b) ∧ ∀ a : Fin d, b.data.get [i, j, a] = Y ω a) ↔
      ∃ r : ℝ, ∀ᵐ x, m.1.logProb tiny x = sampleLogDensity tiny m.1 x + r := by
  obtain ⟨q, h1, h2, h3⟩ := spline_flowSamples h tiny hs hl m hw hg hv hb
  exact C73_production_iff k ⟨h.past_le, h.sig_le, h.indep, fun k _ => h.normal_meas k trivial, fun k _ => h.normal_law k trivial, fun k _ => h.uniform_meas k trivial, fun k _ => h.uniform_law k trivial⟩
    c hc hstep hch hloop data m ht hgr hig hfin q _ _ (splineLogProb_measurable tiny m.1 hw hb.logProb_meas) (sampleLogDensity_measurable tiny m.1 hw hb.logProb_meas)
    ⟨h3.lawful, fun k _ => h3.rows_meas k trivial, fun k _ => h3.rows_law k trivial, h3.logProb⟩ h2 hfin' key xs hx w w' htrain hkey hflow hstart hprod

/-- The witness as a model of the global sampler. -/
def badModel : SplineModel 1 1 := ⟨badSpline, fun rng k n => by simp [badSpline, stdGaussian]⟩

/-- **C91 (production phase, instance).** The trained flow `badSpline` and the target whose log-density is exactly the flow's own `log_prob` — by its own account the flow could not fit better.  With the chains started
from the target distribution, the production phase moves them away from it: some production row does not have the target distribution. -/
theorem C91_production_wrong {env : Ω → Env ℝ D 1 (SplineModel 1 1) O} (h : IdealDraws past sig P env) (tiny : ℝ) (ht : ClipInactive tiny badKnots.xPos badKnots.yPos badKnots.slopes)
    (hs : ∀ ω m k n, (env ω).ops.sample m k n = m.1.sample tiny (env ω).rng k n) (hl : ∀ ω m, (env ω).ops.logProb m = m.1.logProb tiny)
    (c : BundleCfg ℝ D 1 (SplineModel 1 1) O) (hc : GoodCfg c) (hstep : c.stepSize ≠ 0) (hch : 0 < c.nChains) (hloop : 0 < c.nProdLoops) (data : Data D)
    (htar : ∀ x, c.logpdf.val x data = badSpline.logProb tiny x) (hgr : Measurable (fun x => c.logpdf.grad x data)) (hig : IgnoresNSteps c.logpdf)
    (k : Key) (key : Ω → Key) (xs : Ω → List (Pos ℝ 1)) (hx : ∀ ω, (xs ω).length = c.nChains) (w w' : Ω → World ℝ D 1 (SplineModel 1 1) O)
    (htrain : ∀ ω, Completes (env ω) (malaBundle c).strategies.lookup data (repeatPhase c.nTrainLoops trainingPhase ++ ["reset_steppers", "update_state"])
      ⟨key ω, xs ω, ⟨(malaBundle c).resources, fun _ => 0⟩⟩ (w ω))
    (hkey : ∀ ω, (w ω).key = k) (hflow : ∀ ω, (w ω).heap.res "global_sampler" = some (.kernel (.nf badModel c.nfBatch)))
    (hstart : ∀ i < c.nChains, ∃ X : Ω → Pos ℝ 1, (∀ ω, (w ω).xs[i]? = some (X ω)) ∧ Measurable[past] X ∧ P.map X = normalised (targetMeasure fun x => c.logpdf.val x data))
    (hprod : ∀ ω, Completes (env ω) (malaBundle c).strategies.lookup data (repeatPhase c.nProdLoops productionPhase) (w ω) (w' ω)) :
    ¬ ∀ i < c.nChains, ∀ j < c.nProdSteps, ∃ Y : Ω → Pos ℝ 1, Measurable Y ∧ P.map Y = normalised (targetMeasure fun x => c.logpdf.val x data) ∧
      ∀ ω, ∃ b, (w' ω).heap.res "positions_production" = some (.buffer b) ∧ ∀ a : Fin 1, b.data.get [i, j, a] = Y ω a := by
  have hb : ConsistentBase P sig env badSpline.base := C46_stdGaussian (d := 1) h
  have hgo := badSpline_guardOff tiny ht
  have hmass := C45_spline_partial tiny badSpline badSpline_wellformed (fun _ => one_pos) hb.logProb_meas hb.normalised.measure_univ
  obtain ⟨q, h1, h2, -⟩ := C91_density h tiny badSpline badSpline_wellformed hgo (fun _ => one_pos) hb
  rw [C91_production_iff h tiny hs hl badModel badSpline_wellformed hgo (fun _ => one_pos) hb c hc hstep hch hloop data
    (by rw [funext htar]; exact splineLogProb_measurable tiny badSpline badSpline_wellformed hb.logProb_meas) hgr hig (by rw [funext htar, hmass]; exact ENNReal.ofReal_ne_top)
    (by
      have e : ∀ x, c.logpdf.val x data - badModel.1.logProb tiny x + sampleLogDensity tiny badModel.1 x = sampleLogDensity tiny badSpline x := by
        intro x; rw [htar]; show badSpline.logProb tiny x - badSpline.logProb tiny x + sampleLogDensity tiny badSpline x = _; ring
      rw [funext e]
      exact (samplesFrom_finite h2).1) k key xs hx w w' htrain hkey hflow hstart hprod]
  exact C91_trained_wrong h tiny ht

end

end
end FlowMC
