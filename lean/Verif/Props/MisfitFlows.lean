import Verif.Props.Misfit
import Verif.Props.FlowFalse
import Verif.Props.IdealWorld
/-
C73 for RealNVP with a base distribution other than the standard normal (`log_prob` ignores the base distribution).
-/
open MeasureTheory ProbabilityTheory Filter
open scoped ENNReal
set_option linter.unusedSectionVars false
namespace FlowMC
open Spec
noncomputable section

variable {D O : Type} {d : ℕ}
variable {Ω : Type} {past : MeasurableSpace Ω} {sig : Key → MeasurableSpace Ω} [mΩ : MeasurableSpace Ω] {P : Measure Ω} [IsProbabilityMeasure P]

/-- The latent point of `x`: where the flow's normalising direction takes it. -/
def RealNVP.latent (m : RealNVP d) (x : Pos ℝ d) : Pos ℝ d := (m.forward (whiten m.dataMean m.dataVar x)).1

/-- **C73 (RealNVP).** A RealNVP with 0/1 masks and any consistent base distribution as global sampler, any target: the rows of a sweep, from the `N`-th on, have up to `ε` the density
proportional to `target(x) · base(z(x)) / N(0, I)(z(x))` with `z(x)` the latent point of `x` — not the target, because `log_prob` uses `N(0, I)` in place of the base. -/
theorem C73_realNVP {env : Ω → Env ℝ D d (RealNVPModel d) O} (h : IdealDraws past sig P env)
    (hs : ∀ ω m k n, (env ω).ops.sample m k n = m.1.sample (env ω).rng k n) (hl : ∀ ω m, (env ω).ops.logProb m = m.1.logProb)
    (m : RealNVPModel d) (hm : ∀ l ∈ m.1.layers, ZeroOne l.mask) (hv : ∀ i, 0 < m.1.dataVar i) (hb : ConsistentBase P sig env m.1.base)
    (batch : ℕ) (hbatch : 0 < batch) (t : Target ℝ D d) (hn : IgnoresNSteps t) (data : Data D) (ht : Measurable (fun x => t.val x data))
    (hfin : targetMeasure (fun x => t.val x data - isoNormLogpdf (m.1.latent x) (fun _ => 0) 1 + m.1.base.logProb (m.1.latent x)) Set.univ ≠ ∞)
    (X : Ω → Pos ℝ d) (hX : Measurable[past] X) (ε : ℝ) (hε : 0 < ε) :
    ∃ N, ∀ (n : ℕ) (k : Key), ∃ rows : Ω → List (StepOut ℝ d), (∀ ω, groupSample (env ω) m batch t data n k (X ω) = .ok (rows ω) ∧ (rows ω).length = n) ∧
      ∀ j, N ≤ j → j < n → ∃ Y : Ω → Pos ℝ d, (∀ ω, ((rows ω)[j]?).map (·.pos) = some (Y ω)) ∧ Measurable Y ∧
        CloseInLaw P Y (normalised (targetMeasure fun x => t.val x data - isoNormLogpdf (m.1.latent x) (fun _ => 0) 1 + m.1.base.logProb (m.1.latent x))) ε := by
  obtain ⟨q, h1, h2, h3⟩ := flow_rows h.sig_le hb (C38_inverse_pair m.1 hm) (nvp_transports m.1 hm) m.1.dataMean m.1.dataVar hv
  have hT := nvp_transports m.1 hm
  have mW : Measurable (whiten m.1.dataMean m.1.dataVar) := by unfold whiten; fun_prop
  have mz : Measurable m.1.latent := hT.meas.comp mW
  have ml : Measurable m.1.logProb := (hT.ldMeas.comp mW).add ((measurable_isoNorm _ _).comp mz)
  have e : ∀ x, misfit (fun x => t.val x data) m.1.logProb (fun x => (m.1.forward (whiten m.1.dataMean m.1.dataVar x)).2 + m.1.base.logProb (m.1.forward (whiten m.1.dataMean m.1.dataVar x)).1) x =
      t.val x data - isoNormLogpdf (m.1.latent x) (fun _ => 0) 1 + m.1.base.logProb (m.1.latent x) := by
    intro x; simp only [misfit, RealNVP.logProb, RealNVP.latent]; ring
  have hf : FlowSamples P sig env m q m.1.logProb := by
    refine ⟨fun ω m k n => ?_, fun k _ n => ?_, fun k _ n => ?_, fun ω => hl ω m⟩
    · rw [hs, RealNVP.sample, List.length_map, m.2]
    · simp only [hs]; exact h3.meas k n
    · simp only [hs]; exact h3.law k n
  have mq : Measurable fun x => (m.1.forward (whiten m.1.dataMean m.1.dataVar x)).2 + m.1.base.logProb (m.1.forward (whiten m.1.dataMean m.1.dataVar x)).1 :=
    (hT.ldMeas.comp mW).add (hb.logProb_meas.comp mz)
  have := C73_sweep_rows h m q m.1.logProb _ ml mq hf h2 batch hbatch t hn data ht (by rw [funext e]; exact hfin) X hX ε hε
  rw [funext e] at this
  exact this

/-- A standard normal target. -/
def stdTarget (d : ℕ) : Target ℝ D d where
  val x _ := isoNormLogpdf x (fun _ => 0) 1
  grad x _ := fun i => -x i

/-- **C73 (instance).** RealNVP without layers, base `Gaussian(μ, L Lᵀ)` and a standard normal target: every proposal is accepted and the global sampler converges to the base distribution
instead of the target. -/
theorem C73_realNVP_samples_base {env : Ω → Env ℝ D d (RealNVPModel d) O} (h : IdealDraws past sig P env)
    (hs : ∀ ω m k n, (env ω).ops.sample m k n = m.1.sample (env ω).rng k n) (hl : ∀ ω m, (env ω).ops.logProb m = m.1.logProb)
    (dr : MLPDraws) (nHidden : ℕ) (k₀ : Key) (mean : Pos ℝ d) {L : Matrix (Fin d) (Fin d) ℝ} (hL : CholeskyFactor L)
    (batch : ℕ) (hbatch : 0 < batch) (data : Data D) (X : Ω → Pos ℝ d) (hX : Measurable[past] X) (ε : ℝ) (hε : 0 < ε) :
    ∃ N, ∀ (n : ℕ) (k : Key), ∃ rows : Ω → List (StepOut ℝ d),
      (∀ ω, groupSample (env ω) ⟨RealNVP.init dr d 0 nHidden k₀ (some (gaussian mean L)) none none, fun rng k n => by simp [RealNVP.init, gaussian]⟩ batch (stdTarget d) data n k (X ω) = .ok (rows ω) ∧ (rows ω).length = n) ∧
      ∀ j, N ≤ j → j < n → ∃ Y : Ω → Pos ℝ d, (∀ ω, ((rows ω)[j]?).map (·.pos) = some (Y ω)) ∧ Measurable Y ∧
        CloseInLaw P Y ((stdNormal d).map fun z a => mean a + L.mulVec z a) ε := by
  set m : RealNVPModel d := ⟨RealNVP.init dr d 0 nHidden k₀ (some (gaussian mean L)) none none, fun rng k n => by simp [RealNVP.init, gaussian]⟩ with hmdef
  have hb : ConsistentBase P sig env m.1.base := C46_gaussian h mean hL
  have hW : ∀ z : Pos ℝ d, whiten (fun _ => 0) (fun _ => 1) z = z := by intro z; funext a; simp [whiten]
  have hlat : ∀ x, m.1.latent x = x := by
    intro x
    simp [RealNVP.latent, hmdef, RealNVP.init, RealNVP.forward, scan, hW]
  have e : ∀ x, (stdTarget d).val x data - isoNormLogpdf (m.1.latent x) (fun _ => 0) 1 + m.1.base.logProb (m.1.latent x) = (gaussian mean L).logProb x := by
    intro x; rw [hlat]; simp [stdTarget, hmdef, RealNVP.init]
  have hprob := hb.normalised
  have hprob' : IsProbabilityMeasure (targetMeasure (gaussian mean L).logProb) := hprob
  have := C73_realNVP h hs hl m (by simp [hmdef, RealNVP.init]) (by intro i; simp [hmdef, RealNVP.init]) hb batch hbatch (stdTarget d) (fun _ _ _ _ => rfl) data (measurable_isoNorm _ _)
    (by rw [funext e]; exact measure_ne_top _ _) X hX ε hε
  rw [funext e, normalised, measure_univ, inv_one, one_smul, ← gaussian_density mean hL] at this
  exact this

end

/-! ### non-vacuity -/

namespace Ideal
open Classical

/-- Non-vacuity of C73: the flow samples `N(0, I)` in two dimensions but reports the log-density `-(x₀² + x₁²)/4`; for the standard normal target the chains converge to a normal
distribution with variance 2/3, from every start. -/
example (μ : Measure (Pos ℝ 2)) [IsProbabilityMeasure μ] :
    TVConverges (fun n => (stepLaw ((stdNormal 2).prod unif) fun ω x => (nfBody ω.2 ⟨x, target.val x ⟨(), none⟩, -(x 0 ^ 2 + x 1 ^ 2) / 4⟩ (ω.1, target.val ω.1 ⟨(), none⟩, -(ω.1 0 ^ 2 + ω.1 1 ^ 2) / 4)).2.pos)^[n] μ)
      (normalised (targetMeasure fun x : Pos ℝ 2 => -(x 0 ^ 2 + x 1 ^ 2) * (3 / 4))) := by
  have e : ∀ x : Pos ℝ 2, misfit (fun x => target.val x ⟨(), none⟩) (fun x => -(x 0 ^ 2 + x 1 ^ 2) / 4) (fun x => -(x 0 ^ 2 + x 1 ^ 2) / 2) x = -(x 0 ^ 2 + x 1 ^ 2) * (3 / 4) := by
    intro x; simp only [misfit, target]; ring
  have hfin : targetMeasure (fun x : Pos ℝ 2 => -(x 0 ^ 2 + x 1 ^ 2) / 2) Set.univ ≠ ∞ := by
    obtain ⟨Z, hZ⟩ := Toy.normal_samplesFrom
    intro h
    have h1 : (stdNormal 2) Set.univ = 1 := measure_univ
    rw [hZ, Measure.smul_apply, smul_eq_mul, h] at h1
    by_cases h0 : Z = 0
    · simp [h0] at h1
    · rw [ENNReal.mul_top h0] at h1; simp at h1
  have := C73_flow target ⟨(), none⟩ (by simp only [target]; fun_prop) (fun x => -(x 0 ^ 2 + x 1 ^ 2) / 4) (fun x => -(x 0 ^ 2 + x 1 ^ 2) / 2) (by fun_prop) (by fun_prop) (stdNormal 2) Toy.normal_samplesFrom
    (by
      rw [funext e]
      refine ne_top_of_le_ne_top (b := targetMeasure (fun x : Pos ℝ 2 => -(x 0 ^ 2 + x 1 ^ 2) / 2) Set.univ) hfin ?_
      simp only [targetMeasure, withDensity_apply _ MeasurableSet.univ]
      refine lintegral_mono fun x => ENNReal.ofReal_le_ofReal (Real.exp_le_exp.2 ?_)
      nlinarith [sq_nonneg (x 0), sq_nonneg (x 1)]) μ
  rw [funext e] at this
  exact this

end Ideal
end FlowMC
