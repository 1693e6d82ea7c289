import Verif.Props.ConvergeRun
import Verif.Spec.Misfit
/-
C73: what flow proposals sample when the flow's `log_prob` is not the log-density of its samples.
-/
open MeasureTheory ProbabilityTheory Filter
open scoped ENNReal
set_option linter.unusedSectionVars false
namespace FlowMC
open Spec

variable {D M O : Type} {d : ℕ}

theorem flowStep_misfit (t : Target ℝ D d) (data : Data D) (lnf lq : Pos ℝ d → ℝ) :
    flowStep t data lnf = flowStep { t with val := fun x dat => misfit (fun x => t.val x dat) lnf lq x } data lq := by
  funext w x
  have e : ((t.val w.1 data - lnf w.1 + lq w.1) - (t.val x data - lnf x + lq x)) - (lq w.1 - lq x) = (t.val w.1 data - t.val x data) - (lnf w.1 - lnf x) := by ring
  simp only [flowStep, nfBody, misfit, e]

theorem misfit_measurable {lp lnf lq : Pos ℝ d → ℝ} (h1 : Measurable lp) (h2 : Measurable lnf) (h3 : Measurable lq) : Measurable (misfit lp lnf lq) := (h1.sub h2).add h3

/-- **C73.** A flow whose samples have log-density `lq` (up to a constant) but whose `log_prob` is `lnf`: chains of flow proposals converge in total variation, from every
start, to the distribution with log-density `target − lnf + lq` (up to a constant), if that function has a finite integral. -/
theorem C73_flow (t : Target ℝ D d) (data : Data D) (ht : Measurable (fun x => t.val x data)) (lnf lq : Pos ℝ d → ℝ) (hl : Measurable lnf) (hlq : Measurable lq)
    (q : Measure (Pos ℝ d)) [IsProbabilityMeasure q] (hq : SamplesFrom q lq)
    (hfin : targetMeasure (misfit (fun x => t.val x data) lnf lq) Set.univ ≠ ∞) (μ : Measure (Pos ℝ d)) [IsProbabilityMeasure μ] :
    TVConverges (fun n => (stepLaw (q.prod unif) fun ω x => (nfBody ω.2 ⟨x, t.val x data, lnf x⟩ (ω.1, t.val ω.1 data, lnf ω.1)).2.pos)^[n] μ)
      (normalised (targetMeasure (misfit (fun x => t.val x data) lnf lq))) := by
  have h := C70_flow { t with val := fun x dat => misfit (fun x => t.val x dat) lnf lq x } data (misfit_measurable ht hl hlq) lq hlq q hq hfin μ
  have e := flowStep_misfit t data lnf lq
  unfold flowStep at e
  rw [e]
  exact h

theorem tv_unique {X : Type} [MeasurableSpace X] {law : ℕ → Measure X} {π π' : Measure X} [IsProbabilityMeasure π] [IsProbabilityMeasure π'] (h : TVConverges law π) (h' : TVConverges law π') : π = π' := by
  ext A hA
  have e : π.real A = π'.real A := by
    by_contra hne
    have hpos : 0 < |π.real A - π'.real A| / 3 := by have := abs_pos.2 (sub_ne_zero.2 hne); linarith
    obtain ⟨N, hN⟩ := h _ hpos
    obtain ⟨N', hN'⟩ := h' _ hpos
    have h1 := hN (max N N') (le_max_left _ _) A hA
    have h2 := hN' (max N N') (le_max_right _ _) A hA
    have h3 : |π.real A - π'.real A| ≤ |π.real A - (law (max N N')).real A| + |(law (max N N')).real A - π'.real A| := abs_sub_le _ _ _
    rw [abs_sub_comm] at h1
    linarith
  rwa [measureReal_def, measureReal_def, ENNReal.toReal_eq_toReal_iff' (measure_ne_top _ _) (measure_ne_top _ _)] at e

theorem normalised_eq_iff {a b : Pos ℝ d → ℝ} (ha : Measurable a) (hb : Measurable b) (hfa : targetMeasure a Set.univ ≠ ∞) (hfb : targetMeasure b Set.univ ≠ ∞) :
    normalised (targetMeasure a) = normalised (targetMeasure b) ↔ ∃ c : ℝ, ∀ᵐ x, a x = b x + c := by
  have ha0 := targetMeasure_ne_zero a ha
  have hb0 := targetMeasure_ne_zero b hb
  constructor
  · intro h
    rw [normalised, normalised, targetMeasure, targetMeasure, ← withDensity_smul _ (by fun_prop), ← withDensity_smul _ (by fun_prop)] at h
    have hA : ∫⁻ x, ENNReal.ofReal (Real.exp (a x)) ≠ ∞ := by simpa [targetMeasure, withDensity_apply _ MeasurableSet.univ] using hfa
    rw [withDensity_eq_iff (((by fun_prop : Measurable fun x => ENNReal.ofReal (Real.exp (a x))).const_smul _).aemeasurable)
      (((by fun_prop : Measurable fun x => ENNReal.ofReal (Real.exp (b x))).const_smul _).aemeasurable)
      (by
        simp only [Pi.smul_apply, smul_eq_mul]
        rw [lintegral_const_mul _ (by fun_prop)]
        refine ENNReal.mul_ne_top ?_ hA
        have := ha0
        rw [targetMeasure] at this
        exact ENNReal.inv_ne_top.2 this)] at h
    have hA' : (0 : ℝ) < ((targetMeasure a Set.univ)⁻¹).toReal := ENNReal.toReal_pos (ENNReal.inv_ne_zero.2 hfa) (ENNReal.inv_ne_top.2 ha0)
    have hB' : (0 : ℝ) < ((targetMeasure b Set.univ)⁻¹).toReal := ENNReal.toReal_pos (ENNReal.inv_ne_zero.2 hfb) (ENNReal.inv_ne_top.2 hb0)
    refine ⟨Real.log ((targetMeasure b Set.univ)⁻¹).toReal - Real.log ((targetMeasure a Set.univ)⁻¹).toReal, ?_⟩
    filter_upwards [h] with x hx
    have hx' : (targetMeasure a Set.univ)⁻¹ * ENNReal.ofReal (Real.exp (a x)) = (targetMeasure b Set.univ)⁻¹ * ENNReal.ofReal (Real.exp (b x)) := hx
    have := congrArg ENNReal.toReal hx'
    rw [ENNReal.toReal_mul, ENNReal.toReal_mul, ENNReal.toReal_ofReal (Real.exp_pos _).le, ENNReal.toReal_ofReal (Real.exp_pos _).le] at this
    have e := congrArg Real.log this
    rw [Real.log_mul hA'.ne' (Real.exp_ne_zero _), Real.log_mul hB'.ne' (Real.exp_ne_zero _), Real.log_exp, Real.log_exp] at e
    linarith
  · rintro ⟨c, hc⟩
    have e : targetMeasure a = ENNReal.ofReal (Real.exp c) • targetMeasure b := by
      rw [targetMeasure, targetMeasure, ← withDensity_smul _ (by fun_prop)]
      refine withDensity_congr_ae ?_
      filter_upwards [hc] with x hx
      rw [hx, Pi.smul_apply, smul_eq_mul, ← ENNReal.ofReal_mul (Real.exp_pos _).le, ← Real.exp_add, add_comm]
    have h0 : ENNReal.ofReal (Real.exp c) ≠ 0 := by simp [Real.exp_pos]
    rw [normalised, normalised, e, Measure.smul_apply, smul_eq_mul, smul_smul, ENNReal.mul_inv (Or.inl h0) (Or.inl ENNReal.ofReal_ne_top), mul_assoc, mul_comm _ (ENNReal.ofReal _), ← mul_assoc,
      ENNReal.inv_mul_cancel h0 ENNReal.ofReal_ne_top, one_mul]

theorem misfit_eq_iff {lp lnf lq : Pos ℝ d → ℝ} : (∃ c : ℝ, ∀ᵐ x, misfit lp lnf lq x = lp x + c) ↔ ∃ c : ℝ, ∀ᵐ x, lnf x = lq x + c := by
  constructor <;> rintro ⟨c, hc⟩ <;> refine ⟨-c, ?_⟩ <;> filter_upwards [hc] with x hx <;> simp only [misfit] at * <;> linarith

section
variable (t : Target ℝ D d) (data : Data D) (ht : Measurable (fun x => t.val x data)) (lnf lq : Pos ℝ d → ℝ) (hl : Measurable lnf) (hlq : Measurable lq)
  (q : Measure (Pos ℝ d)) [IsProbabilityMeasure q] (hq : SamplesFrom q lq) (hfin : targetMeasure (fun x => t.val x data) Set.univ ≠ ∞)
  (hfin' : targetMeasure (misfit (fun x => t.val x data) lnf lq) Set.univ ≠ ∞)
include ht hl hlq hq hfin hfin'

/-- **C73**, exactly when flow proposals are correct: from any given start, chains of flow proposals converge to the target if and only if `log_prob` is, almost everywhere and up to
a constant, the log-density of the flow's samples. -/
theorem C73_correct_iff (μ : Measure (Pos ℝ d)) [IsProbabilityMeasure μ] :
    TVConverges (fun n => (stepLaw (q.prod unif) fun ω x => (nfBody ω.2 ⟨x, t.val x data, lnf x⟩ (ω.1, t.val ω.1 data, lnf ω.1)).2.pos)^[n] μ) (normalised (targetMeasure fun x => t.val x data)) ↔
      ∃ c : ℝ, ∀ᵐ x, lnf x = lq x + c := by
  have hmm := misfit_measurable ht hl hlq
  haveI := normalised_isProb _ ht hfin
  haveI := normalised_isProb _ hmm hfin'
  have h := C73_flow t data ht lnf lq hl hlq q hq hfin' μ
  rw [← misfit_eq_iff (lp := fun x => t.val x data), ← normalised_eq_iff hmm ht hfin' hfin]
  exact ⟨fun h' => tv_unique h h', fun e => e ▸ h⟩

/-- **C73**, whole loops: start exactly from the target, take `L` steps of any local kernel that leaves the target invariant and then `G ≥ 1` flow proposals; the result has the target
distribution if and only if `log_prob` is, almost everywhere and up to a constant, the log-density of the flow's samples.  A correct local sampler does not repair a wrong `log_prob`. -/
theorem C73_loop_iff {Ω : Type} [MeasurableSpace Ω] (ν : Measure Ω) [IsProbabilityMeasure ν] (step : Ω → Pos ℝ d → Pos ℝ d)
    (hinv : Invariant (normalised (targetMeasure fun x => t.val x data)) ν step) (L G : ℕ) (hG : 0 < G) :
    (stepLaw (q.prod unif) fun ω x => (nfBody ω.2 ⟨x, t.val x data, lnf x⟩ (ω.1, t.val ω.1 data, lnf ω.1)).2.pos)^[G] ((stepLaw ν step)^[L] (normalised (targetMeasure fun x => t.val x data))) =
      normalised (targetMeasure fun x => t.val x data) ↔ ∃ c : ℝ, ∀ᵐ x, lnf x = lq x + c := by
  haveI := normalised_isProb _ ht hfin
  have hL : (stepLaw ν step)^[L] (normalised (targetMeasure fun x => t.val x data)) = normalised (targetMeasure fun x => t.val x data) := Function.iterate_fixed (f := stepLaw ν step) hinv L
  rw [hL, ← C73_correct_iff t data ht lnf lq hl hlq q hq hfin hfin' (normalised (targetMeasure fun x => t.val x data))]
  set Q := (stepLaw (q.prod unif) fun ω x => (nfBody ω.2 ⟨x, t.val x data, lnf x⟩ (ω.1, t.val ω.1 data, lnf ω.1)).2.pos) with hQ
  set π := normalised (targetMeasure fun x => t.val x data) with hπ
  have hconv := C73_flow t data ht lnf lq hl hlq q hq hfin' π
  rw [← hQ] at hconv
  haveI := normalised_isProb _ (misfit_measurable ht hl hlq) hfin'
  constructor
  · intro h
    have e : π = normalised (targetMeasure (misfit (fun x => t.val x data) lnf lq)) := by
      refine tv_unique (law := fun n => (Q^[G])^[n] π) ?_ ?_
      · intro ε hε
        refine ⟨0, fun n _ A _ => ?_⟩
        simp only [Function.iterate_fixed h n, sub_self, abs_zero]
        exact hε.le
      · intro ε hε
        obtain ⟨N, hN⟩ := hconv ε hε
        refine ⟨N, fun n hn A hA => ?_⟩
        have := hN (G * n) (le_trans hn (Nat.le_mul_of_pos_left n hG)) A hA
        simpa only [Function.iterate_mul] using this
    rw [← e] at hconv
    exact hconv
  · intro h
    have e := tv_unique hconv h
    have h1 : ∃ c : ℝ, ∀ᵐ x, lnf x = lq x + c := (C73_correct_iff t data ht lnf lq hl hlq q hq hfin hfin' π).1 h
    have hs : SamplesFrom q lnf := by
      obtain ⟨c, hc⟩ := h1
      obtain ⟨Z, hZ⟩ := hq
      refine ⟨Z * ENNReal.ofReal (Real.exp (-c)), ?_⟩
      rw [hZ, mul_smul]
      congr 1
      rw [targetMeasure, targetMeasure, ← withDensity_smul _ (by fun_prop)]
      refine withDensity_congr_ae ?_
      filter_upwards [hc] with x hx
      rw [Pi.smul_apply, smul_eq_mul, hx, ← ENNReal.ofReal_mul (Real.exp_pos _).le, ← Real.exp_add]
      ring_nf
    have hf := (flow_mhData t data ht lnf hl q hs).reversible
    have hfix : Q π = π := hf.invariant (flow_mhData t data ht lnf hl q hs).meas
    exact Function.iterate_fixed hfix G
end

theorem flowBatches_congr {ops ops' : FlowOps ℝ d M O} (hs : ops.sample = ops'.sample) (m : M) (nS n : ℕ) (k : Key) : flowBatches ops m nS n k = flowBatches ops' m nS n k := by
  induction n generalizing k with
  | zero => rfl
  | succ n ih => simp only [flowBatches, hs, ih]

/-- The proposals do not depend on `log_prob`. -/
theorem flowProposal_congr {ops ops' : FlowOps ℝ d M O} (hs : ops.sample = ops'.sample) (m : M) (batch : ℕ) (k : Key) (n i : ℕ) : flowProposal ops m batch k n i = flowProposal ops' m batch k n i := by
  have e : (sampleFlow ops m batch k n).map (·.1) = (sampleFlow ops' m batch k n).map (·.1) := by
    unfold sampleFlow
    rw [hs]
    split <;> simp [List.map_take, List.map_flatten, Function.comp_def, flowBatches_congr hs]
  rw [flowProposal, flowProposal, e]

variable {Ω : Type} {past : MeasurableSpace Ω} {sig : Key → MeasurableSpace Ω} [mΩ : MeasurableSpace Ω] {P : Measure Ω} [IsProbabilityMeasure P] {env : Ω → Env ℝ D d M O}

/-- **C73 (rows).** The rows of a sweep of flow proposals (`TakeGroupSteps`, any batch size, any start): from the `N`-th on they have, up to `ε`, the distribution with log-density
`target − log_prob + lq`. -/
theorem C73_sweep_rows (h : IdealDraws past sig P env) (m : M) (q : Measure (Pos ℝ d)) [IsProbabilityMeasure q] (lnf lq : Pos ℝ d → ℝ) (hlnf : Measurable lnf) (hlq : Measurable lq)
    (hf : FlowSamples P sig env m q lnf) (hq : SamplesFrom q lq) (batch : ℕ) (hb : 0 < batch) (t : Target ℝ D d) (hn : IgnoresNSteps t) (data : Data D)
    (ht : Measurable (fun x => t.val x data)) (hfin : targetMeasure (misfit (fun x => t.val x data) lnf lq) Set.univ ≠ ∞) (X : Ω → Pos ℝ d) (hX : Measurable[past] X) (ε : ℝ) (hε : 0 < ε) :
    ∃ N, ∀ (n : ℕ) (k : Key), ∃ rows : Ω → List (StepOut ℝ d), (∀ ω, groupSample (env ω) m batch t data n k (X ω) = .ok (rows ω) ∧ (rows ω).length = n) ∧
      ∀ j, N ≤ j → j < n → ∃ Y : Ω → Pos ℝ d, (∀ ω, ((rows ω)[j]?).map (·.pos) = some (Y ω)) ∧ Measurable Y ∧
        CloseInLaw P Y (normalised (targetMeasure (misfit (fun x => t.val x data) lnf lq))) ε := by
  -- the same world with the honest `log_prob`
  let env' : Ω → Env ℝ D d M O := fun ω => { env ω with ops := { (env ω).ops with logProb := fun _ => lq } }
  have h' : IdealDraws past sig P env' := ⟨h.past_le, h.sig_le, h.indep, h.normal_meas, h.normal_law, h.uniform_meas, h.uniform_law⟩
  have hf' : IdealFlow P sig env' m q lq := ⟨fun ω => hf.lawful ω, hf.rows_meas, hf.rows_law, fun _ => rfl, hq⟩
  have hX' : Measurable[mΩ] X := hX.mono (le_trans (past_le_info (past := past) (sig := sig) (S := {none}) (by simp)) (h.info_le _)) le_rfl
  haveI : IsProbabilityMeasure (P.map X) := Measure.isProbabilityMeasure_map hX'.aemeasurable
  obtain ⟨N, hN⟩ := tv_near (C73_flow t data ht lnf lq hlnf hlq q hq hfin (P.map X)) hε
  refine ⟨N, fun n k => ?_⟩
  have hS : Disjoint ({none} : Set (Option Key)) (descSet k) := by
    rw [Set.disjoint_left]; rintro o ho ⟨a, rfl, _⟩; simp at ho
  choose rows hrows using fun ω => group_sweep (env ω) (hf.lawful ω) m batch hb t hn data n k (X ω)
  refine ⟨rows, fun ω => ⟨(hrows ω).1, (hrows ω).2.1⟩, ?_⟩
  intro j hj hjn
  have := sweep_iter h' m q lq hf' batch hb _ (flowStep_measurable t data lnf ht hlnf) _ n k (fun _ _ => trivial) {none} hS X (hX.mono (past_le_info (by simp)) le_rfl) rfl (j + 1) hjn
  have e : ∀ ω i, flowProposal (env' ω).ops m batch (.child k 1) n i = flowProposal (env ω).ops m batch (.child k 1) n i := by
    intro ω i; exact flowProposal_congr (ops := (env' ω).ops) (ops' := (env ω).ops) rfl m batch _ n i
  simp only [e] at this
  have hY := this.2.mono (h.info_le _) le_rfl
  refine ⟨_, fun ω => ?_, hY, closeInLaw_of_near hY ?_⟩
  · rw [(hrows ω).2.2 j hjn, hf.logProb ω]
  · rw [this.1]; exact hN (j + 1) (by omega)

end FlowMC
