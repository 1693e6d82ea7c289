import Verif.Props.Doeblin
import Verif.Props.MisfitRun
/-
C93: a small error of the flow's `log_prob` costs a small, explicitly bounded bias.
-/
open MeasureTheory ProbabilityTheory
open scoped ENNReal
set_option linter.unusedSectionVars false
namespace FlowMC
open Spec

section
variable {X : Type} [MeasurableSpace X]

theorem Near.trans {μ π π' : Measure X} {ε τ : ℝ} (h : Near μ π ε) (h' : Near π π' τ) : Near μ π' (ε + τ) := by
  intro A hA
  have := abs_sub_le (μ.real A) (π.real A) (π'.real A)
  have h1 := h A hA; have h2 := h' A hA
  linarith

theorem Near.symm {μ π : Measure X} {ε : ℝ} (h : Near μ π ε) : Near π μ ε := fun A hA => by rw [abs_sub_comm]; exact h A hA

/-- Local steps do not expand; a flow proposal contracts up to an error. -/
theorem histLaw_bias {loc glob : Measure X → Measure X} {π : Measure X} [IsProbabilityMeasure π] {ρ B : ℝ} (hB : 0 ≤ B)
    (hl : ∀ μ ε, IsProbabilityMeasure μ → IsProbabilityMeasure (loc μ) ∧ (Near μ π ε → Near (loc μ) π ε))
    (hg : ∀ μ ε, IsProbabilityMeasure μ → IsProbabilityMeasure (glob μ) ∧ (Near μ π (ε + B) → Near (glob μ) π (ρ * ε + B))) (h : List Bool) (μ : Measure X) (hμ : IsProbabilityMeasure μ) :
    IsProbabilityMeasure (histLaw loc glob h μ) ∧ Near (histLaw loc glob h μ) π (ρ ^ h.count false + B) := by
  induction h with
  | nil => exact ⟨hμ, (near_one μ π).mono (by simpa using hB)⟩
  | cons b h ih =>
    cases b
    · refine ⟨(hg _ 1 ih.1).1, ?_⟩
      rw [List.count_cons_self, pow_succ, mul_comm]
      exact (hg _ _ ih.1).2 ih.2
    · refine ⟨(hl _ 1 ih.1).1, ?_⟩
      rw [List.count_cons_of_ne (by decide)]
      exact (hl _ _ ih.1).2 ih.2
end

variable {Ω D M O V : Type} {d : ℕ}

section
variable {lp lnf lq : Pos ℝ d → ℝ} (hp : Measurable lp) (hl : Measurable lnf) (hlq : Measurable lq) (hfin : targetMeasure lp Set.univ ≠ ∞) {r δ : ℝ} (hδ : ∀ x, |lnf x - lq x - r| ≤ δ)

include hδ in
theorem misfit_bounds (x : Pos ℝ d) : lp x + (-r - δ) ≤ misfit lp lnf lq x ∧ misfit lp lnf lq x ≤ lp x + (-r + δ) := by
  have := abs_le.1 (hδ x)
  unfold misfit
  constructor <;> linarith [this.1, this.2]

theorem targetMeasure_shift {lp : Pos ℝ d → ℝ} (hp : Measurable lp) (s : ℝ) (A : Set (Pos ℝ d)) : targetMeasure (fun x => lp x + s) A = ENNReal.ofReal (Real.exp s) * targetMeasure lp A := by
  have e : targetMeasure (fun x => lp x + s) = ENNReal.ofReal (Real.exp s) • targetMeasure lp := by
    rw [targetMeasure, targetMeasure, ← withDensity_smul _ (by fun_prop)]
    refine withDensity_congr_ae (ae_of_all _ fun x => ?_)
    rw [Pi.smul_apply, smul_eq_mul, ← ENNReal.ofReal_mul (Real.exp_pos _).le, ← Real.exp_add, add_comm]
  rw [e, Measure.smul_apply, smul_eq_mul]

theorem targetMeasure_mono {a b : Pos ℝ d → ℝ} (h : ∀ x, a x ≤ b x) (A : Set (Pos ℝ d)) : targetMeasure a A ≤ targetMeasure b A := by
  have : targetMeasure a ≤ targetMeasure b := withDensity_mono (ae_of_all _ fun x => ENNReal.ofReal_le_ofReal (Real.exp_le_exp.2 (h x)))
  exact this A

include hp hfin hδ in
theorem misfit_finite : targetMeasure (misfit lp lnf lq) Set.univ ≠ ∞ := by
  refine ne_top_of_le_ne_top ?_ (targetMeasure_mono (fun x => (misfit_bounds hδ x).2) Set.univ)
  rw [targetMeasure_shift hp]
  exact ENNReal.mul_ne_top ENNReal.ofReal_ne_top hfin

include hp hfin hδ in
theorem misfit_real_bounds (A : Set (Pos ℝ d)) : Real.exp (-r - δ) * (targetMeasure lp).real A ≤ (targetMeasure (misfit lp lnf lq)).real A ∧
    (targetMeasure (misfit lp lnf lq)).real A ≤ Real.exp (-r + δ) * (targetMeasure lp).real A := by
  have hA : targetMeasure lp A ≠ ∞ := ne_top_of_le_ne_top hfin (measure_mono (Set.subset_univ A))
  have hA' : targetMeasure (misfit lp lnf lq) A ≠ ∞ := ne_top_of_le_ne_top (misfit_finite hp hfin hδ) (measure_mono (Set.subset_univ A))
  have h1 := targetMeasure_mono (fun x => (misfit_bounds (lp := lp) hδ x).1) A
  have h2 := targetMeasure_mono (fun x => (misfit_bounds (lp := lp) hδ x).2) A
  rw [targetMeasure_shift hp] at h1 h2
  have h1' := ENNReal.toReal_mono hA' h1
  have h2' := ENNReal.toReal_mono (ENNReal.mul_ne_top ENNReal.ofReal_ne_top hA) h2
  rw [ENNReal.toReal_mul, ENNReal.toReal_ofReal (Real.exp_pos _).le] at h1' h2'
  exact ⟨h1', h2'⟩

include hp hl hlq hfin hδ in
/-- The two distributions differ by at most `1 - exp(-2δ)`. -/
theorem misfit_near : Near (normalised (targetMeasure (misfit lp lnf lq))) (normalised (targetMeasure lp)) (1 - Real.exp (-(2 * δ))) := by
  have hmm : Measurable (misfit lp lnf lq) := misfit_measurable hp hl hlq
  have hf' := misfit_finite hp hfin hδ
  haveI := normalised_isProb _ hp hfin
  haveI := normalised_isProb _ hmm hf'
  have hr : ∀ (a : Pos ℝ d → ℝ) (A : Set (Pos ℝ d)), (normalised (targetMeasure a)).real A = (targetMeasure a).real A / (targetMeasure a).real Set.univ := by
    intro a A
    rw [normalised, measureReal_def, Measure.smul_apply, smul_eq_mul, ENNReal.toReal_mul, ENNReal.toReal_inv, measureReal_def, measureReal_def, inv_mul_eq_div]
  have hZ := targetMeasure_real_pos _ hp hfin
  have hZ' := targetMeasure_real_pos _ hmm hf'
  set E := Real.exp (-(2 * δ)) with hE
  have hE0 : 0 < E := Real.exp_pos _
  -- each is at least E times the other
  have key1 : ∀ A, E * (normalised (targetMeasure lp)).real A ≤ (normalised (targetMeasure (misfit lp lnf lq))).real A := by
    intro A
    have hA := (misfit_real_bounds (lp := lp) hp hfin hδ A).1
    have hU := (misfit_real_bounds (lp := lp) hp hfin hδ Set.univ).2
    rw [hr, hr, ← mul_div_assoc, div_le_div_iff₀ hZ hZ']
    have e : E * Real.exp (-r + δ) = Real.exp (-r - δ) := by rw [hE, ← Real.exp_add]; ring_nf
    calc E * (targetMeasure lp).real A * (targetMeasure (misfit lp lnf lq)).real Set.univ
        ≤ E * (targetMeasure lp).real A * (Real.exp (-r + δ) * (targetMeasure lp).real Set.univ) := by gcongr
      _ = Real.exp (-r - δ) * (targetMeasure lp).real A * (targetMeasure lp).real Set.univ := by rw [← e]; ring
      _ ≤ _ := by gcongr
  have key2 : ∀ A, E * (normalised (targetMeasure (misfit lp lnf lq))).real A ≤ (normalised (targetMeasure lp)).real A := by
    intro A
    have hA := (misfit_real_bounds (lp := lp) hp hfin hδ A).2
    have hU := (misfit_real_bounds (lp := lp) hp hfin hδ Set.univ).1
    rw [hr, hr, ← mul_div_assoc, div_le_div_iff₀ hZ' hZ]
    have e : E * Real.exp (-r + δ) = Real.exp (-r - δ) := by rw [hE, ← Real.exp_add]; ring_nf
    calc E * (targetMeasure (misfit lp lnf lq)).real A * (targetMeasure lp).real Set.univ
        ≤ E * (Real.exp (-r + δ) * (targetMeasure lp).real A) * (targetMeasure lp).real Set.univ := by gcongr
      _ = (targetMeasure lp).real A * (Real.exp (-r - δ) * (targetMeasure lp).real Set.univ) := by rw [← e]; ring
      _ ≤ _ := by gcongr
  intro A _
  have h1 := key1 A; have h2 := key2 A
  have u1 := measureReal_le_one (μ := normalised (targetMeasure lp)) (s := A)
  have u2 := measureReal_le_one (μ := normalised (targetMeasure (misfit lp lnf lq))) (s := A)
  have hδ0 : 0 ≤ δ := le_trans (abs_nonneg _) (hδ 0)
  have hE1 : E ≤ 1 := by rw [hE, Real.exp_le_one_iff]; linarith
  rw [abs_le]
  constructor <;> nlinarith

include hp hfin hδ in
theorem misfit_cover {C : ℝ} (hC : 0 ≤ C) (hcov : ∀ x, density lp x ≤ C * density lq x) (x : Pos ℝ d) : density (misfit lp lnf lq) x ≤ C * Real.exp (2 * δ) * density lq x := by
  have hU := (misfit_real_bounds (lp := lp) hp hfin hδ Set.univ).1
  have hZ := targetMeasure_real_pos _ hp hfin
  have h1 : density (misfit lp lnf lq) x ≤ Real.exp (2 * δ) * density lp x := by
    unfold density
    calc _ ≤ Real.exp (lp x + (-r + δ)) / (Real.exp (-r - δ) * (targetMeasure lp).real Set.univ) := by
          have := (misfit_bounds (lp := lp) hδ x).2
          gcongr
      _ = _ := by
        rw [show lp x + (-r + δ) = 2 * δ + lp x + (-r - δ) by ring, Real.exp_add, Real.exp_add]
        have := Real.exp_pos (-r - δ)
        field_simp
  calc _ ≤ _ := h1
    _ ≤ Real.exp (2 * δ) * (C * density lq x) := by have := hcov x; gcongr
    _ = _ := by ring
end

/-- A flow proposal with a wrong `log_prob` contracts towards the target up to the bias. -/
theorem flow_bias (t : Target ℝ D d) (data : Data D) (ht : Measurable (fun x => t.val x data)) (lnf lq : Pos ℝ d → ℝ) (hl : Measurable lnf) (hlq : Measurable lq)
    (q : Measure (Pos ℝ d)) [IsProbabilityMeasure q] (hq : SamplesFrom q lq) (hfin' : targetMeasure (misfit (fun x => t.val x data) lnf lq) Set.univ ≠ ∞) (C : ℝ) (hC : 1 ≤ C)
    (hcov : ∀ x, density (misfit (fun x => t.val x data) lnf lq) x ≤ C * density lq x) (τ : ℝ)
    (hτ : Near (normalised (targetMeasure (misfit (fun x => t.val x data) lnf lq))) (normalised (targetMeasure fun x => t.val x data)) τ) (μ : Measure (Pos ℝ d)) (ε : ℝ) (hμ : IsProbabilityMeasure μ) :
    IsProbabilityMeasure (stepLaw (q.prod unif) (flowStep t data lnf) μ) ∧
    (Near μ (normalised (targetMeasure fun x => t.val x data)) (ε + (2 * C - 1) * τ) →
      Near (stepLaw (q.prod unif) (flowStep t data lnf) μ) (normalised (targetMeasure fun x => t.val x data)) ((1 - 1 / C) * ε + (2 * C - 1) * τ)) := by
  have hc := flow_contract { t with val := fun x dat => misfit (fun x => t.val x dat) lnf lq x } data (misfit_measurable ht hl hlq) lq hlq q hq hfin' C hC hcov μ
    (ε + (2 * C - 1) * τ + τ) hμ
  rw [← flowStep_misfit] at hc
  refine ⟨hc.1, fun h => ((hc.2 (h.trans hτ.symm)).trans hτ).mono (le_of_eq ?_)⟩
  have hCp : C ≠ 0 := by linarith
  field_simp; ring

/-- **C93**, sequences of steps: a flow whose samples have log-density `lq` and whose `log_prob` is `lnf`.  By C73 its proposals sample the distribution with log-density `misfit target lnf lq`.  Let all probabilities under
that distribution be within `τ` of those under the target, and let its density be at most `C` times that of the flow's samples.  Then from every start, after any sequence of steps of an exact local kernel
(`true`) and flow proposals (`false`, the most recent step first), all probabilities are within `(1 - 1/C)^(number of flow proposals) + (2C - 1) τ` of those under the target. -/
theorem C93_steps (kr : KernelRes ℝ d M) (hk : ExactSettings kr) (t : Target ℝ D d) (data : Data D) (ht : Measurable (fun x => t.val x data)) (hg : Measurable (fun x => t.grad x data))
    (lnf lq : Pos ℝ d → ℝ) (hl : Measurable lnf) (hlq : Measurable lq) (q : Measure (Pos ℝ d)) [IsProbabilityMeasure q] (hq : SamplesFrom q lq)
    (hfin : targetMeasure (fun x => t.val x data) Set.univ ≠ ∞) (hfin' : targetMeasure (misfit (fun x => t.val x data) lnf lq) Set.univ ≠ ∞) (C : ℝ) (hC : 1 ≤ C)
    (hcov : ∀ x, density (misfit (fun x => t.val x data) lnf lq) x ≤ C * density lq x) (τ : ℝ)
    (hτ : ∀ A, MeasurableSet A → |(normalised (targetMeasure (misfit (fun x => t.val x data) lnf lq))).real A - (normalised (targetMeasure fun x => t.val x data)).real A| ≤ τ)
    (μ : Measure (Pos ℝ d)) [IsProbabilityMeasure μ] (steps : List Bool) (A : Set (Pos ℝ d)) (hA : MeasurableSet A) :
    |(steps.foldr (fun b μ => bif b then stepLaw (noise d) (localStep kr t data) μ else stepLaw (q.prod unif) (flowStep t data lnf) μ) μ).real A -
      (normalised (targetMeasure fun x => t.val x data)).real A| ≤ (1 - 1 / C) ^ steps.count false + (2 * C - 1) * τ := by
  haveI := normalised_isProb _ ht hfin
  have hτ0 : 0 ≤ τ := le_trans (abs_nonneg _) (hτ ∅ MeasurableSet.empty)
  have := (histLaw_bias (mul_nonneg (by linarith) hτ0) (local_nonexpand kr hk t data ht hg hfin) (flow_bias t data ht lnf lq hl hlq q hq hfin' C hC hcov τ hτ) steps μ inferInstance).2 A hA
  have e : ∀ (h : List Bool), histLaw (stepLaw (noise d) (localStep kr t data)) (stepLaw (q.prod unif) (flowStep t data lnf)) h μ =
      h.foldr (fun b μ => bif b then stepLaw (noise d) (localStep kr t data) μ else stepLaw (q.prod unif) (flowStep t data lnf) μ) μ := by
    intro h
    induction h with
    | nil => rfl
    | cons b h ih => cases b <;> simp [histLaw, ih]
  rwa [e] at this

/-- **C93**, uniform errors: if `log_prob` is off by at most `δ` everywhere, up to a constant `r`, and the density of the target is at most `C` times that of the flow's samples, then the hypotheses of the other theorems
hold with the factor `C exp(2δ)` and `τ = 1 - exp(-2δ)`, and the bias `(2 C exp(2δ) - 1) τ` is at most `2 C (exp(2δ) - 1)`. -/
theorem C93_uniform (lp lnf lq : Pos ℝ d → ℝ) (hp : Measurable lp) (hl : Measurable lnf) (hlq : Measurable lq) (hfin : targetMeasure lp Set.univ ≠ ∞) (C : ℝ) (hC : 1 ≤ C)
    (hcov : ∀ x, density lp x ≤ C * density lq x) (r δ : ℝ) (hδ : ∀ x, |lnf x - lq x - r| ≤ δ) :
    targetMeasure (misfit lp lnf lq) Set.univ ≠ ∞ ∧ 1 ≤ C * Real.exp (2 * δ) ∧ (∀ x, density (misfit lp lnf lq) x ≤ C * Real.exp (2 * δ) * density lq x) ∧
    (∀ A, MeasurableSet A → |(normalised (targetMeasure (misfit lp lnf lq))).real A - (normalised (targetMeasure lp)).real A| ≤ 1 - Real.exp (-(2 * δ))) ∧
    (2 * (C * Real.exp (2 * δ)) - 1) * (1 - Real.exp (-(2 * δ))) ≤ 2 * C * (Real.exp (2 * δ) - 1) := by
  have hδ0 : 0 ≤ δ := le_trans (abs_nonneg _) (hδ 0)
  have hexp : 1 ≤ Real.exp (2 * δ) := Real.one_le_exp (by linarith)
  refine ⟨misfit_finite hp hfin hδ, one_le_mul_of_one_le_of_one_le hC hexp, misfit_cover hp hfin hδ (by linarith) hcov, misfit_near hp hl hlq hfin hδ, ?_⟩
  have he : Real.exp (-(2 * δ)) = 1 / Real.exp (2 * δ) := by rw [Real.exp_neg, one_div]
  rw [he]
  set E := Real.exp (2 * δ)
  have hE : 0 < E := Real.exp_pos _
  have e : (2 * (C * E) - 1) * (1 - 1 / E) = 2 * C * (E - 1) - (E - 1) / E := by field_simp
  rw [e]
  have : 0 ≤ (E - 1) / E := div_nonneg (by linarith) hE.le
  linarith

variable [BufNum ℝ]
variable {past : MeasurableSpace Ω} {sig : Key → MeasurableSpace Ω} [mΩ : MeasurableSpace Ω] {P : Measure Ω} [IsProbabilityMeasure P] {env : Ω → Env ℝ D d M O} {T : Key → Prop}

/-- **C93 (production phase).** A run of `RQSpline_MALA_Bundle` in an ideal random world.  When training is over (`w ω`) the key is `k` and the global sampler holds the flow `m`: its samples have log-density `lq`
(up to a constant), its `log_prob` is `lnf`; the distribution its proposals sample by C73 is covered by its samples up to the factor `C` and within `τ` of the target.  The positions of the chains are
anything determined by what happened before.  Then row `j` of the production position buffer has the target distribution up to `(1 - 1/C)^(G * loops) + (2C - 1) τ`: the first part dies out with the number of
completed loops, the second is the bias that a wrong `log_prob` leaves. -/
theorem C93_production (k : Key) (h : IdealOn (Desc k) past sig P env) (c : BundleCfg ℝ D d M O) (hc : GoodCfg c) (hstep : c.stepSize ≠ 0) (data : Data D) (m : M)
    (ht : Measurable (fun x => c.logpdf.val x data)) (hg : Measurable (fun x => c.logpdf.grad x data)) (hig : IgnoresNSteps c.logpdf)
    (hfin : targetMeasure (fun x => c.logpdf.val x data) Set.univ ≠ ∞)
    (q : Measure (Pos ℝ d)) [IsProbabilityMeasure q] (lnf lq : Pos ℝ d → ℝ) (hlnf : Measurable lnf) (hlq : Measurable lq) (hf : FlowSamplesOn (Desc k) P sig env m q lnf) (hq : SamplesFrom q lq)
    (hfin' : targetMeasure (misfit (fun x => c.logpdf.val x data) lnf lq) Set.univ ≠ ∞)
    (C : ℝ) (hC : 1 ≤ C) (hcov : ∀ x, density (misfit (fun x => c.logpdf.val x data) lnf lq) x ≤ C * density lq x) (τ : ℝ)
    (hτ : ∀ A, MeasurableSet A → |(normalised (targetMeasure (misfit (fun x => c.logpdf.val x data) lnf lq))).real A - (normalised (targetMeasure fun x => c.logpdf.val x data)).real A| ≤ τ)
    (key : Ω → Key) (xs : Ω → List (Pos ℝ d)) (hx : ∀ ω, (xs ω).length = c.nChains) (w w' : Ω → World ℝ D d M O)
    (htrain : ∀ ω, Completes (env ω) (malaBundle c).strategies.lookup data (repeatPhase c.nTrainLoops trainingPhase ++ ["reset_steppers", "update_state"])
      ⟨key ω, xs ω, ⟨(malaBundle c).resources, fun _ => 0⟩⟩ (w ω))
    (hkey : ∀ ω, (w ω).key = k) (hflow : ∀ ω, (w ω).heap.res "global_sampler" = some (.kernel (.nf m c.nfBatch)))
    (hstart : ∀ i < c.nChains, ∃ X : Ω → Pos ℝ d, (∀ ω, (w ω).xs[i]? = some (X ω)) ∧ Measurable[past] X)
    (hprod : ∀ ω, Completes (env ω) (malaBundle c).strategies.lookup data (repeatPhase c.nProdLoops productionPhase) (w ω) (w' ω)) :
    ∀ i < c.nChains, ∀ j < c.nProdSteps, ∃ Y : Ω → Pos ℝ d, Measurable Y ∧
      CloseInLaw P Y (normalised (targetMeasure fun x => c.logpdf.val x data))
        ((1 - 1 / C) ^ (((c.nGlobal / c.globalThin - 1) * c.globalThin + 1) * (j / (c.nLocal / c.localThin + c.nGlobal / c.globalThin))) + (2 * C - 1) * τ) ∧
      ∀ ω, ∃ b, (w' ω).heap.res "positions_production" = some (.buffer b) ∧ ∀ a : Fin d, b.data.get [i, j, a] = Y ω a := by
  haveI := normalised_isProb _ ht hfin
  have hτ0 : 0 ≤ τ := le_trans (abs_nonneg _) (hτ ∅ MeasurableSet.empty)
  obtain ⟨S', h1, -⟩ := production_cells (misfit_rowLaws k h c hc data m ht hg hig q lnf lq hlnf hf hq {ρ | IsProbabilityMeasure ρ}) w w'
    (fun ω => production_start (env ω) (hf.lawful ω) c hc data (key ω) (xs ω) (hx ω) (w ω) (htrain ω)) hkey hflow
    (fun i hi => by
      obtain ⟨X, h1, h2⟩ := hstart i hi
      have hX' : Measurable[mΩ] X := h2.mono (le_trans (past_le_info (past := past) (sig := sig) (S := {none}) (by simp)) (h.info_le _)) le_rfl
      exact ⟨P.map X, Measure.isProbabilityMeasure_map hX'.aemeasurable, X, h1, h2.mono (past_le_info (by simp)) le_rfl, rfl⟩) hprod
  intro i hi j hj
  obtain ⟨pre, Y, ⟨ρ, hρ, Y', hY', hm, hl⟩, hcell⟩ := h1 i hi j hj
  obtain rfl : Y' = Y := funext fun ω => (Option.some.inj (hY' ω)).symm
  refine ⟨Y', hm.mono (h.info_le _) le_rfl, closeInLaw_of_near (hm.mono (h.info_le _) le_rfl) ?_, hcell⟩
  rw [hl]
  refine (histLaw_bias (mul_nonneg (by linarith) hτ0) (local_nonexpand (.mala c.stepSize : KernelRes ℝ d M) hstep c.logpdf data ht hg hfin)
    (flow_bias c.logpdf data ht lnf lq hlnf hlq q hq hfin' C hC hcov τ hτ) _ ρ hρ).2.mono ?_
  refine add_le_add (pow_le_pow_of_le_one ?_ ?_ ?_) le_rfl
  · rw [sub_nonneg, div_le_one (by linarith)]; exact hC
  · have : 0 < 1 / C := by positivity
    linarith
  · rw [List.count_append, count_loopsSteps, mul_comm]
    exact Nat.le_add_left _ _

end FlowMC
