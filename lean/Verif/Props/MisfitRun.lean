import Verif.Props.ConvergeRun
import Verif.Props.Misfit
/-
C73 for whole runs: the production phase of the bundle leaves the target law alone exactly when the flow's `log_prob` is the log-density of its samples.
-/
open MeasureTheory ProbabilityTheory
open scoped ENNReal
set_option linter.unusedSectionVars false
namespace FlowMC
open Spec

variable {Ω D M O V : Type} {d : ℕ}
variable {past : MeasurableSpace Ω} {sig : Key → MeasurableSpace Ω} [mΩ : MeasurableSpace Ω] {P : Measure Ω} [IsProbabilityMeasure P] {env : Ω → Env ℝ D d M O} {T : Key → Prop}
variable [BufNum ℝ]

/-- Laws of the rows of production loops when nothing is assumed about `log_prob`. -/
theorem misfit_rowLaws (k : Key) (h : IdealOn (Desc k) past sig P env) (c : BundleCfg ℝ D d M O) (hc : GoodCfg c) (data : Data D) (m : M)
    (ht : Measurable (fun x => c.logpdf.val x data)) (hg : Measurable (fun x => c.logpdf.grad x data)) (hig : IgnoresNSteps c.logpdf)
    (q : Measure (Pos ℝ d)) [IsProbabilityMeasure q] (lnf lq : Pos ℝ d → ℝ) (hlnf : Measurable lnf) (hf : FlowSamplesOn (Desc k) P sig env m q lnf) (hq : SamplesFrom q lq)
    (starts : Set (Measure (Pos ℝ d))) :
    RowLaws (fun hist S f => ∃ μ ∈ starts, KnownLaw past sig P S (histLaw (stepLaw (noise d) (localStep (.mala c.stepSize : KernelRes ℝ d M) c.logpdf data))
      (stepLaw (q.prod unif) (flowStep c.logpdf data lnf)) hist μ) f) env c data (fun _ => m) k := by
  -- the same world with the honest `log_prob`
  let env' : Ω → Env ℝ D d M O := fun ω => { env ω with ops := { (env ω).ops with logProb := fun _ => lq } }
  have h' : IdealOn (Desc k) past sig P env' := ⟨h.past_le, h.sig_le, h.indep, h.normal_meas, h.normal_law, h.uniform_meas, h.uniform_law⟩
  have hf' : IdealFlowOn (Desc k) P sig env' m q lq := ⟨fun ω => hf.lawful ω, hf.rows_meas, hf.rows_law, fun _ => rfl, hq⟩
  refine ⟨?_, ?_, hc, fun ω => hf.lawful ω, ?_, ?_⟩
  · rintro hist S S' f hS ⟨μ, hμ, hk⟩; exact ⟨μ, hμ, hk.mono hS⟩
  · rintro hist S f ⟨μ, hμ, hk⟩; exact ⟨hk.choose, hk.choose_spec.1⟩
  · rintro a ha hist S hS X ⟨μ, hμ, X', hX', hXm, hXl⟩ j hj
    obtain rfl : X' = X := funext fun ω => (Option.some.inj (hX' ω)).symm
    obtain ⟨h1, h2⟩ := serial_iter h (.mala c.stepSize : KernelRes ℝ d M) (fun ω k x lp t data => malaKernel (env ω).rng c.stepSize k x lp t data) (fun _ => rfl) c.logpdf data ht hg _ (j + 1) a
      (fun _ => desc_trans ha) S hS X' hXm hXl
    refine ⟨μ, hμ, _, fun ω => serialSample_state _ c.logpdf data c.nLocal a (X' ω) (j + 1) hj, h2, ?_⟩
    rw [h1, histLaw_append, histLaw_local]
  · rintro a ha hist S hS X ⟨μ, hμ, X', hX', hXm, hXl⟩ rows hrows j hj
    obtain rfl : X' = X := funext fun ω => (Option.some.inj (hX' ω)).symm
    haveI : IsProbabilityMeasure (P.map X') := Measure.isProbabilityMeasure_map (hXm.mono (h.info_le _) le_rfl).aemeasurable
    have this := sweep_iter h' m q lq hf' c.nfBatch hc.nfBatch _ (flowStep_measurable c.logpdf data lnf ht hlnf) _ c.nGlobal a (fun _ => desc_trans ha) S hS X' hXm rfl (j + 1) hj
    have e : ∀ ω i, flowProposal (env' ω).ops m c.nfBatch (.child a 1) c.nGlobal i = flowProposal (env ω).ops m c.nfBatch (.child a 1) c.nGlobal i := by
      intro ω i; exact flowProposal_congr (ops := (env' ω).ops) (ops' := (env ω).ops) rfl m c.nfBatch _ c.nGlobal i
    simp only [e] at this
    obtain ⟨h1, h2⟩ := this
    refine ⟨μ, hμ, _, fun ω => ?_, h2, ?_⟩
    · obtain ⟨r, e, -, hr⟩ := group_sweep (env ω) (hf.lawful ω) m c.nfBatch hc.nfBatch c.logpdf hig data c.nGlobal a (X' ω)
      rw [hrows ω, Except.ok.injEq] at e
      show ((rows ω)[j]?).map (·.pos) = some _
      rw [e, hr j hj, hf.logProb ω]
    · rw [h1, hXl, histLaw_append, histLaw_global]

/-- **C73 (production phase).** A run of `RQSpline_MALA_Bundle` in an ideal random world, with at least one chain and one production loop.  When training is over every chain has exactly the normalised target
distribution; the flow in the global sampler draws samples with log-density `lq` (up to a constant) and reports `lnf` as its `log_prob`.  All production rows have exactly the target distribution if and only if
`lnf` and `lq` agree almost everywhere up to a constant. -/
theorem C73_production_iff (k : Key) (h : IdealOn (Desc k) past sig P env) (c : BundleCfg ℝ D d M O) (hc : GoodCfg c) (hstep : c.stepSize ≠ 0) (hch : 0 < c.nChains) (hloop : 0 < c.nProdLoops) (data : Data D) (m : M)
    (ht : Measurable (fun x => c.logpdf.val x data)) (hg : Measurable (fun x => c.logpdf.grad x data)) (hig : IgnoresNSteps c.logpdf)
    (hfin : targetMeasure (fun x => c.logpdf.val x data) Set.univ ≠ ∞)
    (q : Measure (Pos ℝ d)) [IsProbabilityMeasure q] (lnf lq : Pos ℝ d → ℝ) (hlnf : Measurable lnf) (hlq : Measurable lq) (hf : FlowSamplesOn (Desc k) P sig env m q lnf) (hq : SamplesFrom q lq)
    (hfin' : targetMeasure (misfit (fun x => c.logpdf.val x data) lnf lq) Set.univ ≠ ∞)
    (key : Ω → Key) (xs : Ω → List (Pos ℝ d)) (hx : ∀ ω, (xs ω).length = c.nChains) (w w' : Ω → World ℝ D d M O)
    (htrain : ∀ ω, Completes (env ω) (malaBundle c).strategies.lookup data (repeatPhase c.nTrainLoops trainingPhase ++ ["reset_steppers", "update_state"])
      ⟨key ω, xs ω, ⟨(malaBundle c).resources, fun _ => 0⟩⟩ (w ω))
    (hkey : ∀ ω, (w ω).key = k) (hflow : ∀ ω, (w ω).heap.res "global_sampler" = some (.kernel (.nf m c.nfBatch)))
    (hstart : ∀ i < c.nChains, ∃ X : Ω → Pos ℝ d, (∀ ω, (w ω).xs[i]? = some (X ω)) ∧ Measurable[past] X ∧ P.map X = normalised (targetMeasure fun x => c.logpdf.val x data))
    (hprod : ∀ ω, Completes (env ω) (malaBundle c).strategies.lookup data (repeatPhase c.nProdLoops productionPhase) (w ω) (w' ω)) :
    (∀ i < c.nChains, ∀ j < c.nProdSteps, ∃ Y : Ω → Pos ℝ d, Measurable Y ∧ P.map Y = normalised (targetMeasure fun x => c.logpdf.val x data) ∧
      ∀ ω, ∃ b, (w' ω).heap.res "positions_production" = some (.buffer b) ∧ ∀ a : Fin d, b.data.get [i, j, a] = Y ω a) ↔ ∃ c : ℝ, ∀ᵐ x, lnf x = lq x + c := by
  haveI := normalised_isProb _ ht hfin
  haveI : IsProbabilityMeasure (noise d) := by unfold noise; infer_instance
  constructor
  · intro hall
    obtain ⟨logs, v, zs, b1, b2, e0, en, R⟩ := production_run hc (fun ω => hf.lawful ω) w w'
      (fun ω => production_start (env ω) (hf.lawful ω) c hc data (key ω) (xs ω) (hx ω) (w ω) (htrain ω)) hkey hflow hprod
    obtain ⟨X, hX, hXm, hXl⟩ := hstart 0 hch
    have law := misfit_rowLaws k h c hc data m ht hg hig q lnf lq hlnf hf hq {normalised (targetMeasure fun x => c.logpdf.val x data)}
    have hcap : c.nProdSteps = c.nProdLoops * (rowsPerCall c true + rowsPerCall c false) := capacity_eq c true
    have hp1 := rowsPerCall_pos hc true
    have hp2 := rowsPerCall_pos hc false
    have hj : rowsPerCall c true < c.nProdSteps := by
      rw [hcap]
      exact lt_of_lt_of_le (by omega) (Nat.le_mul_of_pos_left _ hloop)
    have rows := (R.laws law 0 [] 0 ⟨_, rfl, X, fun ω => by rw [e0]; exact hX ω, hXm.mono (past_le_info (by simp [prodSet])) le_rfl, hXl⟩).2 0 hloop (rowsPerCall c true) (by omega)
    obtain ⟨μ, hμ, Y, hY, hYm, hYl⟩ := rows
    obtain rfl : μ = _ := hμ
    obtain ⟨Y', hYm', hYl', hcells'⟩ := hall 0 hch _ hj
    have e : Y' = Y := by
      funext ω
      obtain ⟨b, hb, hcell⟩ := R.buffer ω
      obtain ⟨b', hb', hc'⟩ := hcells' ω
      rw [← en] at hb'
      rw [hb, Option.some.injEq, Resource.buffer.injEq] at hb'
      subst hb'
      funext a
      have hdiv : rowsPerCall c true / (rowsPerCall c true + rowsPerCall c false) = 0 := Nat.div_eq_of_lt (by omega)
      have hmod : rowsPerCall c true % (rowsPerCall c true + rowsPerCall c false) = rowsPerCall c true := Nat.mod_eq_of_lt (by omega)
      rw [← hc' a]
      exact hcell 0 hch _ hj (Y ω) (by rw [hdiv, hmod]; exact hY ω) a
    rw [← e, hYl'] at hYl
    refine (C73_loop_iff c.logpdf data ht lnf lq hlnf hlq q hq hfin hfin' (noise d) (localStep (.mala c.stepSize : KernelRes ℝ d M) c.logpdf data) ?_
      ((rowsPerCall c true - 1) * c.localThin + 1) 1 one_pos).1 ?_
    · exact (mala_mhData c.stepSize hstep c.logpdf data ht hg).reversible.invariant (mala_mhData c.stepSize hstep c.logpdf data ht hg).meas
    · have e2 : rowPre c (rowsPerCall c true) ++ (loopsSteps c 0 ++ []) = [false] ++ List.replicate ((rowsPerCall c true - 1) * c.localThin + 1) true := by simp [rowPre, loopsSteps]
      rw [e2, histLaw_append, histLaw_local] at hYl
      exact hYl.symm
  · rintro ⟨r, hr⟩
    have hs : SamplesFrom q lnf := by
      obtain ⟨Z, hZ⟩ := hq
      refine ⟨Z * ENNReal.ofReal (Real.exp (-r)), ?_⟩
      rw [hZ, mul_smul]
      congr 1
      rw [targetMeasure, targetMeasure, ← withDensity_smul _ (by fun_prop)]
      refine withDensity_congr_ae ?_
      filter_upwards [hr] with x hx
      rw [Pi.smul_apply, smul_eq_mul, hx, ← ENNReal.ofReal_mul (Real.exp_pos _).le, ← Real.exp_add]
      ring_nf
    exact (C63_production k h c data m (normalised (targetMeasure fun x => c.logpdf.val x data)) ⟨hc, hstep, ht, hg, hig, ⟨_, rfl⟩, q, lnf, inferInstance, hlnf, hf.lawful, hf.rows_meas, hf.rows_law, hf.logProb, hs⟩ key xs hx w w' htrain hkey hflow hstart hprod).1

end FlowMC
