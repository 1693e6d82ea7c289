import Verif.Lemmas.Adaptive
import Verif.Props.Extend
/-
C83: the adaptive run.  The flow used in production is the outcome of training — random, with any distribution.
-/
open MeasureTheory ProbabilityTheory Filter
open scoped ENNReal Topology
set_option linter.unusedSectionVars false
namespace FlowMC
open Spec

/-- The outcomes, as far as they can be distinguished by `past`. -/
def PastOf {Ω : Type} (_ : MeasurableSpace Ω) : Type := Ω

instance {Ω : Type} (past : MeasurableSpace Ω) : MeasurableSpace (PastOf past) := past

/-- An outcome, as far as it can be distinguished by `past`. -/
def toPast {Ω : Type} (past : MeasurableSpace Ω) (ω : Ω) : PastOf past := ω

theorem toPast_measurable {Ω : Type} (past : MeasurableSpace Ω) : Measurable[past] (toPast past) := fun _ h => h

variable {Ω D M O V Z : Type} {d : ℕ}
variable {past : MeasurableSpace Ω} {sig : Key → MeasurableSpace Ω} [mΩ : MeasurableSpace Ω] {P : Measure Ω} [IsProbabilityMeasure P] {env : Ω → Env ℝ D d M O} {T : Key → Prop}
  [MeasurableSpace M] [MeasurableSpace Z] {ν : Measure Z} {push : M → Z → Pos ℝ d} {lnf : M → Pos ℝ d → ℝ} {G : Set M} [BufNum ℝ]

/-- What is assumed about the target, the configuration and the possible flows in C83. -/
structure Spec.AdaptiveBundle (T : Key → Prop) (P : Measure Ω) (sig : Key → MeasurableSpace Ω) (env : Ω → Env ℝ D d M O) (c : BundleCfg ℝ D d M O) (data : Data D)
    (ν : Measure Z) (push : M → Z → Pos ℝ d) (lnf : M → Pos ℝ d → ℝ) (G : Set M) : Prop where
  /-- positive step counts and batch size, thinnings dividing the step counts -/
  good : GoodCfg c
  step : c.stepSize ≠ 0
  meas : Measurable (fun x => c.logpdf.val x data)
  gradMeas : Measurable (fun x => c.logpdf.grad x data)
  ignores : IgnoresNSteps c.logpdf
  /-- the target density has a finite integral -/
  finite : targetMeasure (fun x => c.logpdf.val x data) Set.univ ≠ ∞
  /-- every flow in `G` has a `log_prob` that is, up to a constant, the log-density of its samples -/
  flows : FlowFamily T P sig env ν push lnf G

/-- Distribution of a row after the steps `hist` when the flow is `m` and the start `x`. -/
noncomputable def fixedLaw (c : BundleCfg ℝ D d M O) (data : Data D) (ν : Measure Z) (push : M → Z → Pos ℝ d) (lnf : M → Pos ℝ d → ℝ) (hist : List Bool) (m : M) (x : Pos ℝ d) : Measure (Pos ℝ d) :=
  histLaw (stepLaw (noise d) (localStep (.mala c.stepSize : KernelRes ℝ d M) c.logpdf data)) (stepLaw ((ν.map (push m)).prod unif) (flowStep c.logpdf data (lnf m))) hist (Measure.dirac x)

/-- Probability of an event about a row and what happened before, through the chain with the flow fixed. -/
theorem row_prob (h : IdealOn T past sig P env) (c : BundleCfg ℝ D d M O) (data : Data D) (ht : Measurable (fun x => c.logpdf.val x data)) (hg : Measurable (fun x => c.logpdf.grad x data))
    (hf : FlowFamily T P sig env ν push lnf G) (m : Ω → M) (hm : Measurable[past] m) (X Y : Ω → Pos ℝ d) (hX : Measurable[past] X) (hY : Measurable Y) (hist : List Bool)
    (hlaw : P.map (fun ω => (toPast past ω, Y ω)) = histLaw (stepLaw (noise d) (onSndAt fun _ : PastOf past => localStep (.mala c.stepSize : KernelRes ℝ d M) c.logpdf data))
      (stepLaw (ν.prod unif) (onSndAt (pushStep c.logpdf data push lnf (fun ω : PastOf past => m ω)))) hist (P.map fun ω => (toPast past ω, X ω)))
    (E : Set (PastOf past × Pos ℝ d)) (hE : MeasurableSet E) :
    (Measurable fun ω => (fixedLaw c data ν push lnf hist (m ω) (X ω)).real {y | (toPast past ω, y) ∈ E}) ∧
    P.real {ω | (toPast past ω, Y ω) ∈ E} = ∫ ω, (fixedLaw c data ν push lnf hist (m ω) (X ω)).real {y | (toPast past ω, y) ∈ E} ∂P := by
  haveI := hf.prob
  haveI : IsProbabilityMeasure (noise d) := by unfold noise; infer_instance
  have hle := h.past_le
  have hid : Measurable (toPast past) := (toPast_measurable past).mono hle le_rfl
  have hXm : Measurable X := hX.mono hle le_rfl
  have hXY : Measurable fun ω : Ω => (toPast past ω, Y ω) := hid.prodMk hY
  have hXX : Measurable fun ω : Ω => (toPast past ω, X ω) := hid.prodMk hXm
  haveI : IsProbabilityMeasure (P.map fun ω : Ω => (toPast past ω, X ω)) := Measure.isProbabilityMeasure_map hXX.aemeasurable
  have h1 : Measurable fun p : (PastOf past × Pos ℝ d) × ((Fin d → ℝ) × ℝ) => localStep (.mala c.stepSize : KernelRes ℝ d M) c.logpdf data p.2 p.1.2 :=
    (localStep_measurable (.mala c.stepSize : KernelRes ℝ d M) c.logpdf data ht hg).comp ((measurable_snd.comp measurable_fst).prodMk measurable_snd)
  have h2 := pushStep_measurable c.logpdf data ht hf.pushMeas hf.lnfMeas (fun ω : PastOf past => m ω) hm
  obtain ⟨e1, e2⟩ := prob_onSndAt (ν1 := noise d) (ν2 := ν.prod unif) (s1 := fun _ : PastOf past => localStep (.mala c.stepSize : KernelRes ℝ d M) c.logpdf data) h1 h2 hist
    (P.map fun ω : Ω => (toPast past ω, X ω)) E hE
  have hps : ∀ p : PastOf past × Pos ℝ d, (histLaw (stepLaw (noise d) (localStep (.mala c.stepSize : KernelRes ℝ d M) c.logpdf data))
      (stepLaw (ν.prod unif) (pushStep c.logpdf data push lnf (fun ω : PastOf past => m ω) p.1)) hist (Measure.dirac p.2)) =
      fixedLaw c data ν push lnf hist (m p.1) p.2 := fun p =>
    histLaw_push c data ht hg hf (fun ω : PastOf past => m ω) p.1 hist (Measure.dirac p.2)
  simp only [hps] at e1 e2
  have e3 := Measurable.comp e1 hXX
  refine ⟨e3, ?_⟩
  rw [← hlaw, measureReal_def, Measure.map_apply hXY hE, integral_map hXX.aemeasurable e1.aestronglyMeasurable] at e2
  exact e2

/-- A product with the sections of an event. -/
theorem section_measurable (π : Measure (Pos ℝ d)) [IsProbabilityMeasure π] (E : Set (PastOf past × Pos ℝ d)) (hE : MeasurableSet E) : Measurable[past] fun ω => π.real {y | (toPast past ω, y) ∈ E} :=
  (measurable_measure_prodMk_left hE).ennreal_toReal

/-- One chain of production, with any past: its rows, in terms of the number of loops after which the chain with the flow fixed is near the target. -/
theorem row_fresh (hTc : ∀ a, T a → ∀ b, Desc a b → T b) (h : IdealOn T past sig P env) (c : BundleCfg ℝ D d M O) (data : Data D) (hE : AdaptiveBundle T P sig env c data ν push lnf G)
    (m : Ω → M) (hm : Measurable[past] m) (hG : ∀ ω, m ω ∈ G) (X : Ω → Pos ℝ d) (hX : Measurable[past] X) (ε : ℝ) (Nω : Ω → ℕ) (N0 : ℕ)
    (hN0 : ∀ φ a : Ω → ℝ, Measurable φ → Measurable a → (∀ ω, 0 ≤ φ ω ∧ φ ω ≤ 1) → (∀ ω, 0 ≤ a ω ∧ a ω ≤ 1) → (∀ ω, Nω ω ≤ N0 → |φ ω - a ω| ≤ ε / 2) → |∫ ω, φ ω ∂P - ∫ ω, a ω ∂P| ≤ ε)
    (hNω : ∀ ω l, Nω ω ≤ l → ∀ pre : List Bool, Near (fixedLaw c data ν push lnf (pre ++ loopsSteps c l) (m ω) (X ω)) (normalised (targetMeasure fun x => c.logpdf.val x data)) (ε / 2))
    {k : Key} {logs : Ω → Bool → List (Block ℝ d)} {n : ℕ} {w : ℕ → Ω → World ℝ D d M O} {zs : ℕ → Ω → List (Pos ℝ d)} {b1 b2 : ℕ → Ω → Block ℝ d}
    (R : ProdRun env c data m k logs n w zs b1 b2) (i : ℕ) (hT : ∀ l, T (.child (.child (carryKey k l) 1) i)) (hstart : ∀ ω, (w 0 ω).xs[i]? = some (X ω))
    (l : ℕ) (hl : l < n) (r : ℕ) (hr : r < rowsPerCall c true + rowsPerCall c false) :
    ∃ Y : Ω → Pos ℝ d, (∀ ω, rowCell c b1 b2 i l r ω = some (Y ω)) ∧ Measurable[info past sig (prodSet k (l + 1))] Y ∧
      (N0 ≤ l → FreshInLaw past P Y (normalised (targetMeasure fun x => c.logpdf.val x data)) ε) := by
  haveI := hE.flows.prob
  haveI := normalised_isProb _ hE.meas hE.finite
  haveI : IsProbabilityMeasure (noise d) := by unfold noise; infer_instance
  have hpm : ∀ ω, Measurable (push (m ω)) := fun ω => hE.flows.pushMeas.comp (measurable_const.prodMk measurable_id)
  have hlm : ∀ ω, Measurable (lnf (m ω)) := fun ω => hE.flows.lnfMeas.comp (measurable_const.prodMk measurable_id)
  haveI : ∀ ω, IsProbabilityMeasure (ν.map (push (m ω))) := fun ω => Measure.isProbabilityMeasure_map (hpm ω).aemeasurable
  have hid := toPast_measurable past
  have law := family_rowLawsOn hTc h c hE.good data hE.meas hE.gradMeas hE.ignores hE.flows (fun ω : PastOf past => m ω) hm (toPast past) hG (P.map fun ω => (toPast past ω, X ω))
  have rows := (R.lawsOn law 0 [] i hT ⟨hid.mono (past_le_info (by simp [prodSet])) le_rfl, X, hstart, hX.mono (past_le_info (by simp [prodSet])) le_rfl, rfl⟩).2 l (by rw [Nat.zero_add]; exact hl) r hr
  rw [List.append_nil, Nat.zero_add] at rows
  obtain ⟨-, Y, hY, hYm, hYl⟩ := rows
  have hYm' : Measurable Y := hYm.mono (h.info_le _) le_rfl
  refine ⟨Y, hY, hYm, fun hNl E hEm => ?_⟩
  obtain ⟨p1, p2⟩ := row_prob h c data hE.meas hE.gradMeas hE.flows m hm X Y hX hYm' _ hYl E hEm
  have h1 := localStep_measurable (.mala c.stepSize : KernelRes ℝ d M) c.logpdf data hE.meas hE.gradMeas
  have h2 := fun ω => flowStep_measurable c.logpdf data (lnf (m ω)) hE.meas (hlm ω)
  refine (congrArg (fun t => |t - _|) p2).trans_le (hN0 _ _ p1 ((section_measurable _ E hEm).mono h.past_le le_rfl) (fun ω => ?_) (fun ω => ⟨measureReal_nonneg, measureReal_le_one⟩) (fun ω hω => ?_))
  · haveI := histLaw_prob (ν1 := noise d) (ν2 := (ν.map (push (m ω))).prod unif) h1 (h2 ω) (rowPre c r ++ loopsSteps c l) (Measure.dirac (X ω))
    exact ⟨measureReal_nonneg, measureReal_le_one (μ := histLaw _ _ _ _)⟩
  · exact hNω ω l (hω.trans hNl) (rowPre c r) _ (measurable_prodMk_left hEm)

/-- A point that is fresh with respect to the past has its law. -/
theorem close_of_fresh {Y : Ω → Pos ℝ d} {π : Measure (Pos ℝ d)} [IsProbabilityMeasure π] {ε : ℝ} (hF : FreshInLaw past P Y π ε) : CloseInLaw P Y π ε := by
  intro A hA
  have := hF {p | p.2 ∈ A} (@measurable_snd Ω (Pos ℝ d) past _ _ hA)
  simpa using this

/-- The number of loops needed, and what it means. -/
theorem loops_needed (c : BundleCfg ℝ D d M O) (data : Data D) (hE : AdaptiveBundle T P sig env c data ν push lnf G) (m : Ω → M) (hG : ∀ ω, m ω ∈ G) (X : ℕ → Ω → Pos ℝ d) (ε : ℝ) (hε : 0 < ε) :
    ∃ (Nω : Ω → ℕ) (N0 : ℕ), (∀ φ a : Ω → ℝ, Measurable φ → Measurable a → (∀ ω, 0 ≤ φ ω ∧ φ ω ≤ 1) → (∀ ω, 0 ≤ a ω ∧ a ω ≤ 1) → (∀ ω, Nω ω ≤ N0 → |φ ω - a ω| ≤ ε / 2) →
        |∫ ω, φ ω ∂P - ∫ ω, a ω ∂P| ≤ ε) ∧
      ∀ (n : ℕ), ∀ i < c.nChains, ∀ ω l, Nω ω ≤ l → ∀ pre : List Bool,
        Near (fixedLaw (c.withProd n) data ν push lnf (pre ++ loopsSteps (c.withProd n) l) (m ω) (X i ω)) (normalised (targetMeasure fun x => c.logpdf.val x data)) (ε / 2) := by
  haveI := hE.flows.prob
  have hpm : ∀ ω, Measurable (push (m ω)) := fun ω => hE.flows.pushMeas.comp (measurable_const.prodMk measurable_id)
  have hlm : ∀ ω, Measurable (lnf (m ω)) := fun ω => hE.flows.lnfMeas.comp (measurable_const.prodMk measurable_id)
  haveI : ∀ ω, IsProbabilityMeasure (ν.map (push (m ω))) := fun ω => Measure.isProbabilityMeasure_map (hpm ω).aemeasurable
  choose Nω hNω using fun ω => cycles_near c data hE.step hE.meas hE.gradMeas hE.finite (ν.map (push (m ω))) (lnf (m ω)) (hlm ω) (hE.flows.density _ (hG ω)) c.nChains
    (fun i => Measure.dirac (X i ω)) (fun i => inferInstance) (ε / 2) (by linarith)
  obtain ⟨N0, hN0⟩ := mean_near_of_pointwise' (P := P) Nω (ε := ε / 2) (by linarith)
  refine ⟨Nω, N0, fun φ a h1 h2 h3 h4 h5 => (hN0 φ a h1 h2 h3 h4 h5).trans (by linarith), fun n i hi ω l hl pre => ?_⟩
  rw [loopsSteps_withProd]
  exact hNω ω i hi l hl pre

theorem Spec.AdaptiveBundle.withProd {c : BundleCfg ℝ D d M O} {data : Data D} (hE : AdaptiveBundle T P sig env c data ν push lnf G) (n : ℕ) :
    AdaptiveBundle T P sig env (c.withProd n) data ν push lnf G :=
  ⟨goodCfg_withProd hE.good n, hE.step, hE.meas, hE.gradMeas, hE.ignores, hE.finite, hE.flows⟩

/-- **C83 (production phase).** A run of `RQSpline_MALA_Bundle` in an ideal random world.  Suppose that when training is over (`w ω`) the random key is `k`, the flow in the global sampler is `m ω` and chain `i`
is at `X i ω`, where the flow and the positions are *any* functions of what happened before — the flow is whatever training produced, with any distribution over a family of flows whose `log_prob` is the log-density of
their samples up to a constant.  Then for every `ε` there is an `N`, which does not depend on the number of production loops, such that every cell (chain `i`, step `j ≥ N`) of the production position buffer has the
normalised target distribution up to `ε`, and is up to `ε` independent of everything that happened before production: the adaptation leaves no bias. -/
theorem C83_production (k : Key) (h : IdealOn (Desc k) past sig P env) (c : BundleCfg ℝ D d M O) (data : Data D) (hE : AdaptiveBundle (Desc k) P sig env c data ν push lnf G)
    (m : Ω → M) (hm : Measurable[past] m) (hG : ∀ ω, m ω ∈ G) (X : ℕ → Ω → Pos ℝ d) (hX : ∀ i < c.nChains, Measurable[past] (X i)) (ε : ℝ) (hε : 0 < ε) :
    ∃ N, ∀ (n : ℕ) (key : Ω → Key) (xs : Ω → List (Pos ℝ d)) (w w' : Ω → World ℝ D d M O), (∀ ω, (xs ω).length = c.nChains) →
      (∀ ω, Completes (env ω) (malaBundle (c.withProd n)).strategies.lookup data (repeatPhase c.nTrainLoops trainingPhase ++ ["reset_steppers", "update_state"])
        ⟨key ω, xs ω, ⟨(malaBundle (c.withProd n)).resources, fun _ => 0⟩⟩ (w ω)) →
      (∀ ω, (w ω).key = k) → (∀ ω, (w ω).heap.res "global_sampler" = some (.kernel (.nf (m ω) c.nfBatch))) → (∀ ω, ∀ i < c.nChains, (w ω).xs[i]? = some (X i ω)) →
      (∀ ω, Completes (env ω) (malaBundle (c.withProd n)).strategies.lookup data (repeatPhase n productionPhase) (w ω) (w' ω)) →
      ∀ i < c.nChains, ∀ j < (c.withProd n).nProdSteps, N ≤ j → ∃ Y : Ω → Pos ℝ d, Measurable Y ∧
        CloseInLaw P Y (normalised (targetMeasure fun x => c.logpdf.val x data)) ε ∧ FreshInLaw past P Y (normalised (targetMeasure fun x => c.logpdf.val x data)) ε ∧
        ∀ ω, ∃ b, (w' ω).heap.res "positions_production" = some (.buffer b) ∧ ∀ a : Fin d, b.data.get [i, j, a] = Y ω a := by
  haveI := normalised_isProb _ hE.meas hE.finite
  obtain ⟨Nω, N0, hN0, hNω⟩ := loops_needed (P := P) c data hE m hG X ε hε
  refine ⟨N0 * (rowsPerCall c true + rowsPerCall c false), fun n key xs w w' hx htrain hkey hflow hstart hprod i hi j hj hNj => ?_⟩
  have hc' := goodCfg_withProd hE.good n
  obtain ⟨logs, v, zs, b1, b2, e0, en, R⟩ := production_run hc' hE.flows.lawful w w' (fun ω => production_start (env ω) (hE.flows.lawful ω) (c.withProd n) hc' data (key ω) (xs ω) (hx ω) (w ω) (htrain ω)) hkey hflow hprod
  have hcap : (c.withProd n).nProdSteps = n * (rowsPerCall c true + rowsPerCall c false) := capacity_eq (c.withProd n) true
  have hpos := rowsPerCall_pos hE.good true
  have hl : j / (rowsPerCall c true + rowsPerCall c false) < n := Nat.div_lt_of_lt_mul (by rw [mul_comm, ← hcap]; exact hj)
  obtain ⟨Y, hY, hYm, hF⟩ := row_fresh (fun _ ha _ => desc_trans ha) h (c.withProd n) data (hE.withProd n) m hm hG (X i) (hX i hi) ε Nω N0 hN0 (hNω n i hi) R i
    (fun l => .child i (.child 1 (desc_carryKey k l))) (fun ω => by rw [e0]; exact hstart ω i hi) _ hl (j % (rowsPerCall c true + rowsPerCall c false)) (Nat.mod_lt _ (by show 0 < rowsPerCall c true + rowsPerCall c false; omega))
  have fresh := hF ((Nat.le_div_iff_mul_le (by omega)).2 hNj)
  refine ⟨Y, hYm.mono (h.info_le _) le_rfl, close_of_fresh fresh, fresh, fun ω => ?_⟩
  obtain ⟨b, hb, hcell⟩ := R.buffer ω
  exact ⟨b, by rw [← en]; exact hb, hcell i hi j hj (Y ω) (hY ω)⟩

/-- **C83 (the whole run).** A call of `sample` with the MALA bundle, in an ideal random world, flow and positions at the end of training being random in any way.  `w` is what training (and the switch
to production) leaves behind — the flow `m` in the global sampler, the positions `X i` of the chains — and it does not depend on the number of production loops asked for (C85).  For every `ε > 0` there is
`N` such that in a run with any number `n` of production loops, every row from the `N`-th on of every chain in the production buffer is within `ε` of the target in law, and up to `ε` independent of everything
that happened before production: the data the flow was trained on, its shuffles, the flow itself, the initial positions. -/
theorem C83_sample (h : IdealDraws past sig P env) (c : BundleCfg ℝ D d M O) (hn : 0 < c.nChains) (hb : 0 < c.batchSize) (hfin : ∀ x : ℝ, BufNum.isFinite x = true) (data : Data D)
    (hB : AdaptiveBundle (fun _ => True) P sig env c data ν push lnf G) (key : Key) (init : Ω → InitPos ℝ d) (hx : ∀ ω, (init ω).atleast2d.length = c.nChains) (w : Ω → World ℝ D d M O)
    (hw : ∀ ω, Completes (env ω) (malaBundle c).strategies.lookup data (repeatPhase c.nTrainLoops trainingPhase ++ ["reset_steppers", "update_state"])
      ⟨key, (init ω).atleast2d, ⟨(malaBundle c).resources, fun _ => 0⟩⟩ (w ω))
    (m : Ω → M) (hm : Measurable[before past sig (trainedKey c.nTrainLoops c.nEpochs key)] m) (hG : ∀ ω, m ω ∈ G) (hflow : ∀ ω, (w ω).heap.res "global_sampler" = some (.kernel (.nf (m ω) c.nfBatch)))
    (X : ℕ → Ω → Pos ℝ d) (hX : ∀ i < c.nChains, Measurable[before past sig (trainedKey c.nTrainLoops c.nEpochs key)] (X i)) (hstart : ∀ ω, ∀ i < c.nChains, (w ω).xs[i]? = some (X i ω))
    (ε : ℝ) (hε : 0 < ε) :
    ∃ N, ∀ (n nd nc : ℕ) (kw : List (String × V)) (s : Sampler ℝ D d M O V), Sampler.new nd nc key none none none (some (malaBundle (c.withProd n))) kw = .ok s →
      ∃ s' : Ω → Sampler ℝ D d M O V, (∀ ω, s.sample (env ω) (init ω) data = (.ok (), s' ω)) ∧
        ∀ i < c.nChains, ∀ j < (c.withProd n).nProdSteps, N ≤ j → ∃ Y : Ω → Pos ℝ d, Measurable Y ∧
          CloseInLaw P Y (normalised (targetMeasure fun x => c.logpdf.val x data)) ε ∧
          FreshInLaw (before past sig (trainedKey c.nTrainLoops c.nEpochs key)) P Y (normalised (targetMeasure fun x => c.logpdf.val x data)) ε ∧
          ∀ ω, ∃ b, (s' ω).heap.res "positions_production" = some (.buffer b) ∧ ∀ a : Fin d, b.data.get [i, j, a] = Y ω a := by
  set k := trainedKey c.nTrainLoops c.nEpochs key with hk
  have hI := idealOn_before h k (fun _ _ => trivial)
  have hE : AdaptiveBundle (Desc k) P (after sig k) env c data ν push lnf G :=
    ⟨hB.good, hB.step, hB.meas, hB.gradMeas, hB.ignores, hB.finite, flowFamily_before k (fun _ _ => trivial) hB.flows⟩
  obtain ⟨N, hN⟩ := C83_production k hI c data hE m hm hG X hX ε hε
  refine ⟨N, fun n nd nc kw s hs => ?_⟩
  simp only [Sampler.new, Except.ok.injEq] at hs
  subst hs
  have hl : ∀ ω, (env ω).ops.Lawful := hB.flows.lawful
  have hSt : ∀ ω, StaysIn (env ω) (c.withProd n) data (fun _ => True) := fun ω => ⟨fun _ _ _ _ _ => trivial, fun _ _ _ _ _ _ _ _ => trivial, fun x _ i => hfin _⟩
  choose v w' h1 h2 using fun ω => bundle_total (env ω) (hl ω) (c.withProd n) (goodCfg_withProd hB.good n) data hn hb _ (hSt ω) key (init ω).atleast2d (hx ω) (fun _ _ => trivial)
  have h3 : ∀ ω, Completes (env ω) (bundleStrategies (c.withProd n)).lookup data (bundleOrder (c.withProd n)) ⟨key, (init ω).atleast2d, ⟨bundleResources (c.withProd n), fun _ => 0⟩⟩ (w' ω) := fun ω => by
    rw [bundleOrder, completes_append]; exact ⟨v ω, h1 ω, h2 ω⟩
  have h4 := fun ω => completes_sample (h3 ω)
  have hsample : ∀ ω, Sampler.sample (V := V) (env ω) ⟨nd, nc, key, ⟨bundleResources (c.withProd n), fun _ => 0⟩, (bundleStrategies (c.withProd n)).lookup, some (bundleOrder (c.withProd n)),
      setAttrs kw (fun _ => none)⟩ (init ω) data =
      (.ok (), ⟨nd, nc, key, (w' ω).heap, (bundleStrategies (c.withProd n)).lookup, some (bundleOrder (c.withProd n)), setAttrs kw (fun _ => none)⟩) := by
    intro ω
    simp only [Sampler.sample]
    rw [h4 ω]
  have hsame : ∀ ω, (v ω).heap.res "global_sampler" = (w ω).heap.res "global_sampler" ∧ (v ω).xs = (w ω).xs := by
    intro ω
    have := C85_training (env ω) none c n data key (init ω).atleast2d
    simp only [libraryBundle, trainingOrder] at this
    rw [completes_sample (hw ω)] at this
    have e : runOrder (env ω) (malaBundle (c.withProd n)).strategies.lookup (repeatPhase c.nTrainLoops trainingPhase ++ ["reset_steppers", "update_state"]) key (init ω).atleast2d data
        ⟨(malaBundle (c.withProd n)).resources, fun _ => 0⟩ = (.ok ((v ω).key, (v ω).xs), (v ω).heap) := completes_sample (h1 ω)
    have this2 : SameOutcome notProduction (Except.ok ((w ω).key, (w ω).xs), (w ω).heap) (runOrder (env ω) (malaBundle (c.withProd n)).strategies.lookup
      (repeatPhase c.nTrainLoops trainingPhase ++ ["reset_steppers", "update_state"]) key (init ω).atleast2d data ⟨(malaBundle (c.withProd n)).resources, fun _ => 0⟩) := this
    rw [e] at this2
    obtain ⟨a, b⟩ := this2
    simp only [Except.ok.injEq, Prod.mk.injEq] at a
    exact ⟨(b.1 _ (by simp [notProduction])).symm, a.2.symm⟩
  refine ⟨_, hsample, ?_⟩
  exact hN n (fun _ => key) (fun ω => (init ω).atleast2d) v w' hx h1 (fun ω => switch_key (env ω) (c.withProd n) data _ _ _ (h1 ω)) (fun ω => by rw [(hsame ω).1]; exact hflow ω)
    (fun ω i hi => by rw [(hsame ω).2]; exact hstart ω i hi) h2

end FlowMC
