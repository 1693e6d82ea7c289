import Verif.Lemmas.WallMeas
/-
C90: adaptive runs on targets with hard boundaries.  The flow used in production is the outcome of training — random, with any distribution.
-/
open MeasureTheory ProbabilityTheory Filter
open scoped ENNReal Topology
set_option linter.unusedSectionVars false
namespace FlowMC
open Spec
noncomputable section
open Classical

variable {Ω D M O V Z : Type} {d : ℕ}
variable {S : Set (Fin d → ℝ)} {lp : (Fin d → ℝ) → ℝ} {g : (Fin d → ℝ) → Fin d → ℝ} {data : Data D}
variable {past : MeasurableSpace Ω} {sig : Key → MeasurableSpace Ω} [mΩ : MeasurableSpace Ω] {P : Measure Ω} [IsProbabilityMeasure P] {env : Ω → Env ℝ D d M O} {env' : Ω → Env XR D d M O} {T : Key → Prop}
  [MeasurableSpace M] [MeasurableSpace O] [MeasurableSpace Z] {ν : Measure Z} {push : M → Z → Pos ℝ d} {lnf : M → Pos ℝ d → ℝ} {G : Set M} [BufNum XR]

omit [MeasurableSpace O] in
theorem Spec.AdaptiveWallBundle.withProd {c : BundleCfg XR D d M O} (hE : AdaptiveWallBundle T P sig env env' S lp g c data ν push lnf G) (n : ℕ) :
    AdaptiveWallBundle T P sig env env' S lp g (c.withProd n) data ν push lnf G :=
  ⟨hE.lifts, goodCfg_withProd hE.good n, hE.step, hE.walled, hE.ignores, hE.nonzero, hE.finite, hE.flows⟩

omit [MeasurableSpace O] [BufNum XR] in
theorem Spec.AdaptiveWallBundle.inside {c : BundleCfg XR D d M O} (hE : AdaptiveWallBundle T P sig env env' S lp g c data ν push lnf G) (U : Key → Prop) (hU : ∀ a, U a → T a) :
    AdaptiveWallBundle U P (inside sig U) env env' S lp g c data ν push lnf G :=
  ⟨hE.lifts, hE.good, hE.step, hE.walled, hE.ignores, hE.nonzero, hE.finite, flowFamily_inside U hU hE.flows⟩

/-- Distribution of a row after the steps `hist` when the flow is `m` and the start `x`. -/
def wallFixedLaw (S : Set (Fin d → ℝ)) (lp : (Fin d → ℝ) → ℝ) (g : (Fin d → ℝ) → Fin d → ℝ) (a : ℝ) (ν : Measure Z) (push : M → Z → Pos ℝ d) (lnf : M → Pos ℝ d → ℝ) (hist : List Bool) (m : M) (x : Pos ℝ d) :
    Measure (Pos ℝ d) :=
  histLaw (stepLaw (noise d) (freeStep S (malaQ g a) (malaR lp g a))) (stepLaw ((ν.map (push m)).prod unif) (wallFlowStep S lp lnf m)) hist (Measure.dirac x)

/-- One chain of production, with any past. -/
theorem wall_row_fresh (hTc : ∀ a, T a → ∀ b, Desc a b → T b) (h : IdealOn T past sig P env) (c : BundleCfg XR D d M O) (data : Data D) (hE : AdaptiveWallBundle T P sig env env' S lp g c data ν push lnf G)
    (a : ℝ) (ha : a ≠ 0) (has : c.stepSize = .fin a)
    (m : Ω → M) (hm : Measurable[past] m) (hG : ∀ ω, m ω ∈ G) (X : Ω → Pos ℝ d) (hX : Measurable[past] X) (hXS : ∀ ω, X ω ∈ S) (ε : ℝ) (Nω : Ω → ℕ) (N0 : ℕ)
    (hN0 : ∀ φ a : Ω → ℝ, Measurable φ → Measurable a → (∀ ω, 0 ≤ φ ω ∧ φ ω ≤ 1) → (∀ ω, 0 ≤ a ω ∧ a ω ≤ 1) → (∀ ω, Nω ω ≤ N0 → |φ ω - a ω| ≤ ε / 2) → |∫ ω, φ ω ∂P - ∫ ω, a ω ∂P| ≤ ε)
    (hNω : ∀ ω l, Nω ω ≤ l → ∀ pre : List Bool, Near (wallFixedLaw S lp g a ν push lnf (pre ++ loopsSteps c l) (m ω) (X ω)) (normalised (wallMeasure S lp)) (ε / 2))
    {k : Key} {logs : Ω → Bool → List (Block XR d)} {n : ℕ} {w : ℕ → Ω → World XR D d M O} {zs : ℕ → Ω → List (Pos XR d)} {b1 b2 : ℕ → Ω → Block XR d}
    (R : ProdRun env' c data m k logs n w zs b1 b2) (i : ℕ) (hT : ∀ l, T (.child (.child (carryKey k l) 1) i)) (hstart : ∀ ω, (w 0 ω).xs[i]? = some (emb (X ω)))
    (l : ℕ) (hl : l < n) (r : ℕ) (hr : r < rowsPerCall c true + rowsPerCall c false) :
    ∃ Y : Ω → Pos ℝ d, (∀ ω, rowCell c b1 b2 i l r ω = some (emb (Y ω)) ∧ Y ω ∈ S) ∧ Measurable[info past sig (prodSet k (l + 1))] Y ∧
      (N0 ≤ l → FreshInLaw past P Y (normalised (wallMeasure S lp)) ε) := by
  haveI := hE.flows.prob
  haveI := wall_isProb hE.nonzero hE.finite
  haveI : IsProbabilityMeasure (noise d) := by unfold noise; infer_instance
  have hpm : ∀ ω, Measurable (push (m ω)) := fun ω => hE.flows.pushMeas.comp (measurable_const.prodMk measurable_id)
  have hlm : ∀ ω, Measurable (lnf (m ω)) := fun ω => hE.flows.lnfMeas.comp (measurable_const.prodMk measurable_id)
  haveI : ∀ ω, IsProbabilityMeasure (ν.map (push (m ω))) := fun ω => Measure.isProbabilityMeasure_map (hpm ω).aemeasurable
  have hid := toPast_measurable past
  have law := wall_family_rowLawsOn hTc h env' c data hE a ha has (fun ω : PastOf past => m ω) hm (toPast past) hG (P.map fun ω => (toPast past ω, X ω))
  have rows := (R.lawsOn law 0 [] i hT ⟨hid.mono (past_le_info (by simp [prodSet])) le_rfl, X, fun ω => ⟨hstart ω, hXS ω⟩, hX.mono (past_le_info (by simp [prodSet])) le_rfl, rfl⟩).2 l (by rw [Nat.zero_add]; exact hl) r hr
  rw [List.append_nil, Nat.zero_add] at rows
  obtain ⟨-, Y, hY, hYm, hYl⟩ := rows
  have hYm' : Measurable Y := hYm.mono (h.info_le _) le_rfl
  refine ⟨Y, hY, hYm, fun hNl => ?_⟩
  exact fresh_of_hist h.past_le (mala_wallMH hE.walled hE.nonzero hE.finite a ha).step_meas (wallFlowStep S lp lnf) m hpm
    (fun ω => (flow_wallMH hE.walled hE.nonzero hE.finite (lnf (m ω)) (hlm ω) (ν.map (push (m ω))) (hE.flows.density _ (hG ω))).step_meas)
    (wallFlowStep_measurable hE.walled.meas hE.walled.meas_lp hE.flows.pushMeas hE.flows.lnfMeas _ hm) X Y hX hYm' _ hYl _ ε Nω N0 hN0 (fun ω hω => hNω ω l (hω.trans hNl) (rowPre c r))

/-- The number of loops needed, and what it means. -/
theorem wall_loops_needed (c : BundleCfg XR D d M O) (data : Data D) (hE : AdaptiveWallBundle T P sig env env' S lp g c data ν push lnf G) (a : ℝ) (ha : a ≠ 0) (m : Ω → M) (hG : ∀ ω, m ω ∈ G)
    (X : ℕ → Ω → Pos ℝ d) (ε : ℝ) (hε : 0 < ε) :
    ∃ (Nω : Ω → ℕ) (N0 : ℕ), (∀ φ a : Ω → ℝ, Measurable φ → Measurable a → (∀ ω, 0 ≤ φ ω ∧ φ ω ≤ 1) → (∀ ω, 0 ≤ a ω ∧ a ω ≤ 1) → (∀ ω, Nω ω ≤ N0 → |φ ω - a ω| ≤ ε / 2) →
        |∫ ω, φ ω ∂P - ∫ ω, a ω ∂P| ≤ ε) ∧
      ∀ (n : ℕ), ∀ i < c.nChains, ∀ ω l, Nω ω ≤ l → ∀ pre : List Bool,
        Near (wallFixedLaw S lp g a ν push lnf (pre ++ loopsSteps (c.withProd n) l) (m ω) (X i ω)) (normalised (wallMeasure S lp)) (ε / 2) := by
  haveI := hE.flows.prob
  have hpm : ∀ ω, Measurable (push (m ω)) := fun ω => hE.flows.pushMeas.comp (measurable_const.prodMk measurable_id)
  have hlm : ∀ ω, Measurable (lnf (m ω)) := fun ω => hE.flows.lnfMeas.comp (measurable_const.prodMk measurable_id)
  haveI : ∀ ω, IsProbabilityMeasure (ν.map (push (m ω))) := fun ω => Measure.isProbabilityMeasure_map (hpm ω).aemeasurable
  choose Nω hNω using fun ω => wall_cycles_near c data hE.walled hE.nonzero hE.finite a ha (ν.map (push (m ω))) (lnf (m ω)) (hlm ω) (hE.flows.density _ (hG ω)) c.nChains
    (fun i => Measure.dirac (X i ω)) (fun i => inferInstance) (ε / 2) (by linarith)
  obtain ⟨N0, hN0⟩ := mean_near_of_pointwise' (P := P) Nω (ε := ε / 2) (by linarith)
  refine ⟨Nω, N0, fun φ a h1 h2 h3 h4 h5 => (hN0 φ a h1 h2 h3 h4 h5).trans (by linarith), fun n i hi ω l hl pre => ?_⟩
  rw [loopsSteps_withProd]
  exact hNω ω i hi l hl pre

/-- **C90 (production phase).** A run of `RQSpline_MALA_Bundle` on a target with hard boundaries (`-inf` or NaN outside a region `S`, of any shape, of positive and finite mass).  When training is over (`w ω`) the random
key is `k`, the flow in the global sampler is `m ω` and chain `i` is at the finite point `X i ω` inside, where the flow and the positions are *any* functions of what happened before, the flow within a family of flows
whose `log_prob` is the log-density of their samples up to a constant — none of which needs to know about the boundaries.  Then every row of the production position buffer is a finite point inside; and for every `ε`
there is an `N`, which does not depend on the number of production loops, such that for any choice of one production row `j i ≥ N` from each chain `i`, the chosen rows are jointly, in total variation and up to `ε`,
independent draws from the normalised truncated target, independent of everything that happened before production. -/
theorem C90_production (k : Key) (h : IdealOn (Desc k) past sig P env) (c : BundleCfg XR D d M O) (data : Data D) (hE : AdaptiveWallBundle (Desc k) P sig env env' S lp g c data ν push lnf G)
    (m : Ω → M) (hm : Measurable[past] m) (hG : ∀ ω, m ω ∈ G) (X : ℕ → Ω → Pos ℝ d) (hX : ∀ i < c.nChains, Measurable[past] (X i)) (hXS : ∀ i < c.nChains, ∀ ω, X i ω ∈ S) (ε : ℝ) (hε : 0 < ε) :
    ∃ N, ∀ (n : ℕ) (key : Ω → Key) (xs : Ω → List (Pos XR d)) (w w' : Ω → World XR D d M O), (∀ ω, (xs ω).length = c.nChains) →
      (∀ ω, Completes (env' ω) (malaBundle (c.withProd n)).strategies.lookup data (repeatPhase c.nTrainLoops trainingPhase ++ ["reset_steppers", "update_state"])
        ⟨key ω, xs ω, ⟨(malaBundle (c.withProd n)).resources, fun _ => 0⟩⟩ (w ω)) →
      (∀ ω, (w ω).key = k) → (∀ ω, (w ω).heap.res "global_sampler" = some (.kernel (.nf (m ω) c.nfBatch))) → (∀ ω, ∀ i < c.nChains, (w ω).xs[i]? = some (emb (X i ω))) →
      (∀ ω, Completes (env' ω) (malaBundle (c.withProd n)).strategies.lookup data (repeatPhase n productionPhase) (w ω) (w' ω)) →
      ∀ j : Fin c.nChains → ℕ, (∀ i, j i < (c.withProd n).nProdSteps) → ∃ Y : Fin c.nChains → Ω → Pos ℝ d, (∀ i, Measurable (Y i)) ∧ (∀ i ω, Y i ω ∈ S) ∧
        ((∀ i, N ≤ j i) → FreshInLaw past P (fun ω i => Y i ω) (Measure.pi fun _ => normalised (wallMeasure S lp)) ε) ∧
        ∀ ω, ∃ b, (w' ω).heap.res "positions_production" = some (.buffer b) ∧ ∀ (i : Fin c.nChains) (a : Fin d), b.data.get [i, j i, a] = XR.fin (Y i ω a) := by
  haveI := wall_isProb hE.nonzero hE.finite
  obtain ⟨a, ha, has⟩ := hE.step
  have hδ : 0 < ε / (c.nChains + 1) := by positivity
  obtain ⟨Nω, N0, hN0, hNω⟩ := wall_loops_needed (P := P) c data hE a ha m hG X (ε / (c.nChains + 1)) hδ
  refine ⟨N0 * (rowsPerCall c true + rowsPerCall c false), fun n key xs w w' hx htrain hkey hflow hstart hprod j hj => ?_⟩
  have hc' := goodCfg_withProd hE.good n
  have hl' : ∀ ω, (env' ω).ops.Lawful := fun ω => lifts_lawful (hE.lifts ω) (hE.flows.lawful ω)
  obtain ⟨logs, v, zs, b1, b2, e0, en, R⟩ := production_run hc' hl' w w' (fun ω => production_start (env' ω) (hl' ω) (c.withProd n) hc' data (key ω) (xs ω) (hx ω) (w ω) (htrain ω)) hkey hflow hprod
  have hcap : (c.withProd n).nProdSteps = n * (rowsPerCall c true + rowsPerCall c false) := capacity_eq (c.withProd n) true
  have hpos := rowsPerCall_pos hE.good true
  have hl : ∀ i, j i / (rowsPerCall c true + rowsPerCall c false) < n := fun i => Nat.div_lt_of_lt_mul (by rw [mul_comm, ← hcap]; exact hj i)
  have hr : ∀ i, j i % (rowsPerCall c true + rowsPerCall c false) < rowsPerCall (c.withProd n) true + rowsPerCall (c.withProd n) false := fun i =>
    Nat.mod_lt _ (by show 0 < rowsPerCall c true + rowsPerCall c false; omega)
  have hkeys : ∀ (i : Fin c.nChains) l, chainKeys k i (.child (.child (carryKey k l) 1) i) := fun i l => ⟨l, .refl⟩
  have hs : ∀ (i : Fin c.nChains) ω, (v 0 ω).xs[i.1]? = some (emb (X i ω)) := fun i ω => by rw [e0]; exact hstart ω i i.2
  choose Y hY hYm _ using fun i : Fin c.nChains => wall_row_fresh (chainKeys_closed k i) (idealOn_inside h (chainKeys k i) fun _ => chainKeys_desc) (c.withProd n) data
    ((hE.withProd n).inside (chainKeys k i) fun _ => chainKeys_desc) a ha has m hm hG (X i) (hX i i.2) (hXS i i.2) _ Nω N0 hN0 (hNω n i i.2) R i (hkeys i) (hs i) _ (hl i) _ (hr i)
  have hfresh : (∀ i, N0 * (rowsPerCall c true + rowsPerCall c false) ≤ j i) → ∀ i : Fin c.nChains,
      FreshInLaw (outside past sig (chainKeys k i)) P (Y i) (normalised (wallMeasure S lp)) (ε / (c.nChains + 1)) := by
    intro hjN i
    have hp := past_le_outside past sig (chainKeys k i)
    obtain ⟨Y', hY', -, hF⟩ := wall_row_fresh (chainKeys_closed k i) (idealOn_outside h (chainKeys k i) fun _ => chainKeys_desc) (c.withProd n) data
      ((hE.withProd n).inside (chainKeys k i) fun _ => chainKeys_desc) a ha has m (hm.mono hp le_rfl) hG (X i) ((hX i i.2).mono hp le_rfl) (hXS i i.2) _ Nω N0 hN0 (hNω n i i.2) R i (hkeys i) (hs i) _ (hl i) _ (hr i)
    have e : Y' = Y i := funext fun ω => by
      have := (hY' ω).1.symm.trans (hY i ω).1
      rw [Option.some.injEq] at this
      exact emb_injective this
    rw [← e]
    exact hF ((Nat.le_div_iff_mul_le (by omega)).2 (hjN i))
  have hYm' : ∀ i, Measurable (Y i) := fun i => (hYm i).mono ((idealOn_inside h (chainKeys k i) fun _ => chainKeys_desc).info_le _) le_rfl
  refine ⟨Y, hYm', fun i ω => (hY i ω).2, fun hjN E hEm => ?_, fun ω => ?_⟩
  · have hall := fresh_family h.past_le c.nChains Y (fun i => outside past sig (chainKeys k i)) (fun i => past_le_outside _ _ _) (fun i => h.info_le _) hYm'
      (fun i i' hii => (hYm i').mono (info_inside_le past sig (chainKeys_disjoint k (fun e => hii (Fin.ext e))) _) le_rfl) (hfresh hjN)
    refine (hall E hEm).trans ?_
    rw [mul_div_assoc', div_le_iff₀ (by positivity)]
    nlinarith
  · obtain ⟨b, hb, hcell⟩ := R.buffer ω
    exact ⟨b, by rw [← en]; exact hb, fun i a => hcell i i.2 (j i) (hj i) _ (hY i ω).1 a⟩

/-- What training leaves behind is determined by what happened before production, and the positions are inside. -/
theorem wall_trained_before (h : IdealDraws past sig P env) (c : BundleCfg XR D d M O) (hfin : MeasurableSet {x : XR | BufNum.isFinite x = true}) (data : Data D)
    (hB : AdaptiveWallBundle (fun _ => True) P sig env env' S lp g c data ν push lnf G) (hT : OrdinaryTraining sig env' G) (hflow : c.flow ∈ G) (key : Key) (init : Ω → List (Pos XR d)) (hx : ∀ ω, (init ω).length = c.nChains)
    (hX : ∀ i < c.nChains, ∃ X : Ω → Fin d → ℝ, Measurable[past] X ∧ ∀ ω, (init ω)[i]? = some (emb (X ω)) ∧ X ω ∈ S) (w : Ω → World XR D d M O)
    (hw : ∀ ω, Completes (env' ω) (malaBundle c).strategies.lookup data (repeatPhase c.nTrainLoops trainingPhase ++ ["reset_steppers", "update_state"])
      ⟨key, init ω, ⟨(malaBundle c).resources, fun _ => 0⟩⟩ (w ω)) :
    ∃ m : Ω → M, Measurable[before past sig (trainedKey c.nTrainLoops c.nEpochs key)] m ∧ (∀ ω, m ω ∈ G) ∧ (∀ ω, (w ω).heap.res "global_sampler" = some (.kernel (.nf (m ω) c.nfBatch))) ∧
      ∀ i < c.nChains, ∃ X : Ω → Fin d → ℝ, Measurable[before past sig (trainedKey c.nTrainLoops c.nEpochs key)] X ∧ ∀ ω, (w ω).xs[i]? = some (emb (X ω)) ∧ X ω ∈ S := by
  set k := trainedKey c.nTrainLoops c.nEpochs key with hk
  obtain ⟨a, ha, has⟩ := hB.step
  obtain ⟨step, stats, big, hTS⟩ := trainSetup_before blt_measurable_xr (past := past) (sig := sig) hT k
  have hDS := drawSetup_before h hB.flows k
  have hBM := @DrawSetup.wallBlocks Ω D M O Z d (before past sig k) _ _ _ _ _ _ _ _ _ _ _ _ _ hDS env' hB.lifts c hB.good hB.ignores hB.walled a ha has (mala_wallMH hB.walled hB.nonzero hB.finite a ha).step_meas
  obtain ⟨m, h1, h2, h3, h4⟩ := @training_meas XR Ω D M O d (before past sig k) _ _ _ _ _ _ _ _ _ _ _ _ _ _ _ _ _ _ _ _ _ hTS hfin c hB.good data hBM key (fun a ha => ha) hflow init hx (fun i hi => by
    obtain ⟨X, hX, e⟩ := hX i hi
    exact ⟨X, hX.mono (past_le_before k) le_rfl, e⟩) w hw
  exact ⟨m, h1, h2, h3, h4⟩

/-- **C90 (whole `sample` call).** As `C90_production`, for the call `Sampler(...).sample(initial_position, data)` with a bundle of any number `n` of production loops: the call returns, every production row is a finite
point inside, and rows from the `N`-th on, one from each chain, are jointly independent draws from the truncated target up to `ε`, whatever training does. -/
theorem C90_sample (h : IdealDraws past sig P env) (c : BundleCfg XR D d M O) (hn : 0 < c.nChains) (hb : 0 < c.batchSize) (hfin : ∀ x : ℝ, BufNum.isFinite (XR.fin x) = true) (data : Data D)
    (hB : AdaptiveWallBundle (fun _ => True) P sig env env' S lp g c data ν push lnf G) (key : Key) (init : Ω → InitPos XR d) (hx : ∀ ω, (init ω).atleast2d.length = c.nChains)
    (hin : ∀ ω, ∀ x ∈ (init ω).atleast2d, ∃ y ∈ S, x = emb y) (w : Ω → World XR D d M O)
    (hw : ∀ ω, Completes (env' ω) (malaBundle c).strategies.lookup data (repeatPhase c.nTrainLoops trainingPhase ++ ["reset_steppers", "update_state"])
      ⟨key, (init ω).atleast2d, ⟨(malaBundle c).resources, fun _ => 0⟩⟩ (w ω))
    (m : Ω → M) (hm : Measurable[before past sig (trainedKey c.nTrainLoops c.nEpochs key)] m) (hG : ∀ ω, m ω ∈ G) (hflow : ∀ ω, (w ω).heap.res "global_sampler" = some (.kernel (.nf (m ω) c.nfBatch)))
    (X : ℕ → Ω → Pos ℝ d) (hX : ∀ i < c.nChains, Measurable[before past sig (trainedKey c.nTrainLoops c.nEpochs key)] (X i)) (hXS : ∀ i < c.nChains, ∀ ω, X i ω ∈ S)
    (hstart : ∀ ω, ∀ i < c.nChains, (w ω).xs[i]? = some (emb (X i ω))) (ε : ℝ) (hε : 0 < ε) :
    ∃ N, ∀ (n nd nc : ℕ) (kw : List (String × V)) (s : Sampler XR D d M O V), Sampler.new nd nc key none none none (some (malaBundle (c.withProd n))) kw = .ok s →
      ∃ s' : Ω → Sampler XR D d M O V, (∀ ω, s.sample (env' ω) (init ω) data = (.ok (), s' ω)) ∧
        ∀ j : Fin c.nChains → ℕ, (∀ i, j i < (c.withProd n).nProdSteps) → ∃ Y : Fin c.nChains → Ω → Pos ℝ d, (∀ i, Measurable (Y i)) ∧ (∀ i ω, Y i ω ∈ S) ∧
          ((∀ i, N ≤ j i) → FreshInLaw (before past sig (trainedKey c.nTrainLoops c.nEpochs key)) P (fun ω i => Y i ω) (Measure.pi fun _ => normalised (wallMeasure S lp)) ε) ∧
          ∀ ω, ∃ b, (s' ω).heap.res "positions_production" = some (.buffer b) ∧ ∀ (i : Fin c.nChains) (a : Fin d), b.data.get [i, j i, a] = XR.fin (Y i ω a) := by
  set k := trainedKey c.nTrainLoops c.nEpochs key with hk
  obtain ⟨a, ha, has⟩ := hB.step
  have hI := idealOn_before h k (fun _ _ => trivial)
  have hE : AdaptiveWallBundle (Desc k) P (after sig k) env env' S lp g c data ν push lnf G :=
    ⟨hB.lifts, hB.good, hB.step, hB.walled, hB.ignores, hB.nonzero, hB.finite, flowFamily_before k (fun _ _ => trivial) hB.flows⟩
  obtain ⟨N, hN⟩ := C90_production k hI c data hE m hm hG X hX hXS ε hε
  refine ⟨N, fun n nd nc kw s hs => ?_⟩
  simp only [Sampler.new, Except.ok.injEq] at hs
  subst hs
  have hl : ∀ ω, (env' ω).ops.Lawful := fun ω => lifts_lawful (hB.lifts ω) (hB.flows.lawful ω)
  have hSt : ∀ ω, StaysIn (env' ω) (c.withProd n) data (fun x => ∃ y ∈ S, x = emb y) := fun ω => wall_staysIn (hB.lifts ω) (hB.flows.lawful ω) (c.withProd n) (goodCfg_withProd hB.good n) hB.ignores hB.walled ha has hfin
  choose v w' h1 h2 using fun ω => bundle_total (env' ω) (hl ω) (c.withProd n) (goodCfg_withProd hB.good n) data hn hb _ (hSt ω) key (init ω).atleast2d (hx ω) (hin ω)
  have h3 : ∀ ω, Completes (env' ω) (bundleStrategies (c.withProd n)).lookup data (bundleOrder (c.withProd n)) ⟨key, (init ω).atleast2d, ⟨bundleResources (c.withProd n), fun _ => 0⟩⟩ (w' ω) := fun ω => by
    rw [bundleOrder, completes_append]; exact ⟨v ω, h1 ω, h2 ω⟩
  have h4 := fun ω => completes_sample (h3 ω)
  have hsample : ∀ ω, Sampler.sample (V := V) (env' ω) ⟨nd, nc, key, ⟨bundleResources (c.withProd n), fun _ => 0⟩, (bundleStrategies (c.withProd n)).lookup, some (bundleOrder (c.withProd n)),
      setAttrs kw (fun _ => none)⟩ (init ω) data =
      (.ok (), ⟨nd, nc, key, (w' ω).heap, (bundleStrategies (c.withProd n)).lookup, some (bundleOrder (c.withProd n)), setAttrs kw (fun _ => none)⟩) := by
    intro ω
    simp only [Sampler.sample]
    rw [h4 ω]
  have hsame : ∀ ω, (v ω).heap.res "global_sampler" = (w ω).heap.res "global_sampler" ∧ (v ω).xs = (w ω).xs := by
    intro ω
    have := C85_training (env' ω) none c n data key (init ω).atleast2d
    simp only [libraryBundle, trainingOrder] at this
    rw [completes_sample (hw ω)] at this
    have e : runOrder (env' ω) (malaBundle (c.withProd n)).strategies.lookup (repeatPhase c.nTrainLoops trainingPhase ++ ["reset_steppers", "update_state"]) key (init ω).atleast2d data
        ⟨(malaBundle (c.withProd n)).resources, fun _ => 0⟩ = (.ok ((v ω).key, (v ω).xs), (v ω).heap) := completes_sample (h1 ω)
    have this2 : SameOutcome notProduction (Except.ok ((w ω).key, (w ω).xs), (w ω).heap) (runOrder (env' ω) (malaBundle (c.withProd n)).strategies.lookup
      (repeatPhase c.nTrainLoops trainingPhase ++ ["reset_steppers", "update_state"]) key (init ω).atleast2d data ⟨(malaBundle (c.withProd n)).resources, fun _ => 0⟩) := this
    rw [e] at this2
    obtain ⟨a, b⟩ := this2
    simp only [Except.ok.injEq, Prod.mk.injEq] at a
    exact ⟨(b.1 _ (by simp [notProduction])).symm, a.2.symm⟩
  refine ⟨_, hsample, ?_⟩
  exact hN n (fun _ => key) (fun ω => (init ω).atleast2d) v w' hx h1 (fun ω => switch_key (env' ω) (c.withProd n) data _ _ _ (h1 ω)) (fun ω => by rw [(hsame ω).1]; exact hflow ω)
    (fun ω i hi => by rw [(hsame ω).2]; exact hstart ω i hi) h2

/-- **C90 (end to end).** As `C90_sample`, where training is any procedure of the code's shape: its shuffles and choices of examples are drawn with their keys, the optimisation step and the standardisation are any
measurable functions that keep the flow in the family `G`; the initial positions are random, determined by the past, at finite points inside.  Nothing is assumed about what training achieves. -/
theorem C90_adaptive (h : IdealDraws past sig P env) (c : BundleCfg XR D d M O) (hn : 0 < c.nChains) (hb : 0 < c.batchSize) (hfin : ∀ x : ℝ, BufNum.isFinite (XR.fin x) = true) (data : Data D)
    (hB : AdaptiveWallBundle (fun _ => True) P sig env env' S lp g c data ν push lnf G) (hT : OrdinaryTraining sig env' G) (hflow : c.flow ∈ G) (key : Key) (init : Ω → InitPos XR d)
    (hx : ∀ ω, (init ω).atleast2d.length = c.nChains) (hX : ∀ i < c.nChains, ∃ X : Ω → Fin d → ℝ, Measurable[past] X ∧ ∀ ω, (init ω).atleast2d[i]? = some (emb (X ω)) ∧ X ω ∈ S) (ε : ℝ) (hε : 0 < ε) :
    ∃ N, ∀ (n nd nc : ℕ) (kw : List (String × V)) (s : Sampler XR D d M O V), Sampler.new nd nc key none none none (some (malaBundle (c.withProd n))) kw = .ok s →
      ∃ s' : Ω → Sampler XR D d M O V, (∀ ω, s.sample (env' ω) (init ω) data = (.ok (), s' ω)) ∧
        ∀ j : Fin c.nChains → ℕ, (∀ i, j i < (c.withProd n).nProdSteps) → ∃ Y : Fin c.nChains → Ω → Pos ℝ d, (∀ i, Measurable (Y i)) ∧ (∀ i ω, Y i ω ∈ S) ∧
          ((∀ i, N ≤ j i) → FreshInLaw (before past sig (trainedKey c.nTrainLoops c.nEpochs key)) P (fun ω i => Y i ω) (Measure.pi fun _ => normalised (wallMeasure S lp)) ε) ∧
          ∀ ω, ∃ b, (s' ω).heap.res "positions_production" = some (.buffer b) ∧ ∀ (i : Fin c.nChains) (a : Fin d), b.data.get [i, j i, a] = XR.fin (Y i ω a) := by
  obtain ⟨a, ha, has⟩ := hB.step
  have hin : ∀ ω, ∀ x ∈ (init ω).atleast2d, ∃ y ∈ S, x = emb y := by
    intro ω x hxm
    obtain ⟨i, hi⟩ := List.mem_iff_getElem?.1 hxm
    have hic : i < c.nChains := by rw [← hx ω]; exact (List.getElem?_eq_some_iff.1 hi).1
    obtain ⟨X, -, e⟩ := hX i hic
    rw [(e ω).1, Option.some.injEq] at hi
    exact ⟨_, (e ω).2, hi.symm⟩
  have hl : ∀ ω, (env' ω).ops.Lawful := fun ω => lifts_lawful (hB.lifts ω) (hB.flows.lawful ω)
  have hSt : ∀ ω, StaysIn (env' ω) c data (fun x => ∃ y ∈ S, x = emb y) := fun ω => wall_staysIn (hB.lifts ω) (hB.flows.lawful ω) c hB.good hB.ignores hB.walled ha has hfin
  choose w w' h1 h2 using fun ω => bundle_total (env' ω) (hl ω) c hB.good data hn hb _ (hSt ω) key (init ω).atleast2d (hx ω) (hin ω)
  have hfin' : MeasurableSet {x : XR | BufNum.isFinite x = true} := XR.measurable_const _ (Or.inl hfin)
  obtain ⟨m, hm, hG, hmg, hX'⟩ := wall_trained_before h c hfin' data hB hT hflow key (fun ω => (init ω).atleast2d) hx hX w h1
  choose! X hXm hXe using hX'
  exact C90_sample h c hn hb hfin data hB key init hx hin w h1 m hm hG hmg X hXm (fun i hi ω => (hXe i hi ω).2) (fun ω i hi => (hXe i hi ω).1) ε hε

end
end FlowMC
