import Verif.Props.WallSweep
import Verif.Props.ProductionRun
/-
C67 for the production phase of the bundle and for whole `sample` calls.
-/
open MeasureTheory ProbabilityTheory
open scoped ENNReal
set_option linter.unusedSectionVars false
namespace FlowMC
open Spec
noncomputable section
open Classical

variable {Ω D M O V : Type} {d : ℕ} [BufNum XR]
variable {past : MeasurableSpace Ω} {sig : Key → MeasurableSpace Ω} [mΩ : MeasurableSpace Ω] {P : Measure Ω} [IsProbabilityMeasure P] {env : Ω → Env ℝ D d M O} {T : Key → Prop}
variable {S : Set (Fin d → ℝ)} {lp : (Fin d → ℝ) → ℝ} {g : (Fin d → ℝ) → Fin d → ℝ}

/-- What is assumed about the target with hard boundaries, the configuration and the frozen flow.  `env` is the ideal random world, `env'` the same world in
arithmetic with infinities and NaN. -/
structure Spec.ExactWallBundle (T : Key → Prop) (P : Measure Ω) (sig : Key → MeasurableSpace Ω) (env : Ω → Env ℝ D d M O) (env' : Ω → Env XR D d M O)
    (S : Set (Fin d → ℝ)) (lp : (Fin d → ℝ) → ℝ) (g : (Fin d → ℝ) → Fin d → ℝ) (c : BundleCfg XR D d M O) (data : Data D) (m : M) (μ : Measure (Fin d → ℝ)) : Prop where
  lifts : ∀ ω, Lifts (env ω) (env' ω)
  /-- positive step counts and batch size, thinnings dividing the step counts -/
  good : GoodCfg c
  step : ∃ a : ℝ, a ≠ 0 ∧ c.stepSize = .fin a
  walled : Walled S lp g c.logpdf data
  ignores : IgnoresNSteps c.logpdf
  /-- `μ` is the normalised truncated target -/
  target : ∃ Z : ℝ≥0∞, μ = Z • wallMeasure S lp
  /-- the frozen flow's `log_prob` is, up to a constant, the log-density of its samples -/
  flow : ∃ (q : Measure (Fin d → ℝ)) (lnf : (Fin d → ℝ) → ℝ), IsProbabilityMeasure q ∧ Measurable lnf ∧ IdealFlowOn T P sig env m q lnf

/-- A random position that is always a finite point of `S`, is determined by the draws in `A`, and has distribution `μ`. -/
def WallLaw (past : MeasurableSpace Ω) (sig : Key → MeasurableSpace Ω) [mΩ : MeasurableSpace Ω] (P : Measure Ω) (S : Set (Fin d → ℝ)) (μ : Measure (Fin d → ℝ)) (A : Set (Option Key))
    (f : Ω → Option (Pos XR d)) : Prop :=
  ∃ Y : Ω → Fin d → ℝ, (∀ ω, f ω = some (emb (Y ω)) ∧ Y ω ∈ S) ∧ Measurable[info past sig A] Y ∧ P.map Y = μ

theorem wall_rowLaws (k : Key) (h : IdealOn (Desc k) past sig P env) (env' : Ω → Env XR D d M O) (c : BundleCfg XR D d M O) (data : Data D) (m : M) (μ : Measure (Fin d → ℝ))
    [IsProbabilityMeasure μ] (hE : ExactWallBundle (Desc k) P sig env env' S lp g c data m μ) : RowLaws (fun _ => WallLaw past sig P S μ) env' c data (fun _ => m) k := by
  obtain ⟨q, lnf, hq, hlm, hfl⟩ := hE.flow
  refine ⟨?_, fun _ A f ⟨Y, h1, _⟩ => ⟨fun ω => emb (Y ω), fun ω => (h1 ω).1⟩, hE.good, fun ω => lifts_lawful (hE.lifts ω) (hfl.lawful ω), ?_, ?_⟩
  · rintro _ A A' f hA ⟨Y, h1, h2, h3⟩
    exact ⟨Y, h1, h2.mono (info_mono hA) le_rfl, h3⟩
  · rintro a ha _ A hA X ⟨X', hX', hXm, hXl⟩ j hj
    obtain rfl : X = fun ω => emb (X' ω) := funext fun ω => Option.some.inj (hX' ω).1
    obtain ⟨b, hb, hs⟩ := hE.step
    obtain ⟨Y, h1, h2, h3⟩ := wall_serial_law h hE.walled (.mala c.stepSize : KernelRes XR d M) ⟨b, hb, hs⟩ (fun ω k x lp t data => malaKernel (env' ω).rng c.stepSize k x lp t data)
      (fun ω => by rw [(hE.lifts ω).rng]; rfl) μ hE.target (j + 1) a (fun _ => desc_trans ha) A hA X' (fun ω => (hX' ω).2) hXm hXl
    refine ⟨Y, fun ω => ⟨?_, (h1 ω).2⟩, h2, h3⟩
    have := serialSample_state (fun k x lp t data => malaKernel (env' ω).rng c.stepSize k x lp t data) c.logpdf data c.nLocal a (emb (X' ω)) (j + 1) hj
    rw [(h1 ω).1] at this
    exact this
  · rintro a ha _ A hA X ⟨X', hX', hXm, hXl⟩ rows hrows j hj
    obtain rfl : X = fun ω => emb (X' ω) := funext fun ω => Option.some.inj (hX' ω).1
    exact wall_sweep_law h hE.walled env' hE.lifts m q lnf hlm hfl c.nfBatch hE.good.nfBatch hE.ignores μ hE.target c.nGlobal a (fun _ => desc_trans ha) A hA X' (fun ω => (hX' ω).2)
      hXm hXl rows hrows j hj

/-- **C67 (production phase).** A run of `RQSpline_MALA_Bundle` on a target with hard boundaries.  Suppose that when training is over (`w ω`) the random key is `k`,
the flow in the global sampler is `m` and the position of every chain is a finite point inside the region with the truncated target distribution, determined by what
happened before.  Then every cell (chain `i`, step `j`) of the production position buffer is a finite number, every row is inside the region, and has the truncated
target distribution. -/
theorem C67_production (k : Key) (h : IdealOn (Desc k) past sig P env) (env' : Ω → Env XR D d M O) (c : BundleCfg XR D d M O) (data : Data D) (m : M) (μ : Measure (Fin d → ℝ))
    [IsProbabilityMeasure μ] (hE : ExactWallBundle (Desc k) P sig env env' S lp g c data m μ)
    (key : Ω → Key) (xs : Ω → List (Pos XR d)) (hx : ∀ ω, (xs ω).length = c.nChains) (w w' : Ω → World XR D d M O)
    (htrain : ∀ ω, Completes (env' ω) (malaBundle c).strategies.lookup data (repeatPhase c.nTrainLoops trainingPhase ++ ["reset_steppers", "update_state"])
      ⟨key ω, xs ω, ⟨(malaBundle c).resources, fun _ => 0⟩⟩ (w ω))
    (hkey : ∀ ω, (w ω).key = k) (hflow : ∀ ω, (w ω).heap.res "global_sampler" = some (.kernel (.nf m c.nfBatch)))
    (hstart : ∀ i < c.nChains, ∃ X : Ω → Fin d → ℝ, (∀ ω, (w ω).xs[i]? = some (emb (X ω)) ∧ X ω ∈ S) ∧ Measurable[past] X ∧ P.map X = μ)
    (hprod : ∀ ω, Completes (env' ω) (malaBundle c).strategies.lookup data (repeatPhase c.nProdLoops productionPhase) (w ω) (w' ω)) :
    (∀ i < c.nChains, ∀ j < c.nProdSteps, ∃ Y : Ω → Fin d → ℝ, Measurable Y ∧ P.map Y = μ ∧ ∀ ω, Y ω ∈ S ∧
      ∃ b, (w' ω).heap.res "positions_production" = some (.buffer b) ∧ ∀ a : Fin d, b.data.get [i, j, a] = XR.fin (Y ω a)) ∧
    ∀ i < c.nChains, ∃ Y : Ω → Fin d → ℝ, (∀ ω, (w' ω).xs[i]? = some (emb (Y ω)) ∧ Y ω ∈ S) ∧ Measurable Y ∧ P.map Y = μ := by
  obtain ⟨S', h1, h2⟩ := production_cells (wall_rowLaws k h env' c data m μ hE) w w' (fun ω => production_start (env' ω) ((wall_rowLaws k h env' c data m μ hE).lawful ω) c hE.good data (key ω) (xs ω) (hx ω) (w ω) (htrain ω)) hkey hflow (fun i hi => by
    obtain ⟨X, h1, h2, h3⟩ := hstart i hi
    exact ⟨X, h1, h2.mono (past_le_info (by simp)) le_rfl, h3⟩) hprod
  refine ⟨fun i hi j hj => ?_, fun i hi => ?_⟩
  · obtain ⟨-, Y, ⟨Y', hY', hm, hl⟩, hc⟩ := h1 i hi j hj
    obtain rfl : Y = fun ω => emb (Y' ω) := funext fun ω => Option.some.inj (hY' ω).1
    exact ⟨Y', hm.mono (h.info_le _) le_rfl, hl, fun ω => ⟨(hY' ω).2, hc ω⟩⟩
  · obtain ⟨Y, h1, h2, h3⟩ := h2 i hi
    exact ⟨Y, h1, h2.mono (h.info_le _) le_rfl, h3⟩

/-- **C67 (given the training phase).** As C63 given the training phase, for a target with hard boundaries. -/
theorem C67_given_training (h : IdealDraws past sig P env) (env' : Ω → Env XR D d M O) (c : BundleCfg XR D d M O) (data : Data D) (m : M) (μ : Measure (Fin d → ℝ))
    [IsProbabilityMeasure μ] (hB : ExactWallBundle (fun _ => True) P sig env env' S lp g c data m μ) (key : Key) (xs : Ω → List (Pos XR d)) (hx : ∀ ω, (xs ω).length = c.nChains)
    (w w' : Ω → World XR D d M O) (k : Key) (E : Set Ω) (hE : MeasurableSet[before past sig k] E) (hP : P E ≠ 0)
    (htrain : ∀ ω ∈ E, Completes (env' ω) (malaBundle c).strategies.lookup data (repeatPhase c.nTrainLoops trainingPhase ++ ["reset_steppers", "update_state"])
      ⟨key, xs ω, ⟨(malaBundle c).resources, fun _ => 0⟩⟩ (w ω))
    (hkey : ∀ ω ∈ E, (w ω).key = k) (hflow : ∀ ω ∈ E, (w ω).heap.res "global_sampler" = some (.kernel (.nf m c.nfBatch)))
    (hstart : ∀ i < c.nChains, ∃ X : Ω → Fin d → ℝ, (∀ ω ∈ E, (w ω).xs[i]? = some (emb (X ω)) ∧ X ω ∈ S) ∧ Measurable[before past sig k] X ∧ (P[|E]).map X = μ)
    (hprod : ∀ ω ∈ E, Completes (env' ω) (malaBundle c).strategies.lookup data (repeatPhase c.nProdLoops productionPhase) (w ω) (w' ω)) :
    ∀ i < c.nChains, ∀ j < c.nProdSteps, ∃ Y : E → Fin d → ℝ, Measurable Y ∧ (condOn P E).map Y = μ ∧
      ∀ ω : E, Y ω ∈ S ∧ ∃ b, (w' ω).heap.res "positions_production" = some (.buffer b) ∧ ∀ a : Fin d, b.data.get [i, j, a] = XR.fin (Y ω a) := by
  have hE' : MeasurableSet E := before_le h k E hE
  have hI := idealOn_cond h k (fun _ _ => trivial) hE hP
  haveI : IsProbabilityMeasure (condOn P E) := by
    constructor
    have := condOn_apply (P := P) hE' MeasurableSet.univ
    rw [Set.preimage_univ] at this
    rw [this]
    exact (cond_isProbabilityMeasure hP).measure_univ
  obtain ⟨q, lnf, hq, hlm, hfl⟩ := hB.flow
  have hEB : ExactWallBundle (Desc k) (condOn P E) (fun a => (after sig k a).comap Subtype.val) (fun ω : E => env ω) (fun ω : E => env' ω) S lp g c data m μ :=
    ⟨fun ω => hB.lifts ω, hB.good, hB.step, hB.walled, hB.ignores, hB.target, q, lnf, hq, hlm, idealFlow_cond h k (fun _ _ => trivial) hE hP m q lnf hfl⟩
  refine (C67_production k hI (fun ω : E => env' ω) c data m μ hEB (fun _ => key) (fun ω : E => xs ω) (fun ω => hx ω) (fun ω : E => w ω) (fun ω : E => w' ω) (fun ω => htrain ω ω.2)
    (fun ω => hkey ω ω.2) (fun ω => hflow ω ω.2) ?_ (fun ω => hprod ω ω.2)).1
  intro i hi
  obtain ⟨X, h1, h2, h3⟩ := hstart i hi
  exact ⟨fun ω : E => X ω, fun ω => h1 ω ω.2, h2.comp (comap_measurable _), by rw [condOn_map hE' (h2.mono (before_le h k) le_rfl), h3]⟩

/-- **C67 (whole `sample` call).** `Sampler(rqs_mala_bundle).sample(initial_position, data)` on a target with hard boundaries, started inside.  The call never
raises.  For every event `E` of positive probability decided before production starts, and every flow `m` (whose `log_prob` is up to a constant the log-density
of its samples): if on `E` the frozen flow is `m`, and given `E` the position of every chain when production starts is decided before and has the truncated
target distribution, then given `E` every row of the production position buffer is a finite point inside the region and has the truncated target distribution. -/
theorem C67_sample (h : IdealDraws past sig P env) (hl : ∀ ω, (env ω).ops.Lawful) (env' : Ω → Env XR D d M O) (hL : ∀ ω, Lifts (env ω) (env' ω)) (c : BundleCfg XR D d M O) (hc : GoodCfg c)
    (hn : 0 < c.nChains) (hb : 0 < c.batchSize) (data : Data D) (hig : IgnoresNSteps c.logpdf) (hbad : ∀ x i, BufNum.isFinite (x i) = false → Ieee.Bad (c.logpdf.val x data))
    (nd nc : ℕ) (key : Key) (kw : List (String × V)) (s : Sampler XR D d M O V) (hs : Sampler.new nd nc key none none none (some (malaBundle c)) kw = .ok s)
    (init : Ω → InitPos XR d) (hx : ∀ ω, (init ω).atleast2d.length = c.nChains) (hinit : ∀ ω, ∀ x ∈ (init ω).atleast2d, ¬ Ieee.Bad (c.logpdf.val x data)) :
    ∃ (w : Ω → World XR D d M O) (s' : Ω → Sampler XR D d M O V), (∀ ω, s.sample (env' ω) (init ω) data = (.ok (), s' ω)) ∧
      (∀ ω, Completes (env' ω) (malaBundle c).strategies.lookup data (repeatPhase c.nTrainLoops trainingPhase ++ ["reset_steppers", "update_state"])
        ⟨key, (init ω).atleast2d, ⟨(malaBundle c).resources, fun _ => 0⟩⟩ (w ω)) ∧
      ∀ (E : Set Ω) (m : M) (μ : Measure (Fin d → ℝ)) (_ : IsProbabilityMeasure μ), ExactWallBundle (fun _ => True) P sig env env' S lp g c data m μ →
        MeasurableSet[before past sig (trainedKey c.nTrainLoops c.nEpochs key)] E → P E ≠ 0 →
        (∀ ω ∈ E, (w ω).heap.res "global_sampler" = some (.kernel (.nf m c.nfBatch))) →
        (∀ i < c.nChains, ∃ X : Ω → Fin d → ℝ, (∀ ω ∈ E, (w ω).xs[i]? = some (emb (X ω)) ∧ X ω ∈ S) ∧
          Measurable[before past sig (trainedKey c.nTrainLoops c.nEpochs key)] X ∧ (P[|E]).map X = μ) →
        ∀ i < c.nChains, ∀ j < c.nProdSteps, ∃ Y : E → Fin d → ℝ, Measurable Y ∧ (condOn P E).map Y = μ ∧
          ∀ ω : E, Y ω ∈ S ∧ ∃ b, (s' ω).heap.res "positions_production" = some (.buffer b) ∧ ∀ a : Fin d, b.data.get [i, j, a] = XR.fin (Y ω a) := by
  simp only [Sampler.new, Except.ok.injEq] at hs
  subst hs
  have hl' : ∀ ω, (env' ω).ops.Lawful := fun ω => lifts_lawful (hL ω) (hl ω)
  have hG : ∀ ω, StaysIn (env' ω) c data (fun x => ¬ Ieee.Bad (c.logpdf.val x data)) := by
    intro ω
    refine ⟨fun k x hx => ?_, fun m k x r hx hr => ?_, fun x hx i => ?_⟩
    · exact C20_chain (env' ω).rng (.mala c.stepSize : KernelRes XR d M) _ rfl c.logpdf data c.nLocal k x hx
    · exact C20_nf_chain (env' ω) (hl' ω) m c.nfBatch hc.nfBatch c.logpdf hig data c.nGlobal k x hx r hr
    · by_contra hf
      exact hx (hbad x i (by simpa using hf))
  choose w w' h1 h2 using fun ω => bundle_total (env' ω) (hl' ω) c hc data hn hb _ (hG ω) key (init ω).atleast2d (hx ω) (hinit ω)
  have h3 : ∀ ω, Completes (env' ω) (bundleStrategies c).lookup data (bundleOrder c) ⟨key, (init ω).atleast2d, ⟨bundleResources c, fun _ => 0⟩⟩ (w' ω) := fun ω => by
    rw [bundleOrder, completes_append]; exact ⟨w ω, h1 ω, h2 ω⟩
  have h4 := fun ω => completes_sample (h3 ω)
  have hsample : ∀ ω, Sampler.sample (V := V) (env' ω) ⟨nd, nc, key, ⟨bundleResources c, fun _ => 0⟩, (bundleStrategies c).lookup, some (bundleOrder c), setAttrs kw (fun _ => none)⟩ (init ω) data =
      (.ok (), ⟨nd, nc, key, (w' ω).heap, (bundleStrategies c).lookup, some (bundleOrder c), setAttrs kw (fun _ => none)⟩) := by
    intro ω
    simp only [Sampler.sample]
    rw [h4 ω]
  refine ⟨w, _, hsample, h1, ?_⟩
  intro E m μ hμ hE hEm hP hflow hstart
  exact C67_given_training h env' c data m μ hE key (fun ω => (init ω).atleast2d) hx w w' (trainedKey c.nTrainLoops c.nEpochs key) E hEm hP (fun ω _ => h1 ω)
    (fun ω _ => switch_key (env' ω) c data _ _ _ (h1 ω)) hflow hstart (fun ω _ => h2 ω)

end
end FlowMC
