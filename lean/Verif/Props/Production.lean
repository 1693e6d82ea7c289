import Verif.Props.FlowChains
import Verif.Props.ProdLoops
import Verif.Lemmas.Condition
/-
C28 as recorded in the buffers, and C63: the production phase of the bundle samples the target.
-/
open MeasureTheory ProbabilityTheory
open scoped ENNReal
set_option linter.unusedSectionVars false
namespace FlowMC
open Spec

variable {Ω D M O : Type} {d : ℕ} [BufNum ℝ]
variable {past : MeasurableSpace Ω} {sig : Key → MeasurableSpace Ω} [mΩ : MeasurableSpace Ω] {P : Measure Ω} [IsProbabilityMeasure P] {env : Ω → Env ℝ D d M O} {T : Key → Prop}

/-- A random position that is always there, is determined by the draws in `S`, and has distribution `μ`. -/
def KnownLaw (past : MeasurableSpace Ω) (sig : Key → MeasurableSpace Ω) [mΩ : MeasurableSpace Ω] (P : Measure Ω) (S : Set (Option Key)) (μ : Measure (Pos ℝ d)) (f : Ω → Option (Pos ℝ d)) : Prop :=
  ∃ Y : Ω → Pos ℝ d, (∀ ω, f ω = some (Y ω)) ∧ Measurable[info past sig S] Y ∧ P.map Y = μ

theorem KnownLaw.mono {S S' : Set (Option Key)} (hS : S ⊆ S') {μ : Measure (Pos ℝ d)} {f : Ω → Option (Pos ℝ d)} (h : KnownLaw past sig P S μ f) :
    KnownLaw past sig P S' μ f := by
  obtain ⟨Y, h1, h2, h3⟩ := h
  exact ⟨Y, h1, h2.mono (info_mono hS) le_rfl, h3⟩

theorem KnownLaw.congr {S : Set (Option Key)} {μ : Measure (Pos ℝ d)} {f g : Ω → Option (Pos ℝ d)} (h : KnownLaw past sig P S μ f) (hfg : ∀ ω, g ω = f ω) :
    KnownLaw past sig P S μ g := by
  obtain ⟨Y, h1, h2⟩ := h
  exact ⟨Y, fun ω => by rw [hfg, h1], h2⟩

/-- Row `j` of a serial chain. -/
theorem serial_row (h : IdealOn T past sig P env) (kr : KernelRes ℝ d M) (hk : ExactSettings kr) (K : Ω → LocalKernel ℝ D d)
    (hK : ∀ ω, kr.local? (env ω).rng = some (K ω)) (t : Target ℝ D d) (data : Data D) (ht : Measurable (fun x => t.val x data))
    (hg : Measurable (fun x => t.grad x data)) (μ : Measure (Pos ℝ d)) (hμ : SamplesFrom μ (fun x => t.val x data)) (n j : ℕ) (hj : j < n) (k : Key)
    (hT : ∀ a, Desc k a → T a) (S : Set (Option Key)) (hS : Disjoint S (descSet k)) (X : Ω → Pos ℝ d) (hX : Measurable[info past sig S] X) (hlaw : P.map X = μ) :
    KnownLaw past sig P (S ∪ descSet k) μ (fun ω => ((serialSample (K ω) t data n k (X ω))[j]?).map (·.pos)) := by
  obtain ⟨h1, h2⟩ := serial_law h kr hk K hK t data ht hg μ hμ (j + 1) k hT S hS X hX hlaw
  exact ⟨_, fun ω => serialSample_state (K ω) t data n k (X ω) (j + 1) hj, h2, h1⟩

/-- Row `j` of a flow sweep. -/
theorem group_row (h : IdealOn T past sig P env) (m : M) (q : Measure (Pos ℝ d)) [IsProbabilityMeasure q] (lnf : Pos ℝ d → ℝ) (hlnf : Measurable lnf)
    (hf : IdealFlowOn T P sig env m q lnf) (batch : ℕ) (hb : 0 < batch) (t : Target ℝ D d) (hn : IgnoresNSteps t) (data : Data D)
    (ht : Measurable (fun x => t.val x data)) (μ : Measure (Pos ℝ d)) [IsProbabilityMeasure μ] (hμ : SamplesFrom μ (fun x => t.val x data)) (n j : ℕ) (hj : j < n) (k : Key)
    (hT : ∀ a, Desc k a → T a) (S : Set (Option Key)) (hS : Disjoint S (descSet k)) (X : Ω → Pos ℝ d) (hX : Measurable[info past sig S] X) (hlaw : P.map X = μ)
    (rows : Ω → List (StepOut ℝ d)) (hrows : ∀ ω, groupSample (env ω) m batch t data n k (X ω) = .ok (rows ω)) :
    KnownLaw past sig P (S ∪ descSet k) μ (fun ω => ((rows ω)[j]?).map (·.pos)) := by
  obtain ⟨h1, h2⟩ := sweep_law h m q lnf hlnf hf batch hb t data ht μ hμ n k hT S hS X hX hlaw (j + 1)
  refine ⟨_, fun ω => ?_, h2, h1⟩
  obtain ⟨r, e, -, hr⟩ := group_sweep (env ω) (hf.lawful ω) m batch hb t hn data n k (X ω)
  rw [hrows ω, Except.ok.injEq] at e
  simp only [e, hr j hj, hf.logProb ω]

/-- **C28 (as recorded).** A call of a serial step strategy on `n` chains whose starting positions have the target distribution and are independent of the draws:
whatever the thinning and the number of steps, cell (`chain i`, `cursor + j`) of the position buffer has the target distribution for every recorded row `j`, and so has
the position of chain `i` handed to the next strategy. -/
theorem C28_recorded (h : IdealDraws past sig P env) (s : TakeSteps) (k : Key) (n : ℕ) (xs : Ω → List (Pos ℝ d)) (hn : ∀ ω, (xs ω).length = n) (data : Data D)
    (hp : Ω → Heap ℝ D d M O) (cap : ℕ) (Pn L A : String) (bP bL bA : Ω → Buffer ℝ) (hpt : ∀ ω, PointsAt (hp ω) s Pn L A)
    (hr : ∀ ω, Recorders (hp ω) n cap Pn L A (bP ω) (bL ω) (bA ω)) (cur : ℕ) (hcur : ∀ ω, (hp ω).pos s.ident = cur) (hfit : cur + ceilDiv' s.nSteps s.thinning ≤ cap)
    (kr : KernelRes ℝ d M) (hk : ExactSettings kr) (K : Ω → LocalKernel ℝ D d) (t : Target ℝ D d) (hs : ∀ ω, SerialSite (env ω) s (hp ω) kr (K ω) t)
    (hth : 0 < s.thinning) (hns : 0 < s.nSteps) (ht : Measurable (fun x => t.val x data)) (hg : Measurable (fun x => t.grad x data)) (μ : Measure (Pos ℝ d))
    (hμ : SamplesFrom μ (fun x => t.val x data)) (i : ℕ) (X : Ω → Pos ℝ d) (hXi : ∀ ω, (xs ω)[i]? = some (X ω)) (hX : Measurable[past] X) (hlaw : P.map X = μ) :
    ∃ (ys : Ω → List (Pos ℝ d)) (h' : Ω → Heap ℝ D d M O), (∀ ω, s.run (env ω) k (xs ω) data (hp ω) = (.ok (.child k 0, ys ω), h' ω)) ∧
      (∃ Y : Ω → Pos ℝ d, (∀ ω, (ys ω)[i]? = some (Y ω)) ∧ Measurable Y ∧ P.map Y = μ) ∧
      ∀ j, j < ceilDiv' s.nSteps s.thinning → ∃ Y : Ω → Pos ℝ d, Measurable Y ∧ P.map Y = μ ∧
        ∀ ω, ∃ b, (h' ω).res Pn = some (.buffer b) ∧ ∀ a : Fin d, b.data.get [i, cur + j, a] = Y ω a := by
  have hcall := fun ω => serial_call (env ω) s k (xs ω) data (hp ω) cap Pn L A (bP ω) (bL ω) (bA ω) (hpt ω) (by rw [hn]; exact hr ω) (by rw [hcur]; exact hfit) kr (K ω) t (hs ω) hth hns
  choose ys h' hrun he hy hys using hcall
  have hrow := fun j (hj : j < s.nSteps) => serial_row h kr hk K (fun ω => (hs ω).isLocal) t data ht hg μ hμ s.nSteps j hj (.child (.child k 1) i) (fun _ _ => trivial) {none}
    (by rw [Set.disjoint_left]; rintro o ho ⟨a, rfl, _⟩; simp at ho) X (hX.mono (past_le_info (by simp)) le_rfl) hlaw
  have hcell : ∀ ω, (serialRows (K ω) t data s.nSteps k (xs ω))[i]? = some (serialSample (K ω) t data s.nSteps (.child (.child k 1) i) (X ω)) := by
    intro ω; rw [serialRows_cell, hXi]; rfl
  refine ⟨ys, h', hrun, ?_, ?_⟩
  · have hc := ceilDiv'_pos s.nSteps s.thinning hth hns
    obtain ⟨Y, h1, h2, h3⟩ := hrow _ (lt_of_lt_ceil hth hns (show ceilDiv' s.nSteps s.thinning - 1 < _ by omega))
    refine ⟨Y, fun ω => ?_, h2.mono (h.info_le _) le_rfl, h3⟩
    rw [hys, hcell, Option.bind_some]; exact h1 ω
  · intro j hj
    obtain ⟨Y, h1, h2, h3⟩ := hrow _ (lt_of_lt_ceil hth hns hj)
    refine ⟨Y, h2.mono (h.info_le _) le_rfl, h3, fun ω => ?_⟩
    obtain ⟨b', hb', hrec⟩ := (he ω).pos
    refine ⟨b', hb', fun a => ?_⟩
    have hi : i < (xs ω).length := (List.getElem?_eq_some_iff.1 (hXi ω)).1
    have := hrec.inside i j (Y ω) hi hj ?_ a
    · rw [hcur] at this; exact this
    · rw [cell_everyNth _ hth, cellOf, hcell, Option.bind_some]; exact h1 ω

/-! ### production loops -/

/-- What is assumed about the target, the configuration and the frozen flow in C63. -/
structure Spec.ExactBundle (T : Key → Prop) (P : Measure Ω) (sig : Key → MeasurableSpace Ω) (env : Ω → Env ℝ D d M O) (c : BundleCfg ℝ D d M O) (data : Data D) (m : M)
    (μ : Measure (Pos ℝ d)) : Prop where
  /-- positive step counts and batch size, thinnings dividing the step counts -/
  good : GoodCfg c
  step : c.stepSize ≠ 0
  meas : Measurable (fun x => c.logpdf.val x data)
  gradMeas : Measurable (fun x => c.logpdf.grad x data)
  ignores : IgnoresNSteps c.logpdf
  /-- `μ` is the normalised target -/
  target : SamplesFrom μ (fun x => c.logpdf.val x data)
  /-- the frozen flow's `log_prob` is, up to a constant, the log-density of its samples -/
  flow : ∃ (q : Measure (Pos ℝ d)) (lnf : Pos ℝ d → ℝ), IsProbabilityMeasure q ∧ Measurable lnf ∧ IdealFlowOn T P sig env m q lnf

theorem exact_rowLaws (k : Key) (h : IdealOn (Desc k) past sig P env) (c : BundleCfg ℝ D d M O) (data : Data D) (m : M) (μ : Measure (Pos ℝ d)) [IsProbabilityMeasure μ]
    (hE : ExactBundle (Desc k) P sig env c data m μ) : RowLaws (fun _ S => KnownLaw past sig P S μ) env c data (fun _ => m) k := by
  obtain ⟨q, lnf, hq, hlm, hfl⟩ := hE.flow
  refine ⟨fun _ S S' f hS hf => hf.mono hS, fun _ S f hf => ⟨hf.choose, hf.choose_spec.1⟩, hE.good, fun ω => hfl.lawful ω, ?_, ?_⟩
  · rintro a ha _ S hS X ⟨X', hX', hXm, hXl⟩ j hj
    obtain rfl : X' = X := funext fun ω => (Option.some.inj (hX' ω)).symm
    exact serial_row h (.mala c.stepSize) hE.step (fun ω k x lp t data => malaKernel (env ω).rng c.stepSize k x lp t data) (fun _ => rfl) c.logpdf data hE.meas hE.gradMeas μ hE.target
      c.nLocal j hj a (fun _ => desc_trans ha) S hS X' hXm hXl
  · rintro a ha _ S hS X ⟨X', hX', hXm, hXl⟩ rows hrows j hj
    obtain rfl : X' = X := funext fun ω => (Option.some.inj (hX' ω)).symm
    exact group_row h m q lnf hlm hfl c.nfBatch hE.good.nfBatch c.logpdf hE.ignores data hE.meas μ hE.target c.nGlobal j hj a (fun _ => desc_trans ha) S hS X' hXm hXl rows hrows

/-- **C63.** A run of `RQSpline_MALA_Bundle` in an ideal random world.  Suppose that when training is over (`w ω`) the random key is `k`, the flow in the global
sampler is `m` — a flow whose `log_prob` is the log-density of its samples up to a constant — and the position of every chain has the target distribution and
is determined by what happened before (`past`).  Then after any number of production loops, whatever the step counts, thinning and batch sizes, every cell
(chain `i`, step `j`) of the production position buffer has the target distribution. -/
theorem C63_production (k : Key) (h : IdealOn (Desc k) past sig P env) (c : BundleCfg ℝ D d M O) (data : Data D) (m : M) (μ : Measure (Pos ℝ d)) [IsProbabilityMeasure μ]
    (hE : ExactBundle (Desc k) P sig env c data m μ) (key : Ω → Key) (xs : Ω → List (Pos ℝ d)) (hx : ∀ ω, (xs ω).length = c.nChains) (w w' : Ω → World ℝ D d M O)
    (htrain : ∀ ω, Completes (env ω) (malaBundle c).strategies.lookup data (repeatPhase c.nTrainLoops trainingPhase ++ ["reset_steppers", "update_state"])
      ⟨key ω, xs ω, ⟨(malaBundle c).resources, fun _ => 0⟩⟩ (w ω))
    (hkey : ∀ ω, (w ω).key = k) (hflow : ∀ ω, (w ω).heap.res "global_sampler" = some (.kernel (.nf m c.nfBatch)))
    (hstart : ∀ i < c.nChains, ∃ X : Ω → Pos ℝ d, (∀ ω, (w ω).xs[i]? = some (X ω)) ∧ Measurable[past] X ∧ P.map X = μ)
    (hprod : ∀ ω, Completes (env ω) (malaBundle c).strategies.lookup data (repeatPhase c.nProdLoops productionPhase) (w ω) (w' ω)) :
    (∀ i < c.nChains, ∀ j < c.nProdSteps, ∃ Y : Ω → Pos ℝ d, Measurable Y ∧ P.map Y = μ ∧
      ∀ ω, ∃ b, (w' ω).heap.res "positions_production" = some (.buffer b) ∧ ∀ a : Fin d, b.data.get [i, j, a] = Y ω a) ∧
    ∀ i < c.nChains, ∃ Y : Ω → Pos ℝ d, (∀ ω, (w' ω).xs[i]? = some (Y ω)) ∧ Measurable Y ∧ P.map Y = μ := by
  obtain ⟨S', h1, h2⟩ := production_cells (exact_rowLaws k h c data m μ hE) w w' (fun ω => production_start (env ω) (hE.flow.choose_spec.choose_spec.2.2.lawful ω) c hE.good data (key ω) (xs ω) (hx ω) (w ω) (htrain ω)) hkey hflow (fun i hi => by
    obtain ⟨X, h1, h2, h3⟩ := hstart i hi
    exact ⟨X, h1, h2.mono (past_le_info (by simp)) le_rfl, h3⟩) hprod
  refine ⟨fun i hi j hj => ?_, fun i hi => ?_⟩
  · obtain ⟨-, Y, ⟨Y', hY', hm, hl⟩, hc⟩ := h1 i hi j hj
    obtain rfl : Y' = Y := funext fun ω => (Option.some.inj (hY' ω)).symm
    exact ⟨Y', hm.mono (h.info_le _) le_rfl, hl, hc⟩
  · obtain ⟨Y, h1, h2, h3⟩ := h2 i hi
    exact ⟨Y, h1, h2.mono (h.info_le _) le_rfl, h3⟩

/-- **C63 (given the training phase).** A whole run of `RQSpline_MALA_Bundle` — training and production — in an ideal random world.  Let `k` be the random key at
the end of training and `E` any event of positive probability that is decided before the production phase, on which training ended with the flow `m` in the
global sampler.  If, given `E`, the position of every chain at the end of training has the target distribution (and is decided before production), then, given `E`,
every cell (chain `i`, step `j`) of the production position buffer has the target distribution. -/
theorem C63_given_training (h : IdealDraws past sig P env) (c : BundleCfg ℝ D d M O) (data : Data D) (m : M) (μ : Measure (Pos ℝ d)) [IsProbabilityMeasure μ]
    (hB : ExactBundle (fun _ => True) P sig env c data m μ) (key : Key) (xs : Ω → List (Pos ℝ d)) (hx : ∀ ω, (xs ω).length = c.nChains) (w w' : Ω → World ℝ D d M O) (k : Key)
    (E : Set Ω) (hE : MeasurableSet[before past sig k] E) (hP : P E ≠ 0)
    (htrain : ∀ ω ∈ E, Completes (env ω) (malaBundle c).strategies.lookup data (repeatPhase c.nTrainLoops trainingPhase ++ ["reset_steppers", "update_state"])
      ⟨key, xs ω, ⟨(malaBundle c).resources, fun _ => 0⟩⟩ (w ω))
    (hkey : ∀ ω ∈ E, (w ω).key = k) (hflow : ∀ ω ∈ E, (w ω).heap.res "global_sampler" = some (.kernel (.nf m c.nfBatch)))
    (hstart : ∀ i < c.nChains, ∃ X : Ω → Pos ℝ d, (∀ ω ∈ E, (w ω).xs[i]? = some (X ω)) ∧ Measurable[before past sig k] X ∧ (P[|E]).map X = μ)
    (hprod : ∀ ω ∈ E, Completes (env ω) (malaBundle c).strategies.lookup data (repeatPhase c.nProdLoops productionPhase) (w ω) (w' ω)) :
    ∀ i < c.nChains, ∀ j < c.nProdSteps, ∃ Y : E → Pos ℝ d, Measurable Y ∧ (condOn P E).map Y = μ ∧
      ∀ ω : E, ∃ b, (w' ω).heap.res "positions_production" = some (.buffer b) ∧ ∀ a : Fin d, b.data.get [i, j, a] = Y ω a := by
  have hE' : MeasurableSet E := before_le h k E hE
  have hI := idealOn_cond h k (fun _ _ => trivial) hE hP
  haveI : IsProbabilityMeasure (condOn P E) := by
    constructor
    have := condOn_apply (P := P) hE' MeasurableSet.univ
    rw [Set.preimage_univ] at this
    rw [this]
    exact (cond_isProbabilityMeasure hP).measure_univ
  obtain ⟨q, lnf, hq, hlm, hfl⟩ := hB.flow
  have hEB : ExactBundle (Desc k) (condOn P E) (fun a => (after sig k a).comap Subtype.val) (fun ω : E => env ω) c data m μ :=
    ⟨hB.good, hB.step, hB.meas, hB.gradMeas, hB.ignores, hB.target, q, lnf, hq, hlm, idealFlow_cond h k (fun _ _ => trivial) hE hP m q lnf hfl⟩
  refine (C63_production k hI c data m μ hEB (fun _ => key) (fun ω : E => xs ω) (fun ω => hx ω) (fun ω : E => w ω) (fun ω : E => w' ω) (fun ω => htrain ω ω.2)
    (fun ω => hkey ω ω.2) (fun ω => hflow ω ω.2) ?_ (fun ω => hprod ω ω.2)).1
  intro i hi
  obtain ⟨X, h1, h2, h3⟩ := hstart i hi
  exact ⟨fun ω : E => X ω, fun ω => h1 ω ω.2, h2.comp (comap_measurable _), by rw [condOn_map hE' (h2.mono (before_le h k) le_rfl), h3]⟩

end FlowMC
