import Verif.Props.Converge
import Verif.Props.ProductionRun
/-
C70 for recorded rows: whatever the start, late rows of a chain have the target distribution up to any `ε`.
-/
open MeasureTheory ProbabilityTheory
open scoped ENNReal
set_option linter.unusedSectionVars false
namespace FlowMC
open Spec

/-! ### steps never increase the distance to an invariant distribution -/

section
variable {X N : Type} [MeasurableSpace X] [MeasurableSpace N] {ν : Measure N} [IsProbabilityMeasure ν] {step : N → X → X}

theorem prod_le_of_sections {μ π : Measure X} [SFinite μ] [SFinite π] (δ : ℝ≥0∞) (h : ∀ A, MeasurableSet A → μ A ≤ π A + δ) (B : Set (X × N)) (hB : MeasurableSet B) :
    (μ.prod ν) B ≤ (π.prod ν) B + δ := by
  rw [Measure.prod_apply_symm hB, Measure.prod_apply_symm hB]
  calc ∫⁻ y, μ ((fun x => (x, y)) ⁻¹' B) ∂ν ≤ ∫⁻ y, (π ((fun x => (x, y)) ⁻¹' B) + δ) ∂ν := lintegral_mono fun y => h _ (measurable_prodMk_right hB)
    _ = _ := by rw [lintegral_add_right _ measurable_const]; simp

theorem real_close_iff {μ π : Measure X} [IsProbabilityMeasure μ] [IsProbabilityMeasure π] {ε : ℝ} (hε : 0 ≤ ε) (A : Set X) :
    |μ.real A - π.real A| ≤ ε ↔ μ A ≤ π A + ENNReal.ofReal ε ∧ π A ≤ μ A + ENNReal.ofReal ε := by
  have e : ∀ (a b : Measure X) [IsProbabilityMeasure a] [IsProbabilityMeasure b], a A ≤ b A + ENNReal.ofReal ε ↔ a.real A ≤ b.real A + ε := by
    intro a b _ _
    rw [← ENNReal.toReal_le_toReal (measure_ne_top _ _) (by simp), ENNReal.toReal_add (measure_ne_top _ _) (by simp), ENNReal.toReal_ofReal hε]
    rfl
  rw [e, e, abs_le]
  constructor
  · rintro ⟨h1, h2⟩; exact ⟨by linarith, by linarith⟩
  · rintro ⟨h1, h2⟩; exact ⟨by linarith, by linarith⟩

/-- All events have probabilities within `ε`. -/
def Near (μ π : Measure X) (ε : ℝ) : Prop := ∀ A, MeasurableSet A → |μ.real A - π.real A| ≤ ε

theorem near_step {μ π : Measure X} [IsProbabilityMeasure μ] [IsProbabilityMeasure π] {ε : ℝ} (h : Near μ π ε) (hm : Measurable fun p : X × N => step p.2 p.1)
    (hπ : stepLaw ν step π = π) : Near (stepLaw ν step μ) π ε := by
  have hε : 0 ≤ ε := le_trans (abs_nonneg _) (h ∅ MeasurableSet.empty)
  haveI : IsProbabilityMeasure (stepLaw ν step μ) := Measure.isProbabilityMeasure_map hm.aemeasurable
  intro A hA
  rw [real_close_iff hε]
  have h1 : ∀ A, MeasurableSet A → μ A ≤ π A + ENNReal.ofReal ε := fun A hA => ((real_close_iff hε A).1 (h A hA)).1
  have h2 : ∀ A, MeasurableSet A → π A ≤ μ A + ENNReal.ofReal ε := fun A hA => ((real_close_iff hε A).1 (h A hA)).2
  have e : ∀ ρ : Measure X, stepLaw ν step ρ A = (ρ.prod ν) ((fun p : X × N => step p.2 p.1) ⁻¹' A) := fun ρ => Measure.map_apply hm hA
  conv => enter [1, 2]; rw [← hπ]
  conv => enter [2, 1]; rw [← hπ]
  rw [e, e]
  exact ⟨prod_le_of_sections _ h1 _ (hm hA), prod_le_of_sections _ h2 _ (hm hA)⟩

end

/-! ### histories of steps -/

section
variable {X : Type} [MeasurableSpace X]

/-- Distribution after a history of steps (latest first). -/
def histLaw (loc glob : Measure X → Measure X) : List Bool → Measure X → Measure X
  | [], μ => μ
  | true :: h, μ => loc (histLaw loc glob h μ)
  | false :: h, μ => glob (histLaw loc glob h μ)

theorem histLaw_append (loc glob : Measure X → Measure X) (h h' : List Bool) (μ : Measure X) : histLaw loc glob (h ++ h') μ = histLaw loc glob h (histLaw loc glob h' μ) := by
  induction h with
  | nil => rfl
  | cons b h ih => cases b <;> simp only [List.cons_append, histLaw, ih]

theorem histLaw_local (loc glob : Measure X → Measure X) (n : ℕ) (μ : Measure X) : histLaw loc glob (List.replicate n true) μ = loc^[n] μ := by
  induction n with
  | zero => rfl
  | succ n ih => rw [List.replicate_succ, histLaw, ih, Function.iterate_succ_apply']

theorem histLaw_global (loc glob : Measure X → Measure X) (n : ℕ) (μ : Measure X) : histLaw loc glob (List.replicate n false) μ = glob^[n] μ := by
  induction n with
  | zero => rfl
  | succ n ih => rw [List.replicate_succ, histLaw, ih, Function.iterate_succ_apply']

theorem histLaw_loops {F D M O : Type} {d : ℕ} [Zero F] [One F] [Add F] [Mul F] [Div F] [Sub F] [Neg F] [NatCast F] [Transc F] [FCmp F] [BufNum F]
    (loc glob : Measure X → Measure X) (c : BundleCfg F D d M O) (n : ℕ) (μ : Measure X) : histLaw loc glob (loopsSteps c n) μ =
      (fun μ => glob^[(rowsPerCall c false - 1) * c.globalThin + 1] (loc^[(rowsPerCall c true - 1) * c.localThin + 1] μ))^[n] μ := by
  induction n with
  | zero => rfl
  | succ n ih => rw [loopsSteps, loopSteps, histLaw_append, histLaw_append, histLaw_local, histLaw_global, ih, Function.iterate_succ_apply' _ n]

theorem histLaw_near {loc glob : Measure X → Measure X} {π : Measure X} {ε : ℝ}
    (hl : ∀ μ, IsProbabilityMeasure μ → IsProbabilityMeasure (loc μ) ∧ (Near μ π ε → Near (loc μ) π ε))
    (hg : ∀ μ, IsProbabilityMeasure μ → IsProbabilityMeasure (glob μ) ∧ (Near μ π ε → Near (glob μ) π ε)) (h : List Bool) (μ : Measure X) (hμ : IsProbabilityMeasure μ) :
    IsProbabilityMeasure (histLaw loc glob h μ) ∧ (Near μ π ε → Near (histLaw loc glob h μ) π ε) := by
  induction h with
  | nil => exact ⟨hμ, id⟩
  | cons b h ih =>
    cases b
    · exact ⟨(hg _ ih.1).1, fun hn => (hg _ ih.1).2 (ih.2 hn)⟩
    · exact ⟨(hl _ ih.1).1, fun hn => (hl _ ih.1).2 (ih.2 hn)⟩

end

variable {Ω D M O V : Type} {d : ℕ}
variable {past : MeasurableSpace Ω} {sig : Key → MeasurableSpace Ω} [mΩ : MeasurableSpace Ω] {P : Measure Ω} [IsProbabilityMeasure P] {env : Ω → Env ℝ D d M O} {T : Key → Prop}

theorem closeInLaw_of_near {Y : Ω → Pos ℝ d} (hY : Measurable Y) {π : Measure (Pos ℝ d)} {ε : ℝ} (h : Near (P.map Y) π ε) : CloseInLaw P Y π ε := by
  intro A hA
  have := h A hA
  rwa [measureReal_def, Measure.map_apply hY hA, ← measureReal_def] at this

theorem tv_near {X : Type} [MeasurableSpace X] {law : ℕ → Measure X} {π : Measure X} (h : TVConverges law π) {ε : ℝ} (hε : 0 < ε) : ∃ N, ∀ n, N ≤ n → Near (law n) π ε := h ε hε

/-- The local kernels that converge on their own: a random walk or MALA with a non-zero step size, HMC with a diagonal mass matrix and short trajectories (`grad` is the gradient of the log-density). -/
def Spec.MixingSettings (grad : Pos ℝ d → Pos ℝ d) : KernelRes ℝ d M → Prop
  | .grw s => s ≠ 0
  | .mala dt => dt ≠ 0
  | .hmc ε n m L => IsPosDiag m ∧ IsCholeskyInv m L ∧ ShortTrajectory ε n m grad
  | .nf _ _ => False

theorem local_tv (kr : KernelRes ℝ d M) (t : Target ℝ D d) (data : Data D) (hk : MixingSettings (fun x => t.grad x data) kr) (ht : Measurable (fun x => t.val x data)) (hg : Measurable (fun x => t.grad x data))
    (hfin : targetMeasure (fun x => t.val x data) Set.univ ≠ ∞) (μ : Measure (Pos ℝ d)) [IsProbabilityMeasure μ] :
    TVConverges (fun n => (stepLaw (noise d) (localStep kr t data))^[n] μ) (normalised (targetMeasure fun x => t.val x data)) := by
  cases kr with
  | grw s => exact C70_grw s hk t data ht hfin μ
  | mala s => exact C70_mala s hk t data ht hg hfin μ
  | hmc s n m L => exact tv_of_good ((hmc_mhData s n m L hk.1 hk.2.1 t data hk.2.2 ht hg).good ht hfin μ inferInstance)
  | nf _ _ => exact hk.elim

/-- **C70 (rows of a chain of local steps).** A chain of local steps (`TakeSerialSteps` with the random walk, MALA, or HMC with short trajectories) from an arbitrary random start that is independent of
the draws, for a target with a density that is positive everywhere and has a finite integral: for every `ε` there is an `N` such that, however many steps are taken, every
row from the `N`-th on has the normalised target distribution up to `ε`. -/
theorem C70_serial_rows (h : IdealDraws past sig P env) (kr : KernelRes ℝ d M) (K : Ω → LocalKernel ℝ D d)
    (hK : ∀ ω, kr.local? (env ω).rng = some (K ω)) (t : Target ℝ D d) (data : Data D) (hk : MixingSettings (fun x => t.grad x data) kr) (ht : Measurable (fun x => t.val x data))
    (hg : Measurable (fun x => t.grad x data)) (hfin : targetMeasure (fun x => t.val x data) Set.univ ≠ ∞) (X : Ω → Pos ℝ d) (hX : Measurable[past] X) (ε : ℝ) (hε : 0 < ε) :
    ∃ N, ∀ (n : ℕ) (k : Key) (j : ℕ), N ≤ j → j < n → ∃ Y : Ω → Pos ℝ d, (∀ ω, ((serialSample (K ω) t data n k (X ω))[j]?).map (·.pos) = some (Y ω)) ∧ Measurable Y ∧
      CloseInLaw P Y (normalised (targetMeasure fun x => t.val x data)) ε := by
  have hX' : Measurable[mΩ] X := hX.mono (le_trans (past_le_info (past := past) (sig := sig) (S := {none}) (by simp)) (h.info_le _)) le_rfl
  haveI : IsProbabilityMeasure (P.map X) := Measure.isProbabilityMeasure_map hX'.aemeasurable
  obtain ⟨N, hN⟩ := tv_near (local_tv kr t data hk ht hg hfin (P.map X)) hε
  refine ⟨N, fun n k j hj hjn => ?_⟩
  have hS : Disjoint ({none} : Set (Option Key)) (descSet k) := by
    rw [Set.disjoint_left]; rintro o ho ⟨a, rfl, _⟩; simp at ho
  have := serial_iter h kr K hK t data ht hg _ (j + 1) k (fun _ _ => trivial) {none} hS X (hX.mono (past_le_info (by simp)) le_rfl) rfl
  have hY := this.2.mono (h.info_le _) le_rfl
  refine ⟨_, fun ω => serialSample_state (K ω) t data n k (X ω) (j + 1) hjn, hY, closeInLaw_of_near hY ?_⟩
  rw [this.1]
  exact hN (j + 1) (by omega)

/-- **C70 (rows of a flow sweep).** The same for `n` flow proposals (`TakeGroupSteps`), whatever the proposal batch size and however bad the flow is — provided its `log_prob` is, up to a
constant, the log-density of its samples. -/
theorem C70_sweep_rows (h : IdealDraws past sig P env) (m : M) (q : Measure (Pos ℝ d)) [IsProbabilityMeasure q] (lnf : Pos ℝ d → ℝ) (hlnf : Measurable lnf)
    (hf : IdealFlow P sig env m q lnf) (batch : ℕ) (hb : 0 < batch) (t : Target ℝ D d) (hn : IgnoresNSteps t) (data : Data D)
    (ht : Measurable (fun x => t.val x data)) (hfin : targetMeasure (fun x => t.val x data) Set.univ ≠ ∞) (X : Ω → Pos ℝ d) (hX : Measurable[past] X) (ε : ℝ) (hε : 0 < ε) :
    ∃ N, ∀ (n : ℕ) (k : Key), ∃ rows : Ω → List (StepOut ℝ d), (∀ ω, groupSample (env ω) m batch t data n k (X ω) = .ok (rows ω) ∧ (rows ω).length = n) ∧
      ∀ j, N ≤ j → j < n → ∃ Y : Ω → Pos ℝ d, (∀ ω, ((rows ω)[j]?).map (·.pos) = some (Y ω)) ∧ Measurable Y ∧
        CloseInLaw P Y (normalised (targetMeasure fun x => t.val x data)) ε := by
  have hX' : Measurable[mΩ] X := hX.mono (le_trans (past_le_info (past := past) (sig := sig) (S := {none}) (by simp)) (h.info_le _)) le_rfl
  haveI : IsProbabilityMeasure (P.map X) := Measure.isProbabilityMeasure_map hX'.aemeasurable
  obtain ⟨N, hN⟩ := tv_near (C70_flow t data ht lnf hlnf q hf.density hfin (P.map X)) hε
  refine ⟨N, fun n k => ?_⟩
  have hS : Disjoint ({none} : Set (Option Key)) (descSet k) := by
    rw [Set.disjoint_left]; rintro o ho ⟨a, rfl, _⟩; simp at ho
  choose rows hrows using fun ω => group_sweep (env ω) (hf.lawful ω) m batch hb t hn data n k (X ω)
  refine ⟨rows, fun ω => ⟨(hrows ω).1, (hrows ω).2.1⟩, ?_⟩
  intro j hj hjn
  have := sweep_iter h m q lnf hf batch hb _ (flowStep_measurable t data lnf ht hlnf) _ n k (fun _ _ => trivial) {none} hS X (hX.mono (past_le_info (by simp)) le_rfl) rfl (j + 1) hjn
  have hY := this.2.mono (h.info_le _) le_rfl
  refine ⟨_, fun ω => ?_, hY, closeInLaw_of_near hY ?_⟩
  · rw [(hrows ω).2.2 j hjn, hf.logProb ω]
  · rw [this.1]; exact hN (j + 1) (by omega)

/-! ### production -/

variable [BufNum ℝ]

/-- Laws of the rows of production loops, from arbitrary start laws. -/
theorem hist_rowLaws (k : Key) (h : IdealOn (Desc k) past sig P env) (c : BundleCfg ℝ D d M O) (hc : GoodCfg c) (data : Data D) (m : M)
    (ht : Measurable (fun x => c.logpdf.val x data)) (hg : Measurable (fun x => c.logpdf.grad x data)) (hig : IgnoresNSteps c.logpdf)
    (q : Measure (Pos ℝ d)) [IsProbabilityMeasure q] (lnf : Pos ℝ d → ℝ) (hlnf : Measurable lnf) (hf : IdealFlowOn (Desc k) P sig env m q lnf) (starts : Set (Measure (Pos ℝ d))) :
    RowLaws (fun hist S f => ∃ μ ∈ starts, KnownLaw past sig P S (histLaw (stepLaw (noise d) (localStep (.mala c.stepSize : KernelRes ℝ d M) c.logpdf data))
      (stepLaw (q.prod unif) (flowStep c.logpdf data lnf)) hist μ) f) env c data (fun _ => m) k := by
  refine ⟨?_, ?_, hc, fun ω => hf.lawful ω, ?_, ?_⟩
  · rintro hist S S' f hS ⟨μ, hμ, hk⟩; exact ⟨μ, hμ, hk.mono hS⟩
  · rintro hist S f ⟨μ, hμ, hk⟩; exact ⟨hk.choose, hk.choose_spec.1⟩
  · rintro a ha hist S hS X ⟨μ, hμ, X', hX', hXm, hXl⟩ j hj
    obtain rfl : X' = X := funext fun ω => (Option.some.inj (hX' ω)).symm
    obtain ⟨h1, h2⟩ := serial_iter h (.mala c.stepSize : KernelRes ℝ d M) (fun ω k x lp t data => malaKernel (env ω).rng c.stepSize k x lp t data) (fun _ => rfl) c.logpdf data ht hg _ (j + 1) a
      (fun _ => desc_trans ha) S hS X' hXm hXl
    refine ⟨μ, hμ, _, fun ω => serialSample_state _ c.logpdf data c.nLocal a (X' ω) (j + 1) hj, h2, ?_⟩
    rw [h1, histLaw_append, histLaw_local]
  · rintro a ha hist S hS X ⟨μ, hμ, X', hX', hXm, hXl⟩ rows hrows j hj
    obtain rfl : X' = X := funext fun ω => (Option.some.inj (hX' ω)).symm
    haveI : IsProbabilityMeasure (P.map X') := Measure.isProbabilityMeasure_map (hXm.mono (h.info_le _) le_rfl).aemeasurable
    obtain ⟨h1, h2⟩ := sweep_iter h m q lnf hf c.nfBatch hc.nfBatch _ (flowStep_measurable c.logpdf data lnf ht hlnf) _ c.nGlobal a (fun _ => desc_trans ha) S hS X' hXm rfl (j + 1) hj
    refine ⟨μ, hμ, _, fun ω => ?_, h2, ?_⟩
    · obtain ⟨r, e, -, hr⟩ := group_sweep (env ω) (hf.lawful ω) m c.nfBatch hc.nfBatch c.logpdf hig data c.nGlobal a (X' ω)
      rw [hrows ω, Except.ok.injEq] at e
      simp only [e, hr j hj, hf.logProb ω]
    · rw [h1, hXl, histLaw_append, histLaw_global]

/-- What is assumed about the target, the configuration and the frozen flow in C70. -/
structure Spec.MixingBundle (T : Key → Prop) (P : Measure Ω) (sig : Key → MeasurableSpace Ω) (env : Ω → Env ℝ D d M O) (c : BundleCfg ℝ D d M O) (data : Data D) (m : M)
    (q : Measure (Pos ℝ d)) (lnf : Pos ℝ d → ℝ) : Prop where
  /-- positive step counts and batch size, thinnings dividing the step counts -/
  good : GoodCfg c
  step : c.stepSize ≠ 0
  meas : Measurable (fun x => c.logpdf.val x data)
  gradMeas : Measurable (fun x => c.logpdf.grad x data)
  ignores : IgnoresNSteps c.logpdf
  /-- the target density has a finite integral -/
  finite : targetMeasure (fun x => c.logpdf.val x data) Set.univ ≠ ∞
  /-- the frozen flow's `log_prob` is `lnf`, up to a constant the log-density of its samples, which have distribution `q` -/
  prob : IsProbabilityMeasure q
  lnfMeas : Measurable lnf
  flow : IdealFlowOn T P sig env m q lnf

/-- After enough cycles of local steps and flow proposals all further rows are near the target, for finitely many start laws at once. -/
theorem cycles_near (c : BundleCfg ℝ D d M O) (data : Data D) (hs : c.stepSize ≠ 0) (ht : Measurable (fun x => c.logpdf.val x data)) (hg : Measurable (fun x => c.logpdf.grad x data))
    (hfin : targetMeasure (fun x => c.logpdf.val x data) Set.univ ≠ ∞) (q : Measure (Pos ℝ d)) [IsProbabilityMeasure q] (lnf : Pos ℝ d → ℝ) (hlnf : Measurable lnf) (hq : SamplesFrom q lnf)
    (n : ℕ) (μ : ℕ → Measure (Pos ℝ d)) (hμ : ∀ i, IsProbabilityMeasure (μ i)) (ε : ℝ) (hε : 0 < ε) :
    ∃ N, ∀ i < n, ∀ l, N ≤ l → ∀ pre, Near (histLaw (stepLaw (noise d) (localStep (.mala c.stepSize : KernelRes ℝ d M) c.logpdf data))
      (stepLaw (q.prod unif) (flowStep c.logpdf data lnf)) (pre ++ loopsSteps c l) (μ i)) (normalised (targetMeasure fun x => c.logpdf.val x data)) ε := by
  haveI := normalised_isProb _ ht hfin
  have hL := mala_mhData c.stepSize hs c.logpdf data ht hg
  have hG := flow_mhData c.logpdf data ht lnf hlnf q hq
  have key : ∀ i, ∃ N, ∀ l, N ≤ l → Near (histLaw (stepLaw (noise d) (localStep (.mala c.stepSize : KernelRes ℝ d M) c.logpdf data))
      (stepLaw (q.prod unif) (flowStep c.logpdf data lnf)) (loopsSteps c l) (μ i)) (normalised (targetMeasure fun x => c.logpdf.val x data)) ε := by
    intro i
    haveI := hμ i
    obtain ⟨N, hN⟩ := tv_near (tv_of_good (flow_cycle_all c.logpdf data ht lnf hlnf q hq hfin hL ((rowsPerCall c true - 1) * c.localThin + 1) ((rowsPerCall c false - 1) * c.globalThin + 1)
      (by omega) (μ i) inferInstance)) hε
    refine ⟨N, fun l hl => ?_⟩
    rw [histLaw_loops]
    exact hN l hl
  choose N hN using key
  haveI : IsProbabilityMeasure (noise d) := by unfold noise; infer_instance
  have st : ∀ (Nn : Type) (_ : MeasurableSpace Nn) (ν : Measure Nn) (_ : IsProbabilityMeasure ν) (step : Nn → Pos ℝ d → Pos ℝ d), Measurable (fun p : Pos ℝ d × Nn => step p.2 p.1) →
      Reversible (normalised (targetMeasure fun x => c.logpdf.val x data)) ν step →
      ∀ ρ : Measure (Pos ℝ d), IsProbabilityMeasure ρ → IsProbabilityMeasure (stepLaw ν step ρ) ∧
        (Near ρ (normalised (targetMeasure fun x => c.logpdf.val x data)) ε → Near (stepLaw ν step ρ) (normalised (targetMeasure fun x => c.logpdf.val x data)) ε) := by
    intro Nn _ ν _ step hm hr ρ hρ
    exact ⟨Measure.isProbabilityMeasure_map hm.aemeasurable, fun hn => near_step hn hm (hr.invariant hm)⟩
  refine ⟨(Finset.range n).sup N, fun i hi l hl pre => ?_⟩
  have hNi : N i ≤ l := le_trans (Finset.le_sup (Finset.mem_range.2 hi)) hl
  rw [histLaw_append]
  have hloc := st _ _ (noise d) inferInstance _ hL.meas hL.reversible
  have hglob := st _ _ (q.prod unif) inferInstance _ hG.meas hG.reversible
  exact (histLaw_near hloc hglob pre _ (histLaw_near hloc hglob (loopsSteps c l) _ (hμ i)).1).2 (hN i l hNi)

section
variable {F : Type} [Zero F] [One F] [Add F] [Mul F] [Div F] [Sub F] [Neg F] [NatCast F] [Transc F] [FCmp F] [BufNum F]

/-- The same bundle with another number of production loops. -/
def BundleCfg.withProd (c : BundleCfg F D d M O) (n : ℕ) : BundleCfg F D d M O := { c with nProdLoops := n }

omit [BufNum ℝ] mΩ in
theorem loopsSteps_withProd (c : BundleCfg F D d M O) (n l : ℕ) : loopsSteps (c.withProd n) l = loopsSteps c l := by
  induction l with
  | zero => rfl
  | succ l ih => simp only [loopsSteps, ih]; rfl

omit [BufNum ℝ] mΩ in
theorem goodCfg_withProd {c : BundleCfg F D d M O} (hc : GoodCfg c) (n : ℕ) : GoodCfg (c.withProd n) := ⟨hc.1, hc.2, hc.3, hc.4, hc.5, hc.6, hc.7⟩

end

theorem Spec.MixingBundle.withProd {T : Key → Prop} {c : BundleCfg ℝ D d M O} {data : Data D} {m : M} {q : Measure (Pos ℝ d)} {lnf : Pos ℝ d → ℝ}
    (hE : MixingBundle T P sig env c data m q lnf) (n : ℕ) : MixingBundle T P sig env (c.withProd n) data m q lnf :=
  ⟨goodCfg_withProd hE.good n, hE.step, hE.meas, hE.gradMeas, hE.ignores, hE.finite, hE.prob, hE.lnfMeas, hE.flow⟩

/-- Every production row has the law of a chain after the steps of the loops completed before it and some more steps. -/
theorem production_hist (k : Key) (h : IdealOn (Desc k) past sig P env) (c : BundleCfg ℝ D d M O) (data : Data D) (m : M) (q : Measure (Pos ℝ d)) (lnf : Pos ℝ d → ℝ)
    (hE : MixingBundle (Desc k) P sig env c data m q lnf) (μ : ℕ → Measure (Pos ℝ d))
    (key : Ω → Key) (xs : Ω → List (Pos ℝ d)) (hx : ∀ ω, (xs ω).length = c.nChains) (w w' : Ω → World ℝ D d M O)
    (htrain : ∀ ω, Completes (env ω) (malaBundle c).strategies.lookup data (repeatPhase c.nTrainLoops trainingPhase ++ ["reset_steppers", "update_state"])
      ⟨key ω, xs ω, ⟨(malaBundle c).resources, fun _ => 0⟩⟩ (w ω))
    (hkey : ∀ ω, (w ω).key = k) (hflow : ∀ ω, (w ω).heap.res "global_sampler" = some (.kernel (.nf m c.nfBatch)))
    (hstart : ∀ i < c.nChains, ∃ X : Ω → Pos ℝ d, (∀ ω, (w ω).xs[i]? = some (X ω)) ∧ Measurable[past] X ∧ P.map X = μ i)
    (hprod : ∀ ω, Completes (env ω) (malaBundle c).strategies.lookup data (repeatPhase c.nProdLoops productionPhase) (w ω) (w' ω)) :
    ∀ i < c.nChains, ∀ j < c.nProdSteps, ∃ Y : Ω → Pos ℝ d, Measurable Y ∧ (∃ i' < c.nChains, ∃ pre,
        P.map Y = histLaw (stepLaw (noise d) (localStep (.mala c.stepSize : KernelRes ℝ d M) c.logpdf data)) (stepLaw (q.prod unif) (flowStep c.logpdf data lnf))
          (pre ++ loopsSteps c (j / (rowsPerCall c true + rowsPerCall c false))) (μ i')) ∧
      ∀ ω, ∃ b, (w' ω).heap.res "positions_production" = some (.buffer b) ∧ ∀ a : Fin d, b.data.get [i, j, a] = Y ω a := by
  haveI := hE.prob
  obtain ⟨S', h1, -⟩ := production_cells (hist_rowLaws k h c hE.good data m hE.meas hE.gradMeas hE.ignores q lnf hE.lnfMeas hE.flow {ρ | ∃ i < c.nChains, ρ = μ i}) w w'
    (fun ω => production_start (env ω) (hE.flow.lawful ω) c hE.good data (key ω) (xs ω) (hx ω) (w ω) (htrain ω)) hkey hflow
    (fun i hi => by
      obtain ⟨X, h1, h2, h3⟩ := hstart i hi
      exact ⟨μ i, ⟨i, hi, rfl⟩, X, h1, h2.mono (past_le_info (by simp)) le_rfl, h3⟩) hprod
  intro i hi j hj
  obtain ⟨pre, Y, ⟨ρ, ⟨i', hi', rfl⟩, Y', hY', hm, hl⟩, hc⟩ := h1 i hi j hj
  obtain rfl : Y' = Y := funext fun ω => (Option.some.inj (hY' ω)).symm
  exact ⟨Y', hm.mono (h.info_le _) le_rfl, ⟨i', hi', pre, hl⟩, hc⟩

theorem production_near (k : Key) (h : IdealOn (Desc k) past sig P env) (c : BundleCfg ℝ D d M O) (data : Data D) (m : M) (q : Measure (Pos ℝ d)) (lnf : Pos ℝ d → ℝ)
    (hE : MixingBundle (Desc k) P sig env c data m q lnf) (μ : ℕ → Measure (Pos ℝ d)) (ε : ℝ) (N : ℕ)
    (hN : ∀ i < c.nChains, ∀ l, N ≤ l → ∀ pre, Near (histLaw (stepLaw (noise d) (localStep (.mala c.stepSize : KernelRes ℝ d M) c.logpdf data))
      (stepLaw (q.prod unif) (flowStep c.logpdf data lnf)) (pre ++ loopsSteps c l) (μ i)) (normalised (targetMeasure fun x => c.logpdf.val x data)) ε)
    (key : Ω → Key) (xs : Ω → List (Pos ℝ d)) (hx : ∀ ω, (xs ω).length = c.nChains) (w w' : Ω → World ℝ D d M O)
    (htrain : ∀ ω, Completes (env ω) (malaBundle c).strategies.lookup data (repeatPhase c.nTrainLoops trainingPhase ++ ["reset_steppers", "update_state"])
      ⟨key ω, xs ω, ⟨(malaBundle c).resources, fun _ => 0⟩⟩ (w ω))
    (hkey : ∀ ω, (w ω).key = k) (hflow : ∀ ω, (w ω).heap.res "global_sampler" = some (.kernel (.nf m c.nfBatch)))
    (hstart : ∀ i < c.nChains, ∃ X : Ω → Pos ℝ d, (∀ ω, (w ω).xs[i]? = some (X ω)) ∧ Measurable[past] X ∧ P.map X = μ i)
    (hprod : ∀ ω, Completes (env ω) (malaBundle c).strategies.lookup data (repeatPhase c.nProdLoops productionPhase) (w ω) (w' ω)) :
    ∀ i < c.nChains, ∀ j < c.nProdSteps, N * (rowsPerCall c true + rowsPerCall c false) ≤ j → ∃ Y : Ω → Pos ℝ d, Measurable Y ∧
      CloseInLaw P Y (normalised (targetMeasure fun x => c.logpdf.val x data)) ε ∧
      ∀ ω, ∃ b, (w' ω).heap.res "positions_production" = some (.buffer b) ∧ ∀ a : Fin d, b.data.get [i, j, a] = Y ω a := by
  intro i hi j hj hNj
  obtain ⟨Y, hm, ⟨i', hi', pre, hl⟩, hc⟩ := production_hist k h c data m q lnf hE μ key xs hx w w' htrain hkey hflow hstart hprod i hi j hj
  refine ⟨Y, hm, closeInLaw_of_near hm ?_, hc⟩
  rw [hl]
  refine hN i' hi' _ ?_ pre
  have := rowsPerCall_pos hE.good true
  exact (Nat.le_div_iff_mul_le (by omega)).2 hNj

/-- **C70 (production phase).** A run of `RQSpline_MALA_Bundle` in an ideal random world.  Suppose that when training is over (`w ω`) the random key is `k`, the flow in the global sampler is `m` — a flow
whose `log_prob` is the log-density of its samples up to a constant, but which may be arbitrarily far from the target — and the position of chain `i` has *any* distribution `μ i`, determined by what happened before.
Then for every `ε` there is an `N`, which does not depend on the number of production loops `n`, such that every cell (chain `i`, step `j ≥ N`) of the production position buffer has the normalised target
distribution up to `ε`. -/
theorem C70_production (k : Key) (h : IdealOn (Desc k) past sig P env) (c : BundleCfg ℝ D d M O) (data : Data D) (m : M) (q : Measure (Pos ℝ d)) (lnf : Pos ℝ d → ℝ)
    (hE : MixingBundle (Desc k) P sig env c data m q lnf) (μ : ℕ → Measure (Pos ℝ d)) (hμ : ∀ i, IsProbabilityMeasure (μ i)) (ε : ℝ) (hε : 0 < ε) :
    ∃ N, ∀ (n : ℕ) (key : Ω → Key) (xs : Ω → List (Pos ℝ d)) (w w' : Ω → World ℝ D d M O), (∀ ω, (xs ω).length = c.nChains) →
      (∀ ω, Completes (env ω) (malaBundle (c.withProd n)).strategies.lookup data (repeatPhase c.nTrainLoops trainingPhase ++ ["reset_steppers", "update_state"])
        ⟨key ω, xs ω, ⟨(malaBundle (c.withProd n)).resources, fun _ => 0⟩⟩ (w ω)) →
      (∀ ω, (w ω).key = k) → (∀ ω, (w ω).heap.res "global_sampler" = some (.kernel (.nf m c.nfBatch))) →
      (∀ i < c.nChains, ∃ X : Ω → Pos ℝ d, (∀ ω, (w ω).xs[i]? = some (X ω)) ∧ Measurable[past] X ∧ P.map X = μ i) →
      (∀ ω, Completes (env ω) (malaBundle (c.withProd n)).strategies.lookup data (repeatPhase n productionPhase) (w ω) (w' ω)) →
      ∀ i < c.nChains, ∀ j < (c.withProd n).nProdSteps, N ≤ j → ∃ Y : Ω → Pos ℝ d, Measurable Y ∧
        CloseInLaw P Y (normalised (targetMeasure fun x => c.logpdf.val x data)) ε ∧
        ∀ ω, ∃ b, (w' ω).heap.res "positions_production" = some (.buffer b) ∧ ∀ a : Fin d, b.data.get [i, j, a] = Y ω a := by
  haveI := hE.prob
  obtain ⟨N, hN⟩ := cycles_near c data hE.step hE.meas hE.gradMeas hE.finite q lnf hE.lnfMeas hE.flow.density c.nChains μ hμ ε hε
  refine ⟨N * (rowsPerCall c true + rowsPerCall c false), fun n key xs w w' hx htrain hkey hflow hstart hprod => ?_⟩
  refine production_near k h (c.withProd n) data m q lnf (hE.withProd n) μ ε N (fun i hi l hl pre => ?_) key xs hx w w' htrain hkey hflow hstart hprod
  rw [loopsSteps_withProd]
  exact hN i hi l hl pre

/-- **C70 (given the training phase).** Whole runs of `RQSpline_MALA_Bundle` — training and production — in an ideal random world.  For every flow `m`, every choice of start laws `μ i` and every `ε`
there is an `N` such that, whatever the number `n` of production loops: if `k` is the random key at the end of training, and `E` is any event of positive probability that is decided before production, on
which training ended with the flow `m` in the global sampler, and given which the position of chain `i` at the end of training has the distribution `μ i` — any distribution —, then, given `E`, every
cell (chain `i`, step `j ≥ N`) of the production position buffer has the target distribution up to `ε`. -/
theorem C70_given_training (h : IdealDraws past sig P env) (c : BundleCfg ℝ D d M O) (data : Data D) (m : M) (q : Measure (Pos ℝ d)) (lnf : Pos ℝ d → ℝ)
    (hB : MixingBundle (fun _ => True) P sig env c data m q lnf) (μ : ℕ → Measure (Pos ℝ d)) (hμ : ∀ i, IsProbabilityMeasure (μ i)) (ε : ℝ) (hε : 0 < ε) :
    ∃ N, ∀ (n : ℕ) (key : Key) (xs : Ω → List (Pos ℝ d)) (w w' : Ω → World ℝ D d M O) (k : Key) (E : Set Ω), (∀ ω, (xs ω).length = c.nChains) →
      MeasurableSet[before past sig k] E → P E ≠ 0 →
      (∀ ω ∈ E, Completes (env ω) (malaBundle (c.withProd n)).strategies.lookup data (repeatPhase c.nTrainLoops trainingPhase ++ ["reset_steppers", "update_state"])
        ⟨key, xs ω, ⟨(malaBundle (c.withProd n)).resources, fun _ => 0⟩⟩ (w ω)) →
      (∀ ω ∈ E, (w ω).key = k) → (∀ ω ∈ E, (w ω).heap.res "global_sampler" = some (.kernel (.nf m c.nfBatch))) →
      (∀ i < c.nChains, ∃ X : Ω → Pos ℝ d, (∀ ω ∈ E, (w ω).xs[i]? = some (X ω)) ∧ Measurable[before past sig k] X ∧ (P[|E]).map X = μ i) →
      (∀ ω ∈ E, Completes (env ω) (malaBundle (c.withProd n)).strategies.lookup data (repeatPhase n productionPhase) (w ω) (w' ω)) →
      ∀ i < c.nChains, ∀ j < (c.withProd n).nProdSteps, N ≤ j → ∃ Y : E → Pos ℝ d, Measurable Y ∧
        CloseInLaw (condOn P E) Y (normalised (targetMeasure fun x => c.logpdf.val x data)) ε ∧
        ∀ ω : E, ∃ b, (w' ω).heap.res "positions_production" = some (.buffer b) ∧ ∀ a : Fin d, b.data.get [i, j, a] = Y ω a := by
  haveI := hB.prob
  obtain ⟨N, hN⟩ := cycles_near c data hB.step hB.meas hB.gradMeas hB.finite q lnf hB.lnfMeas hB.flow.density c.nChains μ hμ ε hε
  refine ⟨N * (rowsPerCall c true + rowsPerCall c false), fun n key xs w w' k E hx hE hP htrain hkey hflow hstart hprod => ?_⟩
  have hE' : MeasurableSet E := before_le h k E hE
  have hI := idealOn_cond h k (fun _ _ => trivial) hE hP
  haveI : IsProbabilityMeasure (condOn P E) := by
    constructor
    have := condOn_apply (P := P) hE' MeasurableSet.univ
    rw [Set.preimage_univ] at this
    rw [this]
    exact (cond_isProbabilityMeasure hP).measure_univ
  have hEB : MixingBundle (Desc k) (condOn P E) (fun a => (after sig k a).comap Subtype.val) (fun ω : E => env ω) (c.withProd n) data m q lnf :=
    ⟨goodCfg_withProd hB.good n, hB.step, hB.meas, hB.gradMeas, hB.ignores, hB.finite, hB.prob, hB.lnfMeas, idealFlow_cond h k (fun _ _ => trivial) hE hP m q lnf hB.flow⟩
  refine production_near k hI (c.withProd n) data m q lnf hEB μ ε N (fun i hi l hl pre => ?_) (fun _ => key) (fun ω : E => xs ω) (fun ω => hx ω) (fun ω : E => w ω) (fun ω : E => w' ω)
    (fun ω => htrain ω ω.2) (fun ω => hkey ω ω.2) (fun ω => hflow ω ω.2) ?_ (fun ω => hprod ω ω.2)
  · rw [loopsSteps_withProd]
    exact hN i hi l hl pre
  · intro i hi
    obtain ⟨X, h1, h2, h3⟩ := hstart i hi
    exact ⟨fun ω : E => X ω, fun ω => h1 ω ω.2, h2.comp (comap_measurable _), by rw [condOn_map hE' (h2.mono (before_le h k) le_rfl), h3]⟩

/-- **C70 (whole `sample` call).** `Sampler(rqs_mala_bundle).sample(initial_position, data)` in an ideal random world never raises; and for every flow `m`, start laws `μ i` and `ε` there is an `N` which does
not depend on the number `n` of production loops: given any event `E` of positive probability, decided before production, on which the frozen flow is `m` and given which chain `i` starts production
with distribution `μ i`, every row `j ≥ N` of the production position buffer has the target distribution up to `ε`. -/
theorem C70_sample (h : IdealDraws past sig P env) (c : BundleCfg ℝ D d M O) (hn : 0 < c.nChains) (hb : 0 < c.batchSize)
    (hfin : ∀ x : ℝ, BufNum.isFinite x = true) (data : Data D) (m : M) (q : Measure (Pos ℝ d)) (lnf : Pos ℝ d → ℝ) (hB : MixingBundle (fun _ => True) P sig env c data m q lnf)
    (μ : ℕ → Measure (Pos ℝ d)) (hμ : ∀ i, IsProbabilityMeasure (μ i)) (ε : ℝ) (hε : 0 < ε) :
    ∃ N, ∀ (n nd nc : ℕ) (key : Key) (kw : List (String × V)) (s : Sampler ℝ D d M O V), Sampler.new nd nc key none none none (some (malaBundle (c.withProd n))) kw = .ok s →
      ∀ init : Ω → InitPos ℝ d, (∀ ω, (init ω).atleast2d.length = c.nChains) →
      ∃ (w : Ω → World ℝ D d M O) (s' : Ω → Sampler ℝ D d M O V), (∀ ω, s.sample (env ω) (init ω) data = (.ok (), s' ω)) ∧
      (∀ ω, Completes (env ω) (malaBundle (c.withProd n)).strategies.lookup data (repeatPhase c.nTrainLoops trainingPhase ++ ["reset_steppers", "update_state"])
        ⟨key, (init ω).atleast2d, ⟨(malaBundle (c.withProd n)).resources, fun _ => 0⟩⟩ (w ω)) ∧
      ∀ E : Set Ω, MeasurableSet[before past sig (trainedKey c.nTrainLoops c.nEpochs key)] E → P E ≠ 0 →
        (∀ ω ∈ E, (w ω).heap.res "global_sampler" = some (.kernel (.nf m c.nfBatch))) →
        (∀ i < c.nChains, ∃ X : Ω → Pos ℝ d, (∀ ω ∈ E, (w ω).xs[i]? = some (X ω)) ∧
          Measurable[before past sig (trainedKey c.nTrainLoops c.nEpochs key)] X ∧ (P[|E]).map X = μ i) →
        ∀ i < c.nChains, ∀ j < (c.withProd n).nProdSteps, N ≤ j → ∃ Y : E → Pos ℝ d, Measurable Y ∧
          CloseInLaw (condOn P E) Y (normalised (targetMeasure fun x => c.logpdf.val x data)) ε ∧
          ∀ ω : E, ∃ b, (s' ω).heap.res "positions_production" = some (.buffer b) ∧ ∀ a : Fin d, b.data.get [i, j, a] = Y ω a := by
  obtain ⟨N, hN⟩ := C70_given_training h c data m q lnf hB μ hμ ε hε
  refine ⟨N, fun n nd nc key kw s hs init hx => ?_⟩
  simp only [Sampler.new, Except.ok.injEq] at hs
  subst hs
  have hl : ∀ ω, (env ω).ops.Lawful := hB.flow.lawful
  have hG : ∀ ω, StaysIn (env ω) (c.withProd n) data (fun _ => True) := fun ω => ⟨fun _ _ _ _ _ => trivial, fun _ _ _ _ _ _ _ _ => trivial, fun x _ i => hfin _⟩
  choose w w' h1 h2 using fun ω => bundle_total (env ω) (hl ω) (c.withProd n) (goodCfg_withProd hB.good n) data hn hb _ (hG ω) key (init ω).atleast2d (hx ω) (fun _ _ => trivial)
  have h3 : ∀ ω, Completes (env ω) (bundleStrategies (c.withProd n)).lookup data (bundleOrder (c.withProd n)) ⟨key, (init ω).atleast2d, ⟨bundleResources (c.withProd n), fun _ => 0⟩⟩ (w' ω) := fun ω => by
    rw [bundleOrder, completes_append]; exact ⟨w ω, h1 ω, h2 ω⟩
  have h4 := fun ω => completes_sample (h3 ω)
  have hsample : ∀ ω, Sampler.sample (V := V) (env ω) ⟨nd, nc, key, ⟨bundleResources (c.withProd n), fun _ => 0⟩, (bundleStrategies (c.withProd n)).lookup, some (bundleOrder (c.withProd n)),
      setAttrs kw (fun _ => none)⟩ (init ω) data =
      (.ok (), ⟨nd, nc, key, (w' ω).heap, (bundleStrategies (c.withProd n)).lookup, some (bundleOrder (c.withProd n)), setAttrs kw (fun _ => none)⟩) := by
    intro ω
    simp only [Sampler.sample]
    rw [h4 ω]
  refine ⟨w, _, hsample, h1, ?_⟩
  intro E hEm hP hflow hstart
  exact hN n key (fun ω => (init ω).atleast2d) w w' (trainedKey c.nTrainLoops c.nEpochs key) E hx hEm hP (fun ω _ => h1 ω)
    (fun ω _ => switch_key (env ω) (c.withProd n) data _ _ _ (h1 ω)) hflow hstart (fun ω _ => h2 ω)

end FlowMC
