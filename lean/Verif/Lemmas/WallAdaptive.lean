import Verif.Props.AdaptiveChains
import Verif.Props.WallConvergeRun
/-
Chains on a target with hard boundaries, whose flow is random but fixed before the chain starts.
-/
open MeasureTheory ProbabilityTheory Filter
open scoped ENNReal Topology
set_option linter.unusedSectionVars false
namespace FlowMC
open Spec
noncomputable section

variable {Ω D M O V Z W : Type} {d : ℕ}
variable {S : Set (Fin d → ℝ)} {lp : (Fin d → ℝ) → ℝ} {g : (Fin d → ℝ) → Fin d → ℝ} {t : Target XR D d} {data : Data D}
variable {past : MeasurableSpace Ω} {sig : Key → MeasurableSpace Ω} [mΩ : MeasurableSpace Ω] {P : Measure Ω} [IsProbabilityMeasure P] {env : Ω → Env ℝ D d M O} {T : Key → Prop}
  [MeasurableSpace M] [MeasurableSpace Z] [MeasurableSpace W] {ν : Measure Z} {push : M → Z → Pos ℝ d} {lnf : M → Pos ℝ d → ℝ} {G : Set M}

theorem emb_injective {x y : Fin d → ℝ} (h : emb x = emb y) : x = y := funext fun i => XR.fin.inj (congrFun h i)

/-- A step of the chain with a proposal of the flow carried along, from base noise. -/
def pushBy (step : M → Pos ℝ d × ℝ → Pos ℝ d → Pos ℝ d) (push : M → Z → Pos ℝ d) (φ : W → M) (w : W) (p : Z × ℝ) : Pos ℝ d → Pos ℝ d := step (φ w) (push (φ w) p.1, p.2)

/-- A flow sweep with a flow known before, for any rule of accepting. -/
theorem sweep_family_by (h : IdealOn T past sig P env) (hf : FlowFamily T P sig env ν push lnf G) (batch : ℕ) (hb : 0 < batch) (step : M → Pos ℝ d × ℝ → Pos ℝ d → Pos ℝ d)
    (φ : W → M) (hst : Measurable fun p : (W × Pos ℝ d) × (Z × ℝ) => pushBy step push φ p.1.1 p.2 p.1.2) (μ : Measure (W × Pos ℝ d)) [IsProbabilityMeasure μ] (n : ℕ) (k : Key) (hT : ∀ a, Desc k a → T a)
    (A : Set (Option Key)) (hA : Disjoint A (descSet k)) (Y : Ω → W) (hY : Measurable[info past sig A] Y) (hG : ∀ ω, φ (Y ω) ∈ G) (X : Ω → Pos ℝ d) (hX : Measurable[info past sig A] X)
    (hlaw : P.map (fun ω => (Y ω, X ω)) = μ) (j : ℕ) (hj : j ≤ n) :
    P.map (fun ω => (Y ω, sweepAt (step (φ (Y ω))) j n (X ω) (fun i : Fin n => flowProposal (env ω).ops (φ (Y ω)) batch (.child k 1) n i)
        (fun i : Fin n => (env ω).rng.uniform (stepKey (.child k 0) i)))) = (stepLaw (ν.prod unif) (onSndAt (pushBy step push φ)))^[j] μ ∧
    Measurable[info past sig (A ∪ descSet k)] (fun ω => sweepAt (step (φ (Y ω))) j n (X ω) (fun i : Fin n => flowProposal (env ω).ops (φ (Y ω)) batch (.child k 1) n i)
        (fun i : Fin n => (env ω).rng.uniform (stepKey (.child k 0) i))) := by
  haveI := hf.prob
  obtain ⟨z, zm, zl, ze⟩ := base_draws h hf batch hb (.child k 1) (fun a ha => hT a (desc_trans (.child 1 .refl) ha)) n
  obtain ⟨um, ul⟩ := uniforms_law h (.child k 0) (fun a ha => hT a (desc_trans (.child 0 .refl) ha)) n
  have vu := h.joint (descSet_disjoint (by decide)) zm um
  have vum : Measurable[info past sig (descSet k)] (fun ω => (z ω, (fun i : Fin n => (env ω).rng.uniform (stepKey (.child k 0) i)))) :=
    (zm.mono (info_mono descSet_child) le_rfl).prodMk (um.mono (info_mono descSet_child) le_rfl)
  have hjt := h.joint hA (hY.prodMk hX) vum
  rw [vu, zl, ul, hlaw] at hjt
  have hsm := onSndAt_measurable hst
  have hmeas := sweepAt_measurable (onSndAt (pushBy step push φ)) hsm j n
  have e : ∀ ω, sweepAt (step (φ (Y ω))) j n (X ω) (fun i : Fin n => flowProposal (env ω).ops (φ (Y ω)) batch (.child k 1) n i)
        (fun i : Fin n => (env ω).rng.uniform (stepKey (.child k 0) i)) =
      (sweepAt (onSndAt (pushBy step push φ)) j n (Y ω, X ω) (z ω) (fun i : Fin n => (env ω).rng.uniform (stepKey (.child k 0) i))).2 := by
    intro ω
    rw [sweepAt_onSndAt]
    simp only [ze ω _ (hG ω)]
    exact sweepAt_push _ (push (φ (Y ω))) j n (X ω) (z ω) _
  have e' : ∀ ω, (Y ω, sweepAt (step (φ (Y ω))) j n (X ω) (fun i : Fin n => flowProposal (env ω).ops (φ (Y ω)) batch (.child k 1) n i)
        (fun i : Fin n => (env ω).rng.uniform (stepKey (.child k 0) i))) =
      sweepAt (onSndAt (pushBy step push φ)) j n (Y ω, X ω) (z ω) (fun i : Fin n => (env ω).rng.uniform (stepKey (.child k 0) i)) := by
    intro ω
    rw [e, sweepAt_onSndAt]
  constructor
  · simp only [e']
    have : (fun ω => sweepAt (onSndAt (pushBy step push φ)) j n (Y ω, X ω) (z ω) (fun i : Fin n => (env ω).rng.uniform (stepKey (.child k 0) i))) =
        (fun p : (W × Pos ℝ d) × ((Fin n → Z) × (Fin n → ℝ)) => sweepAt (onSndAt (pushBy step push φ)) j n p.1 p.2.1 p.2.2) ∘
          fun ω => ((Y ω, X ω), (z ω, (fun i : Fin n => (env ω).rng.uniform (stepKey (.child k 0) i)))) := rfl
    rw [this, ← Measure.map_map hmeas (((hY.prodMk hX).mono (h.info_le _) le_rfl).prodMk (vum.mono (h.info_le _) le_rfl)), hjt]
    exact sweepAt_iter _ hsm μ ν unif j n hj
  · simp only [e]
    exact (measurable_snd.comp hmeas).comp (((hY.prodMk hX).mono (info_mono Set.subset_union_left) le_rfl).prodMk (vum.mono (info_mono Set.subset_union_right) le_rfl))

/-- A serial chain inside the walls, jointly with something known before. -/
theorem wall_serial_joint (h : IdealOn T past sig P env) {q r} (hsm : Measurable fun p : (Fin d → ℝ) × ((Fin d → ℝ) × ℝ) => freeStep S q r p.2 p.1) (kr : KernelRes XR d M) (hk : WallKernel S t data kr q r) (K : Ω → LocalKernel XR D d)
    (hK : ∀ ω, kr.local? (liftRng (env ω).rng) = some (K ω)) (μ : Measure (W × (Fin d → ℝ))) (j : ℕ) (k : Key) (hT : ∀ a, Desc k a → T a)
    (A : Set (Option Key)) (hA : Disjoint A (descSet k)) (Z : Ω → W) (hZ : Measurable[info past sig A] Z) (X : Ω → Fin d → ℝ) (hXS : ∀ ω, X ω ∈ S) (hX : Measurable[info past sig A] X)
    (hlaw : P.map (fun ω => (Z ω, X ω)) = μ) :
    ∃ Y : Ω → Fin d → ℝ, (∀ ω, (iterState (localBody (K ω) t data) j (k, emb (X ω), t.val (emb (X ω)) data)).2.1 = emb (Y ω) ∧ Y ω ∈ S) ∧
      Measurable[info past sig (A ∪ descSet k)] Y ∧ P.map (fun ω => (Z ω, Y ω)) = (stepLaw (noise d) (onSndAt fun _ : W => freeStep S q r))^[j] μ := by
  induction j generalizing k A X μ with
  | zero => exact ⟨X, fun ω => ⟨rfl, hXS ω⟩, hX.mono (info_mono Set.subset_union_left) le_rfl, hlaw⟩
  | succ j ih =>
    obtain ⟨nm, nl⟩ := noise_law h (.child k 1) (fun a ha => hT a (desc_trans (.child 1 .refl) ha))
    have hd : Disjoint A (descSet (.child k 1)) := hA.mono_right descSet_child
    set X' : Ω → Fin d → ℝ := fun ω => freeStep S q r ((env ω).rng.normal (.child (.child k 1) 0) d, (env ω).rng.uniform (.child (.child k 1) 1)) (X ω) with hX'd
    have hbody : ∀ ω, (localBody (K ω) t data (k, emb (X ω), t.val (emb (X ω)) data)).1 = (.child k 0, emb (X' ω), t.val (emb (X' ω)) data) := by
      intro ω
      have := hk (env ω).rng (K ω) (hK ω) (.child k 1) (X ω) (hXS ω)
      simp only [localBody, split, this.1, this.2, hX'd, freeStep_eq (hXS ω)]
    have hX' : Measurable[info past sig (A ∪ descSet (.child k 1))] X' :=
      hsm.comp ((hX.mono (info_mono Set.subset_union_left) le_rfl).prodMk (nm.mono (info_mono Set.subset_union_right) le_rfl))
    have hsm' : Measurable fun p : (W × (Fin d → ℝ)) × ((Fin d → ℝ) × ℝ) => onSndAt (fun _ : W => freeStep S q r) p.2 p.1 :=
      onSndAt_measurable (step := fun _ : W => freeStep S q r) (hsm.comp ((measurable_snd.comp measurable_fst).prodMk measurable_snd))
    obtain ⟨Y, hY, hYm, hYl⟩ := ih _ (.child k 0) (fun a ha => hT a (desc_trans (.child 0 .refl) ha)) (A ∪ descSet (.child k 1))
      (Set.disjoint_union_left.2 ⟨hA.mono_right descSet_child, descSet_disjoint (by decide)⟩) (hZ.mono (info_mono Set.subset_union_left) le_rfl) X' (fun ω => freeStep_mem (hXS ω)) hX'
      (h.step_law hd (hZ.prodMk hX) nm hlaw nl hsm')
    refine ⟨Y, fun ω => ?_, hYm.mono (info_mono ?_) le_rfl, hYl⟩
    · simp only [iterState, hbody]; exact hY ω
    · exact Set.union_subset (Set.union_subset Set.subset_union_left (descSet_child.trans Set.subset_union_right)) (descSet_child.trans Set.subset_union_right)

open Classical in
/-- The rule of accepting a proposal of the flow `m` inside the walls. -/
def wallFlowStep (S : Set (Fin d → ℝ)) (lp : (Fin d → ℝ) → ℝ) (lnf : M → Pos ℝ d → ℝ) (m : M) : Pos ℝ d × ℝ → Pos ℝ d → Pos ℝ d := freeStep S Prod.snd (flowR lp (lnf m))

theorem wallFlowStep_measurable (hS : MeasurableSet S) (hlp : Measurable lp) (hp : Measurable fun p : M × Z => push p.1 p.2) (hl : Measurable fun p : M × Pos ℝ d => lnf p.1 p.2) (φ : W → M) (hφ : Measurable φ) :
    Measurable fun p : (W × Pos ℝ d) × (Z × ℝ) => pushBy (wallFlowStep S lp lnf) push φ p.1.1 p.2 p.1.2 := by
  classical
  simp only [pushBy, wallFlowStep, freeStep]
  have hφ' : Measurable fun p : (W × Pos ℝ d) × (Z × ℝ) => φ p.1.1 := hφ.comp (measurable_fst.comp measurable_fst)
  have hx : Measurable fun p : (W × Pos ℝ d) × (Z × ℝ) => p.1.2 := measurable_snd.comp measurable_fst
  have hy : Measurable fun p : (W × Pos ℝ d) × (Z × ℝ) => push (φ p.1.1) p.2.1 := hp.comp (hφ'.prodMk (measurable_fst.comp measurable_snd))
  have hu : Measurable fun p : (W × Pos ℝ d) × (Z × ℝ) => p.2.2 := measurable_snd.comp measurable_snd
  have hr : Measurable fun p : (W × Pos ℝ d) × (Z × ℝ) => flowR lp (lnf (φ p.1.1)) (p.1.2, push (φ p.1.1) p.2.1) :=
    ((hlp.comp hy).sub (hlp.comp hx)).sub ((hl.comp (hφ'.prodMk hy)).sub (hl.comp (hφ'.prodMk hx)))
  refine Measurable.ite ?_ hy hx
  refine MeasurableSet.inter (hy hS) (MeasurableSet.union (hx hS.compl) ?_)
  have := acceptTest_fin_measurable hu hr
  exact this

/-- Joint laws of rows inside the walls with something known before. -/
def WallJoint (past : MeasurableSpace Ω) (sig : Key → MeasurableSpace Ω) [mΩ : MeasurableSpace Ω] (P : Measure Ω) (S : Set (Fin d → ℝ)) (A : Set (Option Key)) (Z : Ω → W) (μ : Measure (W × (Fin d → ℝ)))
    (f : Ω → Option (Pos XR d)) : Prop :=
  Measurable[info past sig A] Z ∧ ∃ Y : Ω → Fin d → ℝ, (∀ ω, f ω = some (emb (Y ω)) ∧ Y ω ∈ S) ∧ Measurable[info past sig A] Y ∧ P.map (fun ω => (Z ω, Y ω)) = μ

/-! ### from joint laws to freshness, for any local step and any rule of accepting -/

/-- The law of a chain whose flow is fixed, in terms of the base draws. -/
theorem histLaw_pushBy [IsProbabilityMeasure ν] {N : Type} [MeasurableSpace N] {υ : Measure N} [IsProbabilityMeasure υ] {s1 : N → Pos ℝ d → Pos ℝ d} (h1 : Measurable fun p : Pos ℝ d × N => s1 p.2 p.1)
    (step : M → Pos ℝ d × ℝ → Pos ℝ d → Pos ℝ d) (φ : W → M) (y : W) (hp : Measurable (push (φ y))) (h2 : Measurable fun p : Pos ℝ d × (Pos ℝ d × ℝ) => step (φ y) p.2 p.1)
    (hist : List Bool) (μ : Measure (Pos ℝ d)) [IsProbabilityMeasure μ] :
    histLaw (stepLaw υ s1) (stepLaw (ν.prod unif) (pushBy step push φ y)) hist μ = histLaw (stepLaw υ s1) (stepLaw ((ν.map (push (φ y))).prod unif) (step (φ y))) hist μ := by
  haveI : IsProbabilityMeasure (ν.map (push (φ y))) := Measure.isProbabilityMeasure_map hp.aemeasurable
  induction hist with
  | nil => rfl
  | cons b hist ih =>
    haveI := histLaw_prob (ν1 := υ) (ν2 := (ν.map (push (φ y))).prod unif) h1 h2 hist μ
    cases b
    · rw [histLaw, histLaw, ih]
      exact stepLaw_push _ h2 _ hp ν unif _
    · rw [histLaw, histLaw, ih]

/-- A row of a chain with a flow known before is fresh if, for most outcomes, the chain with the flow fixed is near `π`. -/
theorem fresh_of_hist [IsProbabilityMeasure ν] (hle : past ≤ mΩ) {N : Type} [MeasurableSpace N] {υ : Measure N} [IsProbabilityMeasure υ] {s1 : N → Pos ℝ d → Pos ℝ d} (h1 : Measurable fun p : Pos ℝ d × N => s1 p.2 p.1)
    (step : M → Pos ℝ d × ℝ → Pos ℝ d → Pos ℝ d) (m : Ω → M) (hp : ∀ ω, Measurable (push (m ω))) (h2 : ∀ ω, Measurable fun p : Pos ℝ d × (Pos ℝ d × ℝ) => step (m ω) p.2 p.1)
    (hst : Measurable fun p : (PastOf past × Pos ℝ d) × (Z × ℝ) => pushBy step push (fun ω : PastOf past => m ω) p.1.1 p.2 p.1.2)
    (X Y : Ω → Pos ℝ d) (hX : Measurable[past] X) (hY : Measurable Y) (hist : List Bool)
    (hlaw : P.map (fun ω => (toPast past ω, Y ω)) = histLaw (stepLaw υ (onSndAt fun _ : PastOf past => s1)) (stepLaw (ν.prod unif) (onSndAt (pushBy step push (fun ω : PastOf past => m ω)))) hist
      (P.map fun ω => (toPast past ω, X ω)))
    (π : Measure (Pos ℝ d)) [IsProbabilityMeasure π] (ε : ℝ) (Nω : Ω → ℕ) (N0 : ℕ)
    (hN0 : ∀ φ a : Ω → ℝ, Measurable φ → Measurable a → (∀ ω, 0 ≤ φ ω ∧ φ ω ≤ 1) → (∀ ω, 0 ≤ a ω ∧ a ω ≤ 1) → (∀ ω, Nω ω ≤ N0 → |φ ω - a ω| ≤ ε / 2) → |∫ ω, φ ω ∂P - ∫ ω, a ω ∂P| ≤ ε)
    (hNω : ∀ ω, Nω ω ≤ N0 → Near (histLaw (stepLaw υ s1) (stepLaw ((ν.map (push (m ω))).prod unif) (step (m ω))) hist (Measure.dirac (X ω))) π (ε / 2)) : FreshInLaw past P Y π ε := by
  have hid : Measurable (toPast past) := (toPast_measurable past).mono hle le_rfl
  have hXm : Measurable X := hX.mono hle le_rfl
  have hXY : Measurable fun ω : Ω => (toPast past ω, Y ω) := hid.prodMk hY
  have hXX : Measurable fun ω : Ω => (toPast past ω, X ω) := hid.prodMk hXm
  haveI : IsProbabilityMeasure (P.map fun ω : Ω => (toPast past ω, X ω)) := Measure.isProbabilityMeasure_map hXX.aemeasurable
  haveI : ∀ ω, IsProbabilityMeasure (ν.map (push (m ω))) := fun ω => Measure.isProbabilityMeasure_map (hp ω).aemeasurable
  have h1' : Measurable fun p : (PastOf past × Pos ℝ d) × N => s1 p.2 p.1.2 := h1.comp ((measurable_snd.comp measurable_fst).prodMk measurable_snd)
  have main : ∀ E : Set (PastOf past × Pos ℝ d), MeasurableSet E → |P.real {ω | (toPast past ω, Y ω) ∈ E} - ∫ ω, π.real {y | (toPast past ω, y) ∈ E} ∂P| ≤ ε := ?_
  · exact fun E hE => main E hE
  intro E hEm
  obtain ⟨e1, e2⟩ := prob_onSndAt (ν1 := υ) (ν2 := ν.prod unif) (s1 := fun _ : PastOf past => s1) h1' hst hist (P.map fun ω : Ω => (toPast past ω, X ω)) E hEm
  have hps : ∀ p : PastOf past × Pos ℝ d, (histLaw (stepLaw υ s1) (stepLaw (ν.prod unif) (pushBy step push (fun ω : PastOf past => m ω) p.1)) hist (Measure.dirac p.2)) =
      histLaw (stepLaw υ s1) (stepLaw ((ν.map (push (m p.1))).prod unif) (step (m p.1))) hist (Measure.dirac p.2) := fun p =>
    histLaw_pushBy h1 step (fun ω : PastOf past => m ω) p.1 (hp p.1) (h2 p.1) hist (Measure.dirac p.2)
  simp only [hps] at e1 e2
  have e3 := Measurable.comp e1 hXX
  rw [← hlaw, measureReal_def, Measure.map_apply hXY hEm, integral_map hXX.aemeasurable e1.aestronglyMeasurable] at e2
  have hsec : Measurable[past] fun ω => π.real {y | (toPast past ω, y) ∈ E} := (measurable_measure_prodMk_left hEm).ennreal_toReal
  refine (congrArg (fun t => |t - _|) e2).trans_le (hN0 _ _ e3 (hsec.mono hle le_rfl) (fun ω => ?_) (fun ω => ⟨measureReal_nonneg, measureReal_le_one⟩) (fun ω hω => ?_))
  · haveI := histLaw_prob (ν1 := υ) (ν2 := (ν.map (push (m ω))).prod unif) h1 (h2 ω) hist (Measure.dirac (X ω))
    exact ⟨measureReal_nonneg, measureReal_le_one (μ := histLaw (stepLaw υ s1) (stepLaw ((ν.map (push (m ω))).prod unif) (step (m ω))) hist (Measure.dirac (X ω)))⟩
  · exact hNω ω hω _ (measurable_prodMk_left hEm)

/-! ### production inside walls -/

variable [BufNum XR]

/-- What is assumed about the target with hard boundaries, the configuration and the possible flows. -/
structure Spec.AdaptiveWallBundle (T : Key → Prop) (P : Measure Ω) (sig : Key → MeasurableSpace Ω) (env : Ω → Env ℝ D d M O) (env' : Ω → Env XR D d M O)
    (S : Set (Fin d → ℝ)) (lp : (Fin d → ℝ) → ℝ) (g : (Fin d → ℝ) → Fin d → ℝ) (c : BundleCfg XR D d M O) (data : Data D)
    (ν : Measure Z) (push : M → Z → Pos ℝ d) (lnf : M → Pos ℝ d → ℝ) (G : Set M) : Prop where
  /-- `env` is the ideal random world, `env'` the same world in arithmetic with infinities and NaN -/
  lifts : ∀ ω, Lifts (env ω) (env' ω)
  /-- positive step counts and batch size, thinnings dividing the step counts -/
  good : GoodCfg c
  step : ∃ a : ℝ, a ≠ 0 ∧ c.stepSize = .fin a
  walled : Walled S lp g c.logpdf data
  ignores : IgnoresNSteps c.logpdf
  /-- the truncated target has positive and finite mass -/
  nonzero : wallMeasure S lp Set.univ ≠ 0
  finite : wallMeasure S lp Set.univ ≠ ∞
  /-- every flow in `G` has a `log_prob` that is, up to a constant, the log-density of its samples -/
  flows : FlowFamily T P sig env ν push lnf G

theorem wall_family_rowLawsOn (hTc : ∀ a, T a → ∀ b, Desc a b → T b) (h : IdealOn T past sig P env) (env' : Ω → Env XR D d M O) (c : BundleCfg XR D d M O) (data : Data D)
    (hE : AdaptiveWallBundle T P sig env env' S lp g c data ν push lnf G) (a : ℝ) (ha : a ≠ 0) (has : c.stepSize = .fin a)
    (φ : W → M) (hφ : Measurable φ) (Y : Ω → W) (hG : ∀ ω, φ (Y ω) ∈ G) (μ : Measure (W × Pos ℝ d)) :
    RowLawsOn (fun hist A f => WallJoint past sig P S A Y (histLaw (stepLaw (noise d) (onSndAt fun _ : W => freeStep S (malaQ g a) (malaR lp g a)))
      (stepLaw (ν.prod unif) (onSndAt (pushBy (wallFlowStep S lp lnf) push φ))) hist μ) f) env' c data (fun ω => φ (Y ω)) T := by
  have hM := mala_wallMH hE.walled hE.nonzero hE.finite a ha
  refine ⟨?_, ?_, hE.good, fun ω => lifts_lawful (hE.lifts ω) (hE.flows.lawful ω), ?_, ?_⟩
  · rintro hist A A' f hA ⟨hY, X, h1, h2, h3⟩; exact ⟨hY.mono (info_mono hA) le_rfl, X, h1, h2.mono (info_mono hA) le_rfl, h3⟩
  · rintro hist A f ⟨hY, X, h1, h2, h3⟩; exact ⟨fun ω => emb (X ω), fun ω => (h1 ω).1⟩
  · rintro b hb hist A hA X ⟨hY, X', hX', hXm, hXl⟩ j hj
    obtain rfl : X = fun ω => emb (X' ω) := funext fun ω => Option.some.inj (hX' ω).1
    obtain ⟨R, h1, h2, h3⟩ := wall_serial_joint h hM.step_meas (.mala (.fin a) : KernelRes XR d M) (mala_wallKernel hE.walled a ha)
      (fun ω k x lp t data => malaKernel (env' ω).rng c.stepSize k x lp t data)
      (fun ω => by rw [(hE.lifts ω).rng, has]; rfl) _ (j + 1) b (hTc b hb) A hA Y hY X' (fun ω => (hX' ω).2) hXm hXl
    refine ⟨hY.mono (info_mono Set.subset_union_left) le_rfl, R, fun ω => ⟨?_, (h1 ω).2⟩, h2, ?_⟩
    · have := serialSample_state (fun k x lp t data => malaKernel (env' ω).rng c.stepSize k x lp t data) c.logpdf data c.nLocal b (emb (X' ω)) (j + 1) hj
      rw [(h1 ω).1] at this
      exact this
    · rw [h3, histLaw_append, histLaw_local]
  · rintro b hb hist A hA X ⟨hY, X', hX', hXm, hXl⟩ rows hrows j hj
    obtain rfl : X = fun ω => emb (X' ω) := funext fun ω => Option.some.inj (hX' ω).1
    haveI : IsProbabilityMeasure (P.map fun ω => (Y ω, X' ω)) := Measure.isProbabilityMeasure_map ((hY.prodMk hXm).mono (h.info_le _) le_rfl).aemeasurable
    obtain ⟨h1, h2⟩ := sweep_family_by h hE.flows c.nfBatch hE.good.nfBatch (wallFlowStep S lp lnf) φ (wallFlowStep_measurable hE.walled.meas hE.walled.meas_lp hE.flows.pushMeas hE.flows.lnfMeas φ hφ) _ c.nGlobal b
      (hTc b hb) A hA Y hY hG X' hXm rfl (j + 1) hj
    refine ⟨hY.mono (info_mono Set.subset_union_left) le_rfl, _, fun ω => ⟨?_, ?_⟩, h2, ?_⟩
    · obtain ⟨r, e, -, hr⟩ := wall_group_sweep hE.walled (hE.lifts ω) (hE.flows.lawful ω) (φ (Y ω)) c.nfBatch hE.good.nfBatch hE.ignores c.nGlobal b (X' ω) (hX' ω).2
      rw [hrows ω, Except.ok.injEq] at e
      show Option.map (fun x => x.pos) (rows ω)[j]? = _
      rw [e, hr j hj, hE.flows.logProb ω _ (hG ω), wallFlowStep, sweepAt_free _ _ _ _ (hX' ω).2]
    · rw [wallFlowStep, sweepAt_free _ _ _ _ (hX' ω).2]; exact sweepAt_mem _ _ _ _ (hX' ω).2 _ _
    · rw [h1, hXl, histLaw_append, histLaw_global]

end
end FlowMC
