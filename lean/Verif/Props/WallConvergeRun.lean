import Verif.Props.WallConverge
import Verif.Props.WallProduction
/-
C74 for recorded rows: whatever the start inside the walls, late rows of a chain have the truncated target distribution up to any `ε`.
-/
open MeasureTheory ProbabilityTheory
open scoped ENNReal
set_option linter.unusedSectionVars false
namespace FlowMC
open Spec
noncomputable section
open Classical

variable {Ω D M O V : Type} {d : ℕ}
variable {S : Set (Fin d → ℝ)} {lp : (Fin d → ℝ) → ℝ} {g : (Fin d → ℝ) → Fin d → ℝ} {t : Target XR D d} {data : Data D}

/-- The local kernels of C74: a random walk or MALA with a finite non-zero step size. -/
def Spec.MixingWalls : KernelRes XR d M → Prop
  | .grw s => ∃ a : ℝ, a ≠ 0 ∧ s = .fin a
  | .mala s => ∃ a : ℝ, a ≠ 0 ∧ s = .fin a
  | _ => False

/-- A local kernel inside the walls is an accept/reject step. -/
def WallKernel (S : Set (Fin d → ℝ)) (t : Target XR D d) (data : Data D) (kr : KernelRes XR d M) (q : (Fin d → ℝ) × (Fin d → ℝ) → Fin d → ℝ) (r : (Fin d → ℝ) × (Fin d → ℝ) → ℝ) : Prop :=
  ∀ (rng : Rng ℝ) K, kr.local? (liftRng rng) = some K → ∀ k, ∀ x ∈ S,
    (K k (emb x) (t.val (emb x) data) t data).pos = emb (wallStep S q r (rng.normal (.child k 0) d, rng.uniform (.child k 1)) x) ∧
    (K k (emb x) (t.val (emb x) data) t data).logp = t.val (K k (emb x) (t.val (emb x) data) t data).pos data

theorem mala_wallKernel (hW : Walled S lp g t data) (a : ℝ) (ha : a ≠ 0) : WallKernel S t data (.mala (.fin a) : KernelRes XR d M) (malaQ g a) (malaR lp g a) := by
  intro rng K hK k x hx
  simp only [KernelRes.local?, Option.some.injEq] at hK; subst hK
  refine ⟨mala_wall hW a ha (rng.normal (.child k 0) d, rng.uniform (.child k 1)) x hx (t.val (emb x) data), ?_⟩
  simp only [malaKernel, malaStep]; split <;> rfl

theorem wall_kernel_mh (hW : Walled S lp g t data) (h0 : wallMeasure S lp Set.univ ≠ 0) (hfin : wallMeasure S lp Set.univ ≠ ∞) (kr : KernelRes XR d M) (hk : MixingWalls kr) :
    ∃ q r, WallMH S lp (stdNormal d) q r ∧ WallKernel S t data kr q r := by
  cases kr with
  | grw s =>
    obtain ⟨a, ha, rfl⟩ := hk
    refine ⟨_, _, grw_wallMH hW h0 hfin a ha, ?_⟩
    intro rng K hK k x hx
    simp only [KernelRes.local?, Option.some.injEq] at hK; subst hK
    refine ⟨grw_wall hW a (rng.normal (.child k 0) d, rng.uniform (.child k 1)) x hx, ?_⟩
    simp only [grwKernel, grwStep]; split <;> rfl
  | mala s =>
    obtain ⟨a, ha, rfl⟩ := hk
    exact ⟨_, _, mala_wallMH hW h0 hfin a ha, mala_wallKernel hW a ha⟩
  | hmc _ _ _ _ => exact hk.elim
  | nf _ _ => exact hk.elim

variable {past : MeasurableSpace Ω} {sig : Key → MeasurableSpace Ω} [mΩ : MeasurableSpace Ω] {P : Measure Ω} [IsProbabilityMeasure P] {env : Ω → Env ℝ D d M O} {T : Key → Prop}

/-- Position of a serial chain after `j` steps, from any start inside. -/
theorem wall_serial_iter (h : IdealOn T past sig P env) {q r} (hM : WallMH S lp (stdNormal d) q r) (kr : KernelRes XR d M) (hk : WallKernel S t data kr q r) (K : Ω → LocalKernel XR D d)
    (hK : ∀ ω, kr.local? (liftRng (env ω).rng) = some (K ω)) (μ : Measure (Fin d → ℝ)) (j : ℕ) (k : Key) (hT : ∀ a, Desc k a → T a)
    (A : Set (Option Key)) (hA : Disjoint A (descSet k)) (X : Ω → Fin d → ℝ) (hXS : ∀ ω, X ω ∈ S) (hX : Measurable[info past sig A] X) (hlaw : P.map X = μ) :
    ∃ Y : Ω → Fin d → ℝ, (∀ ω, (iterState (localBody (K ω) t data) j (k, emb (X ω), t.val (emb (X ω)) data)).2.1 = emb (Y ω) ∧ Y ω ∈ S) ∧
      Measurable[info past sig (A ∪ descSet k)] Y ∧ P.map Y = (stepLaw (noise d) (freeStep S q r))^[j] μ := by
  have hsm := hM.step_meas
  induction j generalizing k A X μ with
  | zero => exact ⟨X, fun ω => ⟨rfl, hXS ω⟩, hX.mono (info_mono Set.subset_union_left) le_rfl, hlaw⟩
  | succ j ih =>
    obtain ⟨nm, nl⟩ := noise_law h (.child k 1) (fun a ha => hT a (desc_trans (.child 1 .refl) ha))
    have hd : Disjoint A (descSet (.child k 1)) := hA.mono_right descSet_child
    set X' : Ω → Fin d → ℝ := fun ω => freeStep S q r ((env ω).rng.normal (.child (.child k 1) 0) d, (env ω).rng.uniform (.child (.child k 1) 1)) (X ω) with hX'd
    have hbody : ∀ ω, (localBody (K ω) t data (k, emb (X ω), t.val (emb (X ω)) data)).1 = (.child k 0, emb (X' ω), t.val (emb (X' ω)) data) := by
      intro ω
      have := hk (env ω).rng (K ω) (hK ω) (.child k 1) (X ω) (hXS ω)
      simp only [localBody, split, this.1, this.2, hX'd, freeStep_eq (hXS ω)]
    have hX' : Measurable[info past sig (A ∪ descSet (.child k 1))] X' :=
      hsm.comp ((hX.mono (info_mono Set.subset_union_left) le_rfl).prodMk (nm.mono (info_mono Set.subset_union_right) le_rfl))
    obtain ⟨Y, hY, hYm, hYl⟩ := ih _ (.child k 0) (fun a ha => hT a (desc_trans (.child 0 .refl) ha)) (A ∪ descSet (.child k 1))
      (Set.disjoint_union_left.2 ⟨hA.mono_right descSet_child, descSet_disjoint (by decide)⟩) X' (fun ω => freeStep_mem (hXS ω)) hX' (h.step_law hd hX nm hlaw nl hsm)
    refine ⟨Y, fun ω => ?_, hYm.mono (info_mono ?_) le_rfl, hYl⟩
    · simp only [iterState, hbody]; exact hY ω
    · exact Set.union_subset (Set.union_subset Set.subset_union_left (descSet_child.trans Set.subset_union_right)) (descSet_child.trans Set.subset_union_right)

theorem sweepAt_free (r : (Fin d → ℝ) × (Fin d → ℝ) → ℝ) (j n : ℕ) (x : Fin d → ℝ) (hx : x ∈ S) (v : Fin n → Fin d → ℝ) (u : Fin n → ℝ) :
    sweepAt (freeStep S Prod.snd r) j n x v u = sweepAt (wallStep S Prod.snd r) j n x v u := by
  induction n generalizing j x with
  | zero => cases j <;> rfl
  | succ n ih =>
    cases j with
    | zero => rfl
    | succ j =>
      show sweepAt _ j n (freeStep S Prod.snd r _ x) _ _ = sweepAt _ j n (wallStep S Prod.snd r _ x) _ _
      rw [freeStep_eq hx]
      exact ih j _ (wallStep_mem hx) _ _

/-- Rows of a sweep of flow proposals, from any start inside. -/
theorem wall_sweep_iter (h : IdealOn T past sig P env) (hW : Walled S lp g t data) (env' : Ω → Env XR D d M O) (hE : ∀ ω, Lifts (env ω) (env' ω))
    (m : M) (q : Measure (Fin d → ℝ)) [IsProbabilityMeasure q] (lnf : (Fin d → ℝ) → ℝ) (hM : WallMH S lp q Prod.snd (flowR lp lnf)) (hf : IdealFlowOn T P sig env m q lnf) (batch : ℕ) (hb : 0 < batch)
    (hn : IgnoresNSteps t) (μ : Measure (Fin d → ℝ)) [IsProbabilityMeasure μ] (n : ℕ) (k : Key) (hT : ∀ a, Desc k a → T a)
    (A : Set (Option Key)) (hA : Disjoint A (descSet k)) (X : Ω → Fin d → ℝ) (hXS : ∀ ω, X ω ∈ S) (hX : Measurable[info past sig A] X) (hlaw : P.map X = μ)
    (rows : Ω → List (StepOut XR d)) (hrows : ∀ ω, groupSample (env' ω) m batch t data n k (emb (X ω)) = .ok (rows ω)) (j : ℕ) (hj : j < n) :
    ∃ Y : Ω → Fin d → ℝ, (∀ ω, ((rows ω)[j]?).map (·.pos) = some (emb (Y ω)) ∧ Y ω ∈ S) ∧ Measurable[info past sig (A ∪ descSet k)] Y ∧
      P.map Y = (stepLaw (q.prod unif) (freeStep S Prod.snd (flowR lp lnf)))^[j + 1] μ := by
  obtain ⟨h1, h2⟩ := sweep_iter h m q lnf hf batch hb _ hM.step_meas μ n k hT A hA X hX hlaw (j + 1) hj
  refine ⟨_, fun ω => ⟨?_, by rw [sweepAt_free _ _ _ _ (hXS ω)]; exact sweepAt_mem _ _ _ _ (hXS ω) _ _⟩, h2, h1⟩
  obtain ⟨r, e, -, hr⟩ := wall_group_sweep hW (hE ω) (hf.lawful ω) m batch hb hn n k (X ω) (hXS ω)
  rw [hrows ω, Except.ok.injEq] at e
  rw [e, hr j hj, hf.logProb ω, sweepAt_free _ _ _ _ (hXS ω)]

theorem map_inside {X : Ω → Fin d → ℝ} (hS : MeasurableSet S) (hX : Measurable X) (hXS : ∀ ω, X ω ∈ S) : (P.map X) Sᶜ = 0 := by
  rw [Measure.map_apply hX hS.compl]
  have : X ⁻¹' Sᶜ = ∅ := by ext ω; simp [hXS ω]
  rw [this, measure_empty]

/-- **C74 (rows of a chain of local steps).** A chain of local steps (random walk or MALA) on a target with hard boundaries, from an arbitrary random start inside that is independent of the draws:
for every `ε` there is an `N` such that, however many steps are taken, every row is a finite point inside and every row from the `N`-th on has the truncated target distribution up to `ε`. -/
theorem C74_serial_rows (h : IdealDraws past sig P env) (hW : Walled S lp g t data) (h0 : wallMeasure S lp Set.univ ≠ 0) (hfin : wallMeasure S lp Set.univ ≠ ∞)
    (kr : KernelRes XR d M) (hk : MixingWalls kr) (K : Ω → LocalKernel XR D d) (hK : ∀ ω, kr.local? (liftRng (env ω).rng) = some (K ω))
    (X : Ω → Fin d → ℝ) (hXS : ∀ ω, X ω ∈ S) (hX : Measurable[past] X) (ε : ℝ) (hε : 0 < ε) :
    ∃ N, ∀ (n : ℕ) (k : Key) (j : ℕ), j < n → ∃ Y : Ω → Fin d → ℝ, (∀ ω, ((serialSample (K ω) t data n k (emb (X ω)))[j]?).map (·.pos) = some (emb (Y ω)) ∧ Y ω ∈ S) ∧ Measurable Y ∧
      (N ≤ j → CloseInLaw P Y (normalised (wallMeasure S lp)) ε) := by
  have hX' : Measurable[mΩ] X := hX.mono (le_trans (past_le_info (past := past) (sig := sig) (S := {none}) (by simp)) (h.info_le _)) le_rfl
  haveI : IsProbabilityMeasure (P.map X) := Measure.isProbabilityMeasure_map hX'.aemeasurable
  obtain ⟨q, r, hM, hq⟩ := wall_kernel_mh hW h0 hfin kr hk
  obtain ⟨N, hN⟩ := tv_near (tv_of_good (hM.good (P.map X) inferInstance)) hε
  refine ⟨N, fun n k j hj => ?_⟩
  have hA : Disjoint ({none} : Set (Option Key)) (descSet k) := by
    rw [Set.disjoint_left]; rintro o ho ⟨a, rfl, _⟩; simp at ho
  obtain ⟨Y, hY, hYm, hYl⟩ := wall_serial_iter h hM kr hq K hK _ (j + 1) k (fun _ _ => trivial) {none} hA X hXS (hX.mono (past_le_info (by simp)) le_rfl) rfl
  refine ⟨Y, fun ω => ⟨?_, (hY ω).2⟩, hYm.mono (h.info_le _) le_rfl, fun hNj => closeInLaw_of_near (hYm.mono (h.info_le _) le_rfl) ?_⟩
  · have := serialSample_state (K ω) t data n k (emb (X ω)) (j + 1) hj
    rw [(hY ω).1] at this
    exact this
  · rw [hYl]; exact hN (j + 1) (by omega)

/-- **C74 (rows of a flow sweep).** The same for flow proposals. -/
theorem C74_sweep_rows (h : IdealDraws past sig P env) (hW : Walled S lp g t data) (h0 : wallMeasure S lp Set.univ ≠ 0) (hfin : wallMeasure S lp Set.univ ≠ ∞)
    (env' : Ω → Env XR D d M O) (hE : ∀ ω, Lifts (env ω) (env' ω)) (m : M) (q : Measure (Fin d → ℝ)) [IsProbabilityMeasure q] (lnf : (Fin d → ℝ) → ℝ) (hlnf : Measurable lnf)
    (hf : IdealFlow P sig env m q lnf) (batch : ℕ) (hb : 0 < batch) (hn : IgnoresNSteps t) (X : Ω → Fin d → ℝ) (hXS : ∀ ω, X ω ∈ S) (hX : Measurable[past] X) (ε : ℝ) (hε : 0 < ε) :
    ∃ N, ∀ (n : ℕ) (k : Key), ∃ rows : Ω → List (StepOut XR d), (∀ ω, groupSample (env' ω) m batch t data n k (emb (X ω)) = .ok (rows ω) ∧ (rows ω).length = n) ∧
      ∀ j < n, ∃ Y : Ω → Fin d → ℝ, (∀ ω, ((rows ω)[j]?).map (·.pos) = some (emb (Y ω)) ∧ Y ω ∈ S) ∧ Measurable Y ∧
        (N ≤ j → CloseInLaw P Y (normalised (wallMeasure S lp)) ε) := by
  have hX' : Measurable[mΩ] X := hX.mono (le_trans (past_le_info (past := past) (sig := sig) (S := {none}) (by simp)) (h.info_le _)) le_rfl
  haveI : IsProbabilityMeasure (P.map X) := Measure.isProbabilityMeasure_map hX'.aemeasurable
  have hM := flow_wallMH hW h0 hfin lnf hlnf q hf.density
  obtain ⟨N, hN⟩ := tv_near (tv_of_good (hM.good (P.map X) inferInstance)) hε
  refine ⟨N, fun n k => ?_⟩
  have hA : Disjoint ({none} : Set (Option Key)) (descSet k) := by
    rw [Set.disjoint_left]; rintro o ho ⟨a, rfl, _⟩; simp at ho
  choose rows hrows using fun ω => wall_group_sweep hW (hE ω) (hf.lawful ω) m batch hb hn n k (X ω) (hXS ω)
  refine ⟨rows, fun ω => ⟨(hrows ω).1, (hrows ω).2.1⟩, fun j hj => ?_⟩
  obtain ⟨Y, h1, h2, h3⟩ := wall_sweep_iter h hW env' hE m q lnf hM hf batch hb hn _ n k (fun _ _ => trivial) {none} hA X hXS (hX.mono (past_le_info (by simp)) le_rfl) rfl rows
    (fun ω => (hrows ω).1) j hj
  refine ⟨Y, h1, h2.mono (h.info_le _) le_rfl, fun hNj => closeInLaw_of_near (h2.mono (h.info_le _) le_rfl) ?_⟩
  rw [h3]; exact hN (j + 1) (by omega)

/-! ### production -/

variable [BufNum XR]

/-- What is assumed in C74 about the target with hard boundaries, the configuration and the frozen flow.  `env` is the ideal random world, `env'` the same world in arithmetic with infinities and NaN. -/
structure Spec.MixingWallBundle (T : Key → Prop) (P : Measure Ω) (sig : Key → MeasurableSpace Ω) (env : Ω → Env ℝ D d M O) (env' : Ω → Env XR D d M O)
    (S : Set (Fin d → ℝ)) (lp : (Fin d → ℝ) → ℝ) (g : (Fin d → ℝ) → Fin d → ℝ) (c : BundleCfg XR D d M O) (data : Data D) (m : M) (q : Measure (Fin d → ℝ)) (lnf : (Fin d → ℝ) → ℝ) : Prop where
  lifts : ∀ ω, Lifts (env ω) (env' ω)
  /-- positive step counts and batch size, thinnings dividing the step counts -/
  good : GoodCfg c
  step : ∃ a : ℝ, a ≠ 0 ∧ c.stepSize = .fin a
  walled : Walled S lp g c.logpdf data
  ignores : IgnoresNSteps c.logpdf
  /-- the truncated target has positive and finite mass -/
  nonzero : wallMeasure S lp Set.univ ≠ 0
  finite : wallMeasure S lp Set.univ ≠ ∞
  /-- the frozen flow's `log_prob` is `lnf`, up to a constant the log-density of its samples, which have distribution `q` -/
  prob : IsProbabilityMeasure q
  lnfMeas : Measurable lnf
  flow : IdealFlowOn T P sig env m q lnf

theorem Spec.MixingWallBundle.withProd {env' : Ω → Env XR D d M O} {c : BundleCfg XR D d M O} {m : M} {q : Measure (Fin d → ℝ)} {lnf : (Fin d → ℝ) → ℝ}
    (hE : MixingWallBundle T P sig env env' S lp g c data m q lnf) (n : ℕ) : MixingWallBundle T P sig env env' S lp g (c.withProd n) data m q lnf :=
  ⟨hE.lifts, goodCfg_withProd hE.good n, hE.step, hE.walled, hE.ignores, hE.nonzero, hE.finite, hE.prob, hE.lnfMeas, hE.flow⟩

/-- Laws of the rows of production loops, from arbitrary start laws inside. -/
theorem wall_hist_rowLaws (k : Key) (h : IdealOn (Desc k) past sig P env) (env' : Ω → Env XR D d M O) (c : BundleCfg XR D d M O) (data : Data D) (m : M) (q : Measure (Fin d → ℝ)) (lnf : (Fin d → ℝ) → ℝ)
    (hE : MixingWallBundle (Desc k) P sig env env' S lp g c data m q lnf) (a : ℝ) (ha : a ≠ 0) (has : c.stepSize = .fin a) (starts : Set (Measure (Fin d → ℝ))) :
    RowLaws (fun hist A f => ∃ μ ∈ starts, WallLaw past sig P S (histLaw (stepLaw (noise d) (freeStep S (malaQ g a) (malaR lp g a)))
      (stepLaw (q.prod unif) (freeStep S Prod.snd (flowR lp lnf))) hist μ) A f) env' c data (fun _ => m) k := by
  haveI := hE.prob
  have hM := mala_wallMH hE.walled hE.nonzero hE.finite a ha
  have hF := flow_wallMH hE.walled hE.nonzero hE.finite lnf hE.lnfMeas q hE.flow.density
  refine ⟨?_, ?_, hE.good, fun ω => lifts_lawful (hE.lifts ω) (hE.flow.lawful ω), ?_, ?_⟩
  · rintro _ A A' f hA ⟨μ, hμ, Y, h1, h2, h3⟩
    exact ⟨μ, hμ, Y, h1, h2.mono (info_mono hA) le_rfl, h3⟩
  · rintro _ A f ⟨μ, hμ, Y, h1, _⟩; exact ⟨fun ω => emb (Y ω), fun ω => (h1 ω).1⟩
  · rintro b hb hist A hA X ⟨μ, hμ, X', hX', hXm, hXl⟩ j hj
    obtain rfl : X = fun ω => emb (X' ω) := funext fun ω => Option.some.inj (hX' ω).1
    obtain ⟨Y, h1, h2, h3⟩ := wall_serial_iter h hM (.mala (.fin a) : KernelRes XR d M) (mala_wallKernel hE.walled a ha)
      (fun ω k x lp t data => malaKernel (env' ω).rng c.stepSize k x lp t data)
      (fun ω => by rw [(hE.lifts ω).rng, has]; rfl) _ (j + 1) b (fun _ => desc_trans hb) A hA X' (fun ω => (hX' ω).2) hXm hXl
    refine ⟨μ, hμ, Y, fun ω => ⟨?_, (h1 ω).2⟩, h2, ?_⟩
    · have := serialSample_state (fun k x lp t data => malaKernel (env' ω).rng c.stepSize k x lp t data) c.logpdf data c.nLocal b (emb (X' ω)) (j + 1) hj
      rw [(h1 ω).1] at this
      exact this
    · rw [h3, histLaw_append, histLaw_local]
  · rintro b hb hist A hA X ⟨μ, hμ, X', hX', hXm, hXl⟩ rows hrows j hj
    obtain rfl : X = fun ω => emb (X' ω) := funext fun ω => Option.some.inj (hX' ω).1
    haveI : IsProbabilityMeasure (P.map X') := Measure.isProbabilityMeasure_map (hXm.mono (h.info_le _) le_rfl).aemeasurable
    obtain ⟨Y, h1, h2, h3⟩ := wall_sweep_iter h hE.walled env' hE.lifts m q lnf hF hE.flow c.nfBatch hE.good.nfBatch hE.ignores _ c.nGlobal b (fun _ => desc_trans hb) A hA X' (fun ω => (hX' ω).2)
      hXm rfl rows hrows j hj
    exact ⟨μ, hμ, Y, h1, h2, by rw [h3, hXl, histLaw_append, histLaw_global]⟩

/-- After enough cycles of local steps and flow proposals all further rows are near the truncated target, for finitely many start laws at once. -/
theorem wall_cycles_near (c : BundleCfg XR D d M O) (data : Data D) (hW : Walled S lp g c.logpdf data) (h0 : wallMeasure S lp Set.univ ≠ 0) (hfin : wallMeasure S lp Set.univ ≠ ∞)
    (a : ℝ) (ha : a ≠ 0) (q : Measure (Fin d → ℝ)) [IsProbabilityMeasure q] (lnf : (Fin d → ℝ) → ℝ) (hlnf : Measurable lnf) (hq : SamplesFrom q lnf)
    (n : ℕ) (μ : ℕ → Measure (Fin d → ℝ)) (hμ : ∀ i, IsProbabilityMeasure (μ i)) (ε : ℝ) (hε : 0 < ε) :
    ∃ N, ∀ i < n, ∀ l, N ≤ l → ∀ pre, Near (histLaw (stepLaw (noise d) (freeStep S (malaQ g a) (malaR lp g a)))
      (stepLaw (q.prod unif) (freeStep S Prod.snd (flowR lp lnf))) (pre ++ loopsSteps c l) (μ i)) (normalised (wallMeasure S lp)) ε := by
  haveI := wall_isProb h0 hfin
  have hL := mala_wallMH hW h0 hfin a ha
  have hG := flow_wallMH hW h0 hfin lnf hlnf q hq
  have key : ∀ i, ∃ N, ∀ l, N ≤ l → Near (histLaw (stepLaw (noise d) (freeStep S (malaQ g a) (malaR lp g a)))
      (stepLaw (q.prod unif) (freeStep S Prod.snd (flowR lp lnf))) (loopsSteps c l) (μ i)) (normalised (wallMeasure S lp)) ε := by
    intro i
    haveI := hμ i
    obtain ⟨N, hN⟩ := tv_near (tv_of_good (wall_cycle_good hW.meas hW.meas_lp h0 hfin lnf hlnf q hq hL hG ((rowsPerCall c true - 1) * c.localThin + 1) ((rowsPerCall c false - 1) * c.globalThin + 1)
      (by omega) (μ i) inferInstance)) hε
    refine ⟨N, fun l hl => ?_⟩
    rw [histLaw_loops]
    exact hN l hl
  choose N hN using key
  haveI : IsProbabilityMeasure (noise d) := by unfold noise; infer_instance
  have st : ∀ (Nn : Type) (_ : MeasurableSpace Nn) (ν : Measure Nn) (_ : IsProbabilityMeasure ν) (step : Nn → (Fin d → ℝ) → Fin d → ℝ), Measurable (fun p : (Fin d → ℝ) × Nn => step p.2 p.1) →
      Reversible (normalised (wallMeasure S lp)) ν step →
      ∀ ρ : Measure (Fin d → ℝ), IsProbabilityMeasure ρ → IsProbabilityMeasure (stepLaw ν step ρ) ∧
        (Near ρ (normalised (wallMeasure S lp)) ε → Near (stepLaw ν step ρ) (normalised (wallMeasure S lp)) ε) := by
    intro Nn _ ν _ step hm hr ρ hρ
    exact ⟨Measure.isProbabilityMeasure_map hm.aemeasurable, fun hn => near_step hn hm (hr.invariant hm)⟩
  refine ⟨(Finset.range n).sup N, fun i hi l hl pre => ?_⟩
  have hNi : N i ≤ l := le_trans (Finset.le_sup (Finset.mem_range.2 hi)) hl
  rw [histLaw_append]
  have hloc := st _ _ (noise d) inferInstance _ hL.step_meas hL.rev
  have hglob := st _ _ (q.prod unif) inferInstance _ hG.step_meas hG.rev
  exact (histLaw_near hloc hglob pre _ (histLaw_near hloc hglob (loopsSteps c l) _ (hμ i)).1).2 (hN i l hNi)

theorem wall_production_near (k : Key) (h : IdealOn (Desc k) past sig P env) (env' : Ω → Env XR D d M O) (c : BundleCfg XR D d M O) (data : Data D) (m : M) (q : Measure (Fin d → ℝ)) (lnf : (Fin d → ℝ) → ℝ)
    (hE : MixingWallBundle (Desc k) P sig env env' S lp g c data m q lnf) (a : ℝ) (ha : a ≠ 0) (has : c.stepSize = .fin a) (μ : ℕ → Measure (Fin d → ℝ)) (ε : ℝ) (N : ℕ)
    (hN : ∀ i < c.nChains, ∀ l, N ≤ l → ∀ pre, Near (histLaw (stepLaw (noise d) (freeStep S (malaQ g a) (malaR lp g a)))
      (stepLaw (q.prod unif) (freeStep S Prod.snd (flowR lp lnf))) (pre ++ loopsSteps c l) (μ i)) (normalised (wallMeasure S lp)) ε)
    (key : Ω → Key) (xs : Ω → List (Pos XR d)) (hx : ∀ ω, (xs ω).length = c.nChains) (w w' : Ω → World XR D d M O)
    (htrain : ∀ ω, Completes (env' ω) (malaBundle c).strategies.lookup data (repeatPhase c.nTrainLoops trainingPhase ++ ["reset_steppers", "update_state"])
      ⟨key ω, xs ω, ⟨(malaBundle c).resources, fun _ => 0⟩⟩ (w ω))
    (hkey : ∀ ω, (w ω).key = k) (hflow : ∀ ω, (w ω).heap.res "global_sampler" = some (.kernel (.nf m c.nfBatch)))
    (hstart : ∀ i < c.nChains, ∃ X : Ω → Fin d → ℝ, (∀ ω, (w ω).xs[i]? = some (emb (X ω)) ∧ X ω ∈ S) ∧ Measurable[past] X ∧ P.map X = μ i)
    (hprod : ∀ ω, Completes (env' ω) (malaBundle c).strategies.lookup data (repeatPhase c.nProdLoops productionPhase) (w ω) (w' ω)) :
    ∀ i < c.nChains, ∀ j < c.nProdSteps, ∃ Y : Ω → Fin d → ℝ, Measurable Y ∧
      (N * (rowsPerCall c true + rowsPerCall c false) ≤ j → CloseInLaw P Y (normalised (wallMeasure S lp)) ε) ∧
      ∀ ω, Y ω ∈ S ∧ ∃ b, (w' ω).heap.res "positions_production" = some (.buffer b) ∧ ∀ a : Fin d, b.data.get [i, j, a] = XR.fin (Y ω a) := by
  haveI := hE.prob
  obtain ⟨S', h1, -⟩ := production_cells (wall_hist_rowLaws k h env' c data m q lnf hE a ha has {ρ | ∃ i < c.nChains, ρ = μ i}) w w'
    (fun ω => production_start (env' ω) ((wall_hist_rowLaws k h env' c data m q lnf hE a ha has {ρ | ∃ i < c.nChains, ρ = μ i}).lawful ω) c hE.good data (key ω) (xs ω) (hx ω) (w ω) (htrain ω)) hkey hflow
    (fun i hi => by
      obtain ⟨X, h1, h2, h3⟩ := hstart i hi
      exact ⟨μ i, ⟨i, hi, rfl⟩, X, h1, h2.mono (past_le_info (by simp)) le_rfl, h3⟩) hprod
  intro i hi j hj
  obtain ⟨pre, Y, ⟨ρ, ⟨i', hi', rfl⟩, Y', hY', hm, hl⟩, hc⟩ := h1 i hi j hj
  obtain rfl : Y = fun ω => emb (Y' ω) := funext fun ω => Option.some.inj (hY' ω).1
  have hm' := hm.mono (h.info_le _) le_rfl
  refine ⟨Y', hm', fun hNj => closeInLaw_of_near hm' ?_, fun ω => ⟨(hY' ω).2, hc ω⟩⟩
  rw [hl]
  refine hN i' hi' _ ?_ pre
  have := rowsPerCall_pos hE.good true
  exact (Nat.le_div_iff_mul_le (by omega)).2 hNj

/-- **C74 (production phase).** A run of `RQSpline_MALA_Bundle` on a target with hard boundaries.  Suppose that when training is over (`w ω`) the random key is `k`, the flow in the global sampler is `m` — a
flow whose `log_prob` is the log-density of its samples up to a constant — and the position of chain `i` is a finite point inside the region with *any* distribution `μ i`, determined by what happened before.
Then every row of the production position buffer is a finite point inside the region, and for every `ε` there is an `N`, which does not depend on the number of production loops `n`, such that every row
`j ≥ N` has the normalised truncated target distribution up to `ε`. -/
theorem C74_production (k : Key) (h : IdealOn (Desc k) past sig P env) (env' : Ω → Env XR D d M O) (c : BundleCfg XR D d M O) (data : Data D) (m : M) (q : Measure (Fin d → ℝ)) (lnf : (Fin d → ℝ) → ℝ)
    (hE : MixingWallBundle (Desc k) P sig env env' S lp g c data m q lnf) (μ : ℕ → Measure (Fin d → ℝ)) (hμ : ∀ i, IsProbabilityMeasure (μ i)) (ε : ℝ) (hε : 0 < ε) :
    ∃ N, ∀ (n : ℕ) (key : Ω → Key) (xs : Ω → List (Pos XR d)) (w w' : Ω → World XR D d M O), (∀ ω, (xs ω).length = c.nChains) →
      (∀ ω, Completes (env' ω) (malaBundle (c.withProd n)).strategies.lookup data (repeatPhase c.nTrainLoops trainingPhase ++ ["reset_steppers", "update_state"])
        ⟨key ω, xs ω, ⟨(malaBundle (c.withProd n)).resources, fun _ => 0⟩⟩ (w ω)) →
      (∀ ω, (w ω).key = k) → (∀ ω, (w ω).heap.res "global_sampler" = some (.kernel (.nf m c.nfBatch))) →
      (∀ i < c.nChains, ∃ X : Ω → Fin d → ℝ, (∀ ω, (w ω).xs[i]? = some (emb (X ω)) ∧ X ω ∈ S) ∧ Measurable[past] X ∧ P.map X = μ i) →
      (∀ ω, Completes (env' ω) (malaBundle (c.withProd n)).strategies.lookup data (repeatPhase n productionPhase) (w ω) (w' ω)) →
      ∀ i < c.nChains, ∀ j < (c.withProd n).nProdSteps, ∃ Y : Ω → Fin d → ℝ, Measurable Y ∧ (N ≤ j → CloseInLaw P Y (normalised (wallMeasure S lp)) ε) ∧
        ∀ ω, Y ω ∈ S ∧ ∃ b, (w' ω).heap.res "positions_production" = some (.buffer b) ∧ ∀ a : Fin d, b.data.get [i, j, a] = XR.fin (Y ω a) := by
  haveI := hE.prob
  obtain ⟨a, ha, has⟩ := hE.step
  obtain ⟨N, hN⟩ := wall_cycles_near c data hE.walled hE.nonzero hE.finite a ha q lnf hE.lnfMeas hE.flow.density c.nChains μ hμ ε hε
  refine ⟨N * (rowsPerCall c true + rowsPerCall c false), fun n key xs w w' hx htrain hkey hflow hstart hprod => ?_⟩
  refine wall_production_near k h env' (c.withProd n) data m q lnf (hE.withProd n) a ha has μ ε N (fun i hi l hl pre => ?_) key xs hx w w' htrain hkey hflow hstart hprod
  rw [loopsSteps_withProd]
  exact hN i hi l hl pre

/-- **C74 (given the training phase).** Whole runs of `RQSpline_MALA_Bundle` on a target with hard boundaries: as C70 given the training phase. -/
theorem C74_given_training (h : IdealDraws past sig P env) (env' : Ω → Env XR D d M O) (c : BundleCfg XR D d M O) (data : Data D) (m : M) (q : Measure (Fin d → ℝ)) (lnf : (Fin d → ℝ) → ℝ)
    (hB : MixingWallBundle (fun _ => True) P sig env env' S lp g c data m q lnf) (μ : ℕ → Measure (Fin d → ℝ)) (hμ : ∀ i, IsProbabilityMeasure (μ i)) (ε : ℝ) (hε : 0 < ε) :
    ∃ N, ∀ (n : ℕ) (key : Key) (xs : Ω → List (Pos XR d)) (w w' : Ω → World XR D d M O) (k : Key) (E : Set Ω), (∀ ω, (xs ω).length = c.nChains) →
      MeasurableSet[before past sig k] E → P E ≠ 0 →
      (∀ ω ∈ E, Completes (env' ω) (malaBundle (c.withProd n)).strategies.lookup data (repeatPhase c.nTrainLoops trainingPhase ++ ["reset_steppers", "update_state"])
        ⟨key, xs ω, ⟨(malaBundle (c.withProd n)).resources, fun _ => 0⟩⟩ (w ω)) →
      (∀ ω ∈ E, (w ω).key = k) → (∀ ω ∈ E, (w ω).heap.res "global_sampler" = some (.kernel (.nf m c.nfBatch))) →
      (∀ i < c.nChains, ∃ X : Ω → Fin d → ℝ, (∀ ω ∈ E, (w ω).xs[i]? = some (emb (X ω)) ∧ X ω ∈ S) ∧ Measurable[before past sig k] X ∧ (P[|E]).map X = μ i) →
      (∀ ω ∈ E, Completes (env' ω) (malaBundle (c.withProd n)).strategies.lookup data (repeatPhase n productionPhase) (w ω) (w' ω)) →
      ∀ i < c.nChains, ∀ j < (c.withProd n).nProdSteps, ∃ Y : E → Fin d → ℝ, Measurable Y ∧
        (N ≤ j → CloseInLaw (condOn P E) Y (normalised (wallMeasure S lp)) ε) ∧
        ∀ ω : E, Y ω ∈ S ∧ ∃ b, (w' ω).heap.res "positions_production" = some (.buffer b) ∧ ∀ a : Fin d, b.data.get [i, j, a] = XR.fin (Y ω a) := by
  haveI := hB.prob
  obtain ⟨a, ha, has⟩ := hB.step
  obtain ⟨N, hN⟩ := wall_cycles_near c data hB.walled hB.nonzero hB.finite a ha q lnf hB.lnfMeas hB.flow.density c.nChains μ hμ ε hε
  refine ⟨N * (rowsPerCall c true + rowsPerCall c false), fun n key xs w w' k E hx hE hP htrain hkey hflow hstart hprod => ?_⟩
  have hE' : MeasurableSet E := before_le h k E hE
  have hI := idealOn_cond h k (fun _ _ => trivial) hE hP
  haveI : IsProbabilityMeasure (condOn P E) := by
    constructor
    have := condOn_apply (P := P) hE' MeasurableSet.univ
    rw [Set.preimage_univ] at this
    rw [this]
    exact (cond_isProbabilityMeasure hP).measure_univ
  have hEB : MixingWallBundle (Desc k) (condOn P E) (fun a => (after sig k a).comap Subtype.val) (fun ω : E => env ω) (fun ω : E => env' ω) S lp g (c.withProd n) data m q lnf :=
    ⟨fun ω => hB.lifts ω, goodCfg_withProd hB.good n, hB.step, hB.walled, hB.ignores, hB.nonzero, hB.finite, hB.prob, hB.lnfMeas, idealFlow_cond h k (fun _ _ => trivial) hE hP m q lnf hB.flow⟩
  refine wall_production_near k hI (fun ω : E => env' ω) (c.withProd n) data m q lnf hEB a ha has μ ε N (fun i hi l hl pre => ?_) (fun _ => key) (fun ω : E => xs ω) (fun ω => hx ω) (fun ω : E => w ω)
    (fun ω : E => w' ω) (fun ω => htrain ω ω.2) (fun ω => hkey ω ω.2) (fun ω => hflow ω ω.2) ?_ (fun ω => hprod ω ω.2)
  · rw [loopsSteps_withProd]
    exact hN i hi l hl pre
  · intro i hi
    obtain ⟨X, h1, h2, h3⟩ := hstart i hi
    exact ⟨fun ω : E => X ω, fun ω => h1 ω ω.2, h2.comp (comap_measurable _), by rw [condOn_map hE' (h2.mono (before_le h k) le_rfl), h3]⟩

/-- **C74 (whole `sample` call).** `Sampler(rqs_mala_bundle).sample(initial_position, data)` on a target with hard boundaries, started inside, never raises; and for every flow `m`, start laws `μ i` and `ε`
there is an `N` which does not depend on the number `n` of production loops: given any event `E` of positive probability, decided before production, on which the frozen flow is `m` and given which chain `i`
starts production at a finite point inside with distribution `μ i`, every row of the production position buffer is a finite point inside, and every row `j ≥ N` has the truncated target distribution up to `ε`. -/
theorem C74_sample (h : IdealDraws past sig P env) (env' : Ω → Env XR D d M O) (c : BundleCfg XR D d M O)
    (hn : 0 < c.nChains) (hb : 0 < c.batchSize) (data : Data D) (hbad : ∀ x i, BufNum.isFinite (x i) = false → Ieee.Bad (c.logpdf.val x data))
    (m : M) (q : Measure (Fin d → ℝ)) (lnf : (Fin d → ℝ) → ℝ) (hB : MixingWallBundle (fun _ => True) P sig env env' S lp g c data m q lnf)
    (μ : ℕ → Measure (Fin d → ℝ)) (hμ : ∀ i, IsProbabilityMeasure (μ i)) (ε : ℝ) (hε : 0 < ε) :
    ∃ N, ∀ (n nd nc : ℕ) (key : Key) (kw : List (String × V)) (s : Sampler XR D d M O V), Sampler.new nd nc key none none none (some (malaBundle (c.withProd n))) kw = .ok s →
      ∀ init : Ω → InitPos XR d, (∀ ω, (init ω).atleast2d.length = c.nChains) → (∀ ω, ∀ x ∈ (init ω).atleast2d, ¬ Ieee.Bad (c.logpdf.val x data)) →
      ∃ (w : Ω → World XR D d M O) (s' : Ω → Sampler XR D d M O V), (∀ ω, s.sample (env' ω) (init ω) data = (.ok (), s' ω)) ∧
      (∀ ω, Completes (env' ω) (malaBundle (c.withProd n)).strategies.lookup data (repeatPhase c.nTrainLoops trainingPhase ++ ["reset_steppers", "update_state"])
        ⟨key, (init ω).atleast2d, ⟨(malaBundle (c.withProd n)).resources, fun _ => 0⟩⟩ (w ω)) ∧
      ∀ E : Set Ω, MeasurableSet[before past sig (trainedKey c.nTrainLoops c.nEpochs key)] E → P E ≠ 0 →
        (∀ ω ∈ E, (w ω).heap.res "global_sampler" = some (.kernel (.nf m c.nfBatch))) →
        (∀ i < c.nChains, ∃ X : Ω → Fin d → ℝ, (∀ ω ∈ E, (w ω).xs[i]? = some (emb (X ω)) ∧ X ω ∈ S) ∧
          Measurable[before past sig (trainedKey c.nTrainLoops c.nEpochs key)] X ∧ (P[|E]).map X = μ i) →
        ∀ i < c.nChains, ∀ j < (c.withProd n).nProdSteps, ∃ Y : E → Fin d → ℝ, Measurable Y ∧
          (N ≤ j → CloseInLaw (condOn P E) Y (normalised (wallMeasure S lp)) ε) ∧
          ∀ ω : E, Y ω ∈ S ∧ ∃ b, (s' ω).heap.res "positions_production" = some (.buffer b) ∧ ∀ a : Fin d, b.data.get [i, j, a] = XR.fin (Y ω a) := by
  obtain ⟨N, hN⟩ := C74_given_training h env' c data m q lnf hB μ hμ ε hε
  refine ⟨N, fun n nd nc key kw s hs init hx hinit => ?_⟩
  simp only [Sampler.new, Except.ok.injEq] at hs
  subst hs
  have hl' : ∀ ω, (env' ω).ops.Lawful := fun ω => lifts_lawful (hB.lifts ω) (hB.flow.lawful ω)
  have hG : ∀ ω, StaysIn (env' ω) (c.withProd n) data (fun x => ¬ Ieee.Bad (c.logpdf.val x data)) := by
    intro ω
    refine ⟨fun k x hx => ?_, fun m k x r hx hr => ?_, fun x hx i => ?_⟩
    · exact C20_chain (env' ω).rng (.mala c.stepSize : KernelRes XR d M) _ rfl c.logpdf data c.nLocal k x hx
    · exact C20_nf_chain (env' ω) (hl' ω) m c.nfBatch hB.good.nfBatch c.logpdf hB.ignores data c.nGlobal k x hx r hr
    · by_contra hf
      exact hx (hbad x i (by simpa using hf))
  choose w w' h1 h2 using fun ω => bundle_total (env' ω) (hl' ω) (c.withProd n) (goodCfg_withProd hB.good n) data hn hb _ (hG ω) key (init ω).atleast2d (hx ω) (hinit ω)
  have h3 : ∀ ω, Completes (env' ω) (bundleStrategies (c.withProd n)).lookup data (bundleOrder (c.withProd n)) ⟨key, (init ω).atleast2d, ⟨bundleResources (c.withProd n), fun _ => 0⟩⟩ (w' ω) := fun ω => by
    rw [bundleOrder, completes_append]; exact ⟨w ω, h1 ω, h2 ω⟩
  have h4 := fun ω => completes_sample (h3 ω)
  have hsample : ∀ ω, Sampler.sample (V := V) (env' ω) ⟨nd, nc, key, ⟨bundleResources (c.withProd n), fun _ => 0⟩, (bundleStrategies (c.withProd n)).lookup, some (bundleOrder (c.withProd n)),
      setAttrs kw (fun _ => none)⟩ (init ω) data =
      (.ok (), ⟨nd, nc, key, (w' ω).heap, (bundleStrategies (c.withProd n)).lookup, some (bundleOrder (c.withProd n)), setAttrs kw (fun _ => none)⟩) := by
    intro ω
    simp only [Sampler.sample]
    rw [h4 ω]
  refine ⟨w, _, hsample, h1, ?_⟩
  intro E hEm hP hflow hstart
  exact hN n key (fun ω => (init ω).atleast2d) w w' (trainedKey c.nTrainLoops c.nEpochs key) E hx hEm hP (fun ω _ => h1 ω)
    (fun ω _ => switch_key (env' ω) (c.withProd n) data _ _ _ (h1 ω)) hflow hstart (fun ω _ => h2 ω)

end
end FlowMC
