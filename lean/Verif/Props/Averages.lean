import Verif.Lemmas.Averages
/-
C72: averages over the production rows converge in probability to means under the target.
-/
open MeasureTheory ProbabilityTheory Filter
open scoped ENNReal Topology
set_option linter.unusedSectionVars false
namespace FlowMC
open Spec

variable {Ω D M O V W : Type} {d : ℕ}
variable {past : MeasurableSpace Ω} {sig : Key → MeasurableSpace Ω} [mΩ : MeasurableSpace Ω] {P : Measure Ω} [IsProbabilityMeasure P] {env : Ω → Env ℝ D d M O} {T : Key → Prop} [MeasurableSpace W]

/-! ### joint laws with something known before -/

/-- Position of a serial chain after `j` steps, together with something known before. -/
theorem serial_joint (h : IdealOn T past sig P env) (kr : KernelRes ℝ d M) (K : Ω → LocalKernel ℝ D d)
    (hK : ∀ ω, kr.local? (env ω).rng = some (K ω)) (t : Target ℝ D d) (data : Data D) (ht : Measurable (fun x => t.val x data))
    (hg : Measurable (fun x => t.grad x data)) (μ : Measure (W × Pos ℝ d)) (j : ℕ) (k : Key) (hT : ∀ a, Desc k a → T a) (S : Set (Option Key))
    (hS : Disjoint S (descSet k)) (Y : Ω → W) (hY : Measurable[info past sig S] Y) (X : Ω → Pos ℝ d) (hX : Measurable[info past sig S] X) (hlaw : P.map (fun ω => (Y ω, X ω)) = μ) :
    P.map (fun ω => (Y ω, (iterState (localBody (K ω) t data) j (k, X ω, t.val (X ω) data)).2.1)) = (stepLaw (noise d) (onSnd (localStep kr t data)))^[j] μ ∧
    Measurable[info past sig (S ∪ descSet k)] (fun ω => (iterState (localBody (K ω) t data) j (k, X ω, t.val (X ω) data)).2.1) := by
  have hsm := localStep_measurable kr t data ht hg
  induction j generalizing k S X μ with
  | zero => exact ⟨hlaw, hX.mono (info_mono Set.subset_union_left) le_rfl⟩
  | succ j ih =>
    obtain ⟨nm, nl⟩ := noise_law h (.child k 1) (fun a ha => hT a (desc_trans (.child 1 .refl) ha))
    have hd : Disjoint S (descSet (.child k 1)) := hS.mono_right descSet_child
    have hbody : ∀ ω, (localBody (K ω) t data (k, X ω, t.val (X ω) data)).1 =
        (.child k 0, localStep kr t data ((env ω).rng.normal (.child (.child k 1) 0) d, (env ω).rng.uniform (.child (.child k 1) 1)) (X ω),
          t.val (localStep kr t data ((env ω).rng.normal (.child (.child k 1) 0) d, (env ω).rng.uniform (.child (.child k 1) 1)) (X ω)) data) := by
      intro ω
      have := local_kernel_eq kr t data (env ω).rng (K ω) (hK ω) (.child k 1) (X ω)
      simp only [localBody, split, this.1, this.2]
    simp only [iterState, hbody]
    have hX' : Measurable[info past sig (S ∪ descSet (.child k 1))] (fun ω => localStep kr t data ((env ω).rng.normal (.child (.child k 1) 0) d, (env ω).rng.uniform (.child (.child k 1) 1)) (X ω)) :=
      hsm.comp ((hX.mono (info_mono Set.subset_union_left) le_rfl).prodMk (nm.mono (info_mono Set.subset_union_right) le_rfl))
    have := ih _ (.child k 0) (fun a ha => hT a (desc_trans (.child 0 .refl) ha)) (S ∪ descSet (.child k 1)) ?_ (hY.mono (info_mono Set.subset_union_left) le_rfl) _ hX'
      (h.step_law hd (hY.prodMk hX) nm hlaw nl (onSnd_measurable hsm))
    · refine ⟨this.1, this.2.mono (info_mono ?_) le_rfl⟩
      refine Set.union_subset (Set.union_subset Set.subset_union_left (descSet_child.trans Set.subset_union_right)) (descSet_child.trans Set.subset_union_right)
    · exact Set.disjoint_union_left.2 ⟨hS.mono_right descSet_child, descSet_disjoint (by decide)⟩

theorem sweepAt_onSnd {A B C : Type} (step : B × C → A → A) (j n : ℕ) (y : W) (x : A) (v : Fin n → B) (u : Fin n → C) :
    sweepAt (onSnd step) j n (y, x) v u = (y, sweepAt step j n x v u) := by
  induction j generalizing n x with
  | zero => rfl
  | succ j ih =>
    cases n with
    | zero => rfl
    | succ n => exact ih n _ _ _

/-- A flow sweep, together with something known before. -/
theorem sweep_joint (h : IdealOn T past sig P env) (m : M) (q : Measure (Pos ℝ d)) [IsProbabilityMeasure q] (lnf : Pos ℝ d → ℝ)
    (hf : IdealFlowOn T P sig env m q lnf) (batch : ℕ) (hb : 0 < batch) (step : Pos ℝ d × ℝ → Pos ℝ d → Pos ℝ d) (hsm : Measurable (fun p : Pos ℝ d × (Pos ℝ d × ℝ) => step p.2 p.1))
    (μ : Measure (W × Pos ℝ d)) [IsProbabilityMeasure μ] (n : ℕ) (k : Key) (hT : ∀ a, Desc k a → T a)
    (S : Set (Option Key)) (hS : Disjoint S (descSet k)) (Y : Ω → W) (hY : Measurable[info past sig S] Y) (X : Ω → Pos ℝ d) (hX : Measurable[info past sig S] X) (hlaw : P.map (fun ω => (Y ω, X ω)) = μ) (j : ℕ) (hj : j ≤ n) :
    P.map (fun ω => (Y ω, sweepAt step j n (X ω) (fun i : Fin n => flowProposal (env ω).ops m batch (.child k 1) n i)
        (fun i : Fin n => (env ω).rng.uniform (stepKey (.child k 0) i)))) = (stepLaw (q.prod unif) (onSnd step))^[j] μ ∧
    Measurable[info past sig (S ∪ descSet k)] (fun ω => sweepAt step j n (X ω) (fun i : Fin n => flowProposal (env ω).ops m batch (.child k 1) n i)
        (fun i : Fin n => (env ω).rng.uniform (stepKey (.child k 0) i))) := by
  obtain ⟨vm, vl⟩ := proposals_law h m q lnf hf batch hb (.child k 1) (fun a ha => hT a (desc_trans (.child 1 .refl) ha)) n
  obtain ⟨um, ul⟩ := uniforms_law h (.child k 0) (fun a ha => hT a (desc_trans (.child 0 .refl) ha)) n
  have vu := h.joint (descSet_disjoint (by decide)) vm um
  have vum : Measurable[info past sig (descSet k)] (fun ω => ((fun i : Fin n => flowProposal (env ω).ops m batch (.child k 1) n i),
      (fun i : Fin n => (env ω).rng.uniform (stepKey (.child k 0) i)))) :=
    (vm.mono (info_mono descSet_child) le_rfl).prodMk (um.mono (info_mono descSet_child) le_rfl)
  have hjt := h.joint hS (hY.prodMk hX) vum
  rw [vu, vl, ul, hlaw] at hjt
  have hmeas := sweepAt_measurable step hsm j n
  have hmeas' := sweepAt_measurable (onSnd (W := W) step) (onSnd_measurable hsm) j n
  constructor
  · have e : (fun ω => (Y ω, sweepAt step j n (X ω) (fun i : Fin n => flowProposal (env ω).ops m batch (.child k 1) n i)
        (fun i : Fin n => (env ω).rng.uniform (stepKey (.child k 0) i)))) =
        (fun p : (W × Pos ℝ d) × ((Fin n → Pos ℝ d) × (Fin n → ℝ)) => sweepAt (onSnd step) j n p.1 p.2.1 p.2.2) ∘
          fun ω => ((Y ω, X ω), ((fun i : Fin n => flowProposal (env ω).ops m batch (.child k 1) n i), (fun i : Fin n => (env ω).rng.uniform (stepKey (.child k 0) i)))) := by
      funext ω; simp only [Function.comp, sweepAt_onSnd]
    rw [e, ← Measure.map_map hmeas' (((hY.prodMk hX).mono (h.info_le _) le_rfl).prodMk (vum.mono (h.info_le _) le_rfl)), hjt]
    exact sweepAt_iter _ (onSnd_measurable hsm) μ q unif j n hj
  · exact hmeas.comp ((hX.mono (info_mono Set.subset_union_left) le_rfl).prodMk (vum.mono (info_mono Set.subset_union_right) le_rfl))

/-! ### production -/

variable [BufNum ℝ]

/-- `f` is present, and together with `Y` — known from the draws in `S0` — has the joint law `μ`. -/
def JointLaw (past : MeasurableSpace Ω) (sig : Key → MeasurableSpace Ω) [mΩ : MeasurableSpace Ω] (P : Measure Ω) (S : Set (Option Key)) (Y : Ω → W) (μ : Measure (W × Pos ℝ d)) (f : Ω → Option (Pos ℝ d)) : Prop :=
  Measurable[info past sig S] Y ∧ ∃ X : Ω → Pos ℝ d, (∀ ω, f ω = some (X ω)) ∧ Measurable[info past sig S] X ∧ P.map (fun ω => (Y ω, X ω)) = μ

/-- Joint laws of rows of later production loops with something known before. -/
theorem joint_rowLaws (k : Key) (h : IdealOn (Desc k) past sig P env) (c : BundleCfg ℝ D d M O) (hc : GoodCfg c) (data : Data D) (m : M)
    (ht : Measurable (fun x => c.logpdf.val x data)) (hg : Measurable (fun x => c.logpdf.grad x data)) (hig : IgnoresNSteps c.logpdf)
    (q : Measure (Pos ℝ d)) [IsProbabilityMeasure q] (lnf : Pos ℝ d → ℝ) (hlnf : Measurable lnf) (hf : IdealFlowOn (Desc k) P sig env m q lnf) (Y : Ω → W) (μ : Measure (W × Pos ℝ d)) :
    RowLaws (fun hist S f => JointLaw past sig P S Y (histLaw (stepLaw (noise d) (onSnd (localStep (.mala c.stepSize : KernelRes ℝ d M) c.logpdf data)))
      (stepLaw (q.prod unif) (onSnd (flowStep c.logpdf data lnf))) hist μ) f) env c data (fun _ => m) k := by
  refine ⟨?_, ?_, hc, fun ω => hf.lawful ω, ?_, ?_⟩
  · rintro hist S S' f hS ⟨hY, X, h1, h2, h3⟩; exact ⟨hY.mono (info_mono hS) le_rfl, X, h1, h2.mono (info_mono hS) le_rfl, h3⟩
  · rintro hist S f ⟨hY, X, h1, h2, h3⟩; exact ⟨X, h1⟩
  · rintro a ha hist S hS X ⟨hY, X', hX', hXm, hXl⟩ j hj
    obtain rfl : X' = X := funext fun ω => (Option.some.inj (hX' ω)).symm
    obtain ⟨h1, h2⟩ := serial_joint h (.mala c.stepSize : KernelRes ℝ d M) (fun ω k x lp t data => malaKernel (env ω).rng c.stepSize k x lp t data) (fun _ => rfl) c.logpdf data ht hg _ (j + 1) a
      (fun _ => desc_trans ha) S hS Y hY X' hXm hXl
    refine ⟨hY.mono (info_mono Set.subset_union_left) le_rfl, _, fun ω => serialSample_state _ c.logpdf data c.nLocal a (X' ω) (j + 1) hj, h2, ?_⟩
    rw [h1, histLaw_append, histLaw_local]
  · rintro a ha hist S hS X ⟨hY, X', hX', hXm, hXl⟩ rows hrows j hj
    obtain rfl : X' = X := funext fun ω => (Option.some.inj (hX' ω)).symm
    haveI : IsProbabilityMeasure (P.map fun ω => (Y ω, X' ω)) := Measure.isProbabilityMeasure_map ((hY.prodMk hXm).mono (h.info_le _) le_rfl).aemeasurable
    obtain ⟨h1, h2⟩ := sweep_joint h m q lnf hf c.nfBatch hc.nfBatch _ (flowStep_measurable c.logpdf data lnf ht hlnf) _ c.nGlobal a (fun _ => desc_trans ha) S hS Y hY X' hXm rfl (j + 1) hj
    refine ⟨hY.mono (info_mono Set.subset_union_left) le_rfl, _, fun ω => ?_, h2, ?_⟩
    · obtain ⟨r, e, -, hr⟩ := group_sweep (env ω) (hf.lawful ω) m c.nfBatch hc.nfBatch c.logpdf hig data c.nGlobal a (X' ω)
      rw [hrows ω, Except.ok.injEq] at e
      simp only [e, hr j hj, hf.logProb ω]
    · rw [h1, hXl, histLaw_append, histLaw_global]

/-- Rows of later loops forget everything that happened in earlier ones, once the chain is near the target. -/
theorem cor_small (c : BundleCfg ℝ D d M O) (data : Data D) (hs : c.stepSize ≠ 0) (ht : Measurable (fun x => c.logpdf.val x data)) (hg : Measurable (fun x => c.logpdf.grad x data))
    (hfin : targetMeasure (fun x => c.logpdf.val x data) Set.univ ≠ ∞) (q : Measure (Pos ℝ d)) [IsProbabilityMeasure q] (lnf : Pos ℝ d → ℝ) (hlnf : Measurable lnf) (hq : SamplesFrom q lnf)
    (nC : ℕ) (μ : ℕ → Measure (Pos ℝ d)) (hμ : ∀ i, IsProbabilityMeasure (μ i)) (f : Pos ℝ d → ℝ) (hf : Measurable f) (B : ℝ) (hB0 : 0 < B) (hB : ∀ x, |f x| ≤ B)
    (hf0 : ∫ x, f x ∂(normalised (targetMeasure fun x => c.logpdf.val x data)) = 0) (R : ℕ) (η : ℝ) (hη : 0 < η) :
    ∃ N, ∀ i < nC, ∀ l, N ≤ l → ∀ J : Measure (Pos ℝ d × Pos ℝ d), IsProbabilityMeasure J →
      J.map Prod.snd = histLaw (stepLaw (noise d) (localStep (.mala c.stepSize : KernelRes ℝ d M) c.logpdf data)) (stepLaw (q.prod unif) (flowStep c.logpdf data lnf)) (loopsSteps c l) (μ i) →
      ∀ l', N ≤ l' → ∀ r < R,
      |∫ p, f p.1 * f p.2 ∂(histLaw (stepLaw (noise d) (onSnd (localStep (.mala c.stepSize : KernelRes ℝ d M) c.logpdf data)))
        (stepLaw (q.prod unif) (onSnd (flowStep c.logpdf data lnf))) (rowPre c r ++ loopsSteps c l') J)| ≤ η := by
  haveI := normalised_isProb _ ht hfin
  haveI : IsProbabilityMeasure (noise d) := by unfold noise; infer_instance
  set π := normalised (targetMeasure fun x => c.logpdf.val x data) with hπ
  have h1 := localStep_measurable (.mala c.stepSize : KernelRes ℝ d M) c.logpdf data ht hg
  have h2 := flowStep_measurable c.logpdf data lnf ht hlnf
  set s1 := localStep (.mala c.stepSize : KernelRes ℝ d M) c.logpdf data with hs1
  set s2 := flowStep c.logpdf data lnf with hs2
  set m : List Bool → Pos ℝ d → ℝ := fun h => histMean (stepMean (noise d) s1) (stepMean (q.prod unif) s2) h f with hm
  have mm : ∀ h, Measurable (m h) := fun h => histMean_measurable h1 h2 h hf
  have mb : ∀ h x, |m h x| ≤ B := fun h x => histMean_bdd h hB x
  -- total deviation from zero after `l` loops
  set Dev : ℕ → Pos ℝ d → ℝ := fun l x => ∑ r ∈ Finset.range R, |m (rowPre c r ++ loopsSteps c l) x| with hDev
  have Dm : ∀ l, Measurable (Dev l) := fun l => Finset.measurable_sum _ fun r _ => (mm _).abs
  have D0 : ∀ l x, 0 ≤ Dev l x := fun l x => Finset.sum_nonneg fun r _ => abs_nonneg _
  have Db : ∀ l x, |Dev l x| ≤ R * B := fun l x => by
    rw [abs_of_nonneg (D0 l x)]
    calc Dev l x ≤ ∑ r ∈ Finset.range R, B := Finset.sum_le_sum fun r _ => mb _ _
      _ = R * B := by simp
  have Dlim : ∀ x, Tendsto (fun l => Dev l x) atTop (𝓝 0) := by
    intro x
    have : Tendsto (fun l => ∑ r ∈ Finset.range R, |m (rowPre c r ++ loopsSteps c l) x|) atTop (𝓝 (∑ r ∈ Finset.range R, 0)) := by
      refine tendsto_finset_sum _ fun r _ => ?_
      rw [Metric.tendsto_atTop]
      intro ε hε
      obtain ⟨N, hN⟩ := cycles_near c data hs ht hg hfin q lnf hlnf hq 1 (fun _ => Measure.dirac x) (fun _ => inferInstance) (ε / (4 * B)) (by positivity)
      refine ⟨N, fun l hl => ?_⟩
      have hn := hN 0 (by omega) l hl (rowPre c r)
      haveI := histLaw_prob (ν1 := noise d) (ν2 := q.prod unif) h1 h2 (rowPre c r ++ loopsSteps c l) (Measure.dirac x)
      have := integral_near hn hf hB
      rw [hf0, sub_zero] at this
      rw [Real.dist_eq, sub_zero, abs_abs]
      simp only [hm]
      rw [histMean_eq h1 h2 _ hf hB]
      refine lt_of_le_of_lt this ?_
      have : 2 * B * (ε / (4 * B)) = ε / 2 := by field_simp; ring
      rw [this]; linarith
    simpa using this
  have Dint : Tendsto (fun l => ∫ x, Dev l x ∂π) atTop (𝓝 0) := by
    have := tendsto_integral_of_dominated_convergence (μ := π) (F := Dev) (f := fun _ => 0) (fun _ => R * B) (fun l => (Dm l).aestronglyMeasurable) (integrable_const _)
      (fun l => ae_of_all _ fun x => by rw [Real.norm_eq_abs]; exact Db l x) (ae_of_all _ Dlim)
    simpa using this
  obtain ⟨N1, hN1⟩ := (Metric.tendsto_atTop.1 Dint) (η / (2 * B)) (by positivity)
  have hε1 : 0 < η / (4 * B ^ 2 * (R + 1)) := by positivity
  obtain ⟨N2, hN2⟩ := cycles_near c data hs ht hg hfin q lnf hlnf hq nC μ hμ _ hε1
  refine ⟨max N1 N2, fun i hi l hl J hJ hJs l' hl' r hr => ?_⟩
  have near := hN2 i hi l (le_trans (le_max_right _ _) hl) []
  rw [List.nil_append, ← hJs] at near
  haveI : IsProbabilityMeasure (J.map Prod.snd) := Measure.isProbabilityMeasure_map measurable_snd.aemeasurable
  have e1 := integral_near near (Dm l') (Db l')
  have e2 := hN1 l' (le_trans (le_max_left _ _) hl')
  rw [Real.dist_eq, sub_zero] at e2
  rw [integral_onSnd h1 h2 _ hf hB hf hB]
  have e3 : |∫ p, f p.1 * m (rowPre c r ++ loopsSteps c l') p.2 ∂J| ≤ B * ∫ x, Dev l' x ∂(J.map Prod.snd) := by
    rw [integral_map measurable_snd.aemeasurable (Dm l').aestronglyMeasurable, ← integral_const_mul]
    refine (abs_integral_le_integral_abs).trans ?_
    refine integral_mono_of_nonneg (ae_of_all _ fun p => abs_nonneg _) ?_ (ae_of_all _ fun p => ?_)
    · exact (integrable_bdd ((Dm l').comp measurable_snd) (fun p => Db l' p.2)).const_mul B
    · simp only [abs_mul]
      refine mul_le_mul (hB _) ?_ (abs_nonneg _) hB0.le
      exact Finset.single_le_sum (f := fun r => |m (rowPre c r ++ loopsSteps c l') p.2|) (fun r _ => abs_nonneg _) (Finset.mem_range.2 hr)
  refine e3.trans ?_
  have e4 : ∫ x, Dev l' x ∂(J.map Prod.snd) ≤ η / (2 * B) + 2 * (R * B) * (η / (4 * B ^ 2 * (R + 1))) := by
    have := (abs_le.1 e1).2
    have := (abs_lt.1 e2).2
    linarith
  calc B * ∫ x, Dev l' x ∂(J.map Prod.snd) ≤ B * (η / (2 * B) + 2 * (R * B) * (η / (4 * B ^ 2 * (R + 1)))) := mul_le_mul_of_nonneg_left e4 hB0.le
    _ = η / 2 + η / 2 * (R / (R + 1)) := by field_simp; ring
    _ ≤ η / 2 + η / 2 * 1 := by
      have : (R : ℝ) / (R + 1) ≤ 1 := by rw [div_le_one (by positivity)]; linarith
      have := mul_le_mul_of_nonneg_left this (by linarith : 0 ≤ η / 2)
      linarith
    _ = η := by ring

theorem sum_range_loops (n R : ℕ) (a : ℕ → ℝ) : ∑ j ∈ Finset.range (n * R), a j = ∑ l ∈ Finset.range n, ∑ r ∈ Finset.range R, a (l * R + r) := by
  induction n with
  | zero => simp
  | succ n ih => rw [Nat.succ_mul, Finset.sum_range_add, ih, Finset.sum_range_succ]

/-- The conclusion of `cor_small`, for the centred function. -/
def Forgets (c : BundleCfg ℝ D d M O) (data : Data D) (q : Measure (Pos ℝ d)) (lnf : Pos ℝ d → ℝ) (μ : ℕ → Measure (Pos ℝ d)) (f : Pos ℝ d → ℝ) (η : ℝ) (N : ℕ) : Prop :=
  ∀ i < c.nChains, ∀ l, N ≤ l → ∀ J : Measure (Pos ℝ d × Pos ℝ d), IsProbabilityMeasure J →
      J.map Prod.snd = histLaw (stepLaw (noise d) (localStep (.mala c.stepSize : KernelRes ℝ d M) c.logpdf data)) (stepLaw (q.prod unif) (flowStep c.logpdf data lnf)) (loopsSteps c l) (μ i) →
      ∀ l', N ≤ l' → ∀ r < rowsPerCall c true + rowsPerCall c false,
      |∫ p, f p.1 * f p.2 ∂(histLaw (stepLaw (noise d) (onSnd (localStep (.mala c.stepSize : KernelRes ℝ d M) c.logpdf data)))
        (stepLaw (q.prod unif) (onSnd (flowStep c.logpdf data lnf))) (rowPre c r ++ loopsSteps c l') J)| ≤ η

/-- Chebyshev for the average over a chain whose rows are weakly correlated. -/
theorem means_of_cor {c : BundleCfg ℝ D d M O} (hc : GoodCfg c) (hn : 0 < c.nProdLoops) {b1 b2 : ℕ → Ω → Block ℝ d} (f : Pos ℝ d → ℝ) (hf : Measurable f) (B : ℝ) (hB : ∀ x, |f x| ≤ B)
    (η : ℝ) (hη : 0 ≤ η) (N : ℕ) (i : ℕ) (Y : ℕ → ℕ → Ω → Pos ℝ d)
    (hY : ∀ l < c.nProdLoops, ∀ r < rowsPerCall c true + rowsPerCall c false, ∀ ω, rowCell c b1 b2 i l r ω = some (Y l r ω))
    (Ym : ∀ l < c.nProdLoops, ∀ r < rowsPerCall c true + rowsPerCall c false, Measurable (Y l r))
    (cor : ∀ l l', N ≤ l → l + N < l' → l' < c.nProdLoops → ∀ r < rowsPerCall c true + rowsPerCall c false, ∀ r' < rowsPerCall c true + rowsPerCall c false, ∫ ω, f (Y l r ω) * f (Y l' r' ω) ∂P ≤ η)
    (b : Ω → Buffer ℝ)
    (hb : ∀ ω, ∀ j < c.nProdSteps, ∀ Y, rowCell c b1 b2 i (j / (rowsPerCall c true + rowsPerCall c false)) (j % (rowsPerCall c true + rowsPerCall c false)) ω = some Y → ∀ a : Fin d, (b ω).data.get [i, j, a] = Y a)
    (δ : ℝ) (hδ : 0 < δ) : P.real {ω | δ < |chainMean f (b ω) i c.nProdSteps|} ≤ (η + (4 * N + 1) * B ^ 2 / c.nProdLoops) / δ ^ 2 := by
  set n := c.nProdLoops with hnn
  set Q := rowsPerCall c true + rowsPerCall c false with hQ
  have hQ0 : 0 < Q := by have := rowsPerCall_pos hc true; omega
  have hcap : c.nProdSteps = n * Q := capacity_eq c true
  set U : ℕ → Ω → ℝ := fun l ω => ∑ r ∈ Finset.range Q, f (Y l r ω) with hU
  have Um : ∀ l < n, Measurable (U l) := fun l hl => Finset.measurable_sum _ fun r hr => hf.comp (Ym l hl r (Finset.mem_range.1 hr))
  have Ub : ∀ l < n, ∀ ω, |U l ω| ≤ Q * B := fun l hl ω => by
    calc |U l ω| ≤ ∑ r ∈ Finset.range Q, |f (Y l r ω)| := Finset.abs_sum_le_sum_abs _ _
      _ ≤ ∑ r ∈ Finset.range Q, B := Finset.sum_le_sum fun r _ => hB _
      _ = Q * B := by simp
  have ii : ∀ l < n, ∀ l' < n, ∀ r < Q, ∀ r' < Q, Integrable (fun ω => f (Y l r ω) * f (Y l' r' ω)) P := by
    intro l hl l' hl' r hr r' hr'
    refine integrable_bdd ((hf.comp (Ym l hl r hr)).mul (hf.comp (Ym l' hl' r' hr'))) (B := B * B) fun ω => ?_
    simp only [Pi.mul_apply, Function.comp, abs_mul]
    exact mul_le_mul (hB _) (hB _) (abs_nonneg _) (le_trans (abs_nonneg _) (hB (Y l r ω)))
  have corU : ∀ l l', N ≤ l → l + N < l' → l' < n → ∫ ω, U l ω * U l' ω ∂P ≤ Q ^ 2 * η := by
    intro l l' hl hll hl'
    have e : ∀ ω, U l ω * U l' ω = ∑ r ∈ Finset.range Q, ∑ r' ∈ Finset.range Q, f (Y l r ω) * f (Y l' r' ω) := fun ω => by simp only [hU]; rw [Finset.sum_mul_sum]
    simp only [e]
    rw [integral_finset_sum _ fun r hr => integrable_finset_sum _ fun r' hr' => ii l (by omega) l' hl' r (Finset.mem_range.1 hr) r' (Finset.mem_range.1 hr')]
    calc _ ≤ ∑ r ∈ Finset.range Q, ∑ r' ∈ Finset.range Q, η := by
          refine Finset.sum_le_sum fun r hr => ?_
          rw [integral_finset_sum _ fun r' hr' => ii l (by omega) l' hl' r (Finset.mem_range.1 hr) r' (Finset.mem_range.1 hr')]
          exact Finset.sum_le_sum fun r' hr' => cor l l' hl hll hl' r (Finset.mem_range.1 hr) r' (Finset.mem_range.1 hr')
      _ = _ := by simp; ring
  have sm := second_moment (P := P) U n Um Ub (by positivity : 0 ≤ Q ^ 2 * η) N corU
  -- the average
  have hmean : ∀ ω, chainMean f (b ω) i c.nProdSteps = (∑ l ∈ Finset.range n, U l ω) / (n * Q : ℝ) := by
    intro ω
    rw [chainMean, hcap, sum_range_loops]
    push_cast
    congr 1
    refine Finset.sum_congr rfl fun l hl => Finset.sum_congr rfl fun r hr => ?_
    rw [Finset.mem_range] at hl hr
    congr 1
    funext a
    have e1 : (l * Q + r) / Q = l := by rw [Nat.mul_comm, Nat.mul_add_div hQ0, Nat.div_eq_of_lt hr, Nat.add_zero]
    have e2 : (l * Q + r) % Q = r := by rw [Nat.mul_comm, Nat.mul_add_mod, Nat.mod_eq_of_lt hr]
    refine hb ω (l * Q + r) ?_ (Y l r ω) ?_ a
    · rw [hcap]
      calc l * Q + r < l * Q + Q := by omega
        _ = (l + 1) * Q := by ring
        _ ≤ n * Q := Nat.mul_le_mul_right _ hl
    · rw [e1, e2]; exact hY l hl r hr ω
  simp only [hmean]
  have hnp : (0 : ℝ) < n := by exact_mod_cast hn
  have hQp : (0 : ℝ) < Q := by exact_mod_cast hQ0
  refine chebyshev_mean (P := P) (fun ω => (∑ l ∈ Finset.range n, U l ω) / (n * Q : ℝ)) ((Finset.measurable_sum _ fun l hl => Um l (Finset.mem_range.1 hl)).div_const _) (B := B) (fun ω => ?_) hδ ?_
  · rw [abs_div, abs_of_pos (by positivity : (0 : ℝ) < n * Q), div_le_iff₀ (by positivity)]
    calc |∑ l ∈ Finset.range n, U l ω| ≤ ∑ l ∈ Finset.range n, |U l ω| := Finset.abs_sum_le_sum_abs _ _
      _ ≤ ∑ l ∈ Finset.range n, (Q * B : ℝ) := Finset.sum_le_sum fun l hl => Ub l (Finset.mem_range.1 hl) ω
      _ = B * (n * Q) := by simp; ring
  · simp only [div_pow]
    rw [integral_div, div_le_iff₀ (by positivity)]
    refine sm.trans (le_of_eq ?_)
    field_simp

theorem ProdRun.means {c : BundleCfg ℝ D d M O} {data : Data D} {m : M} {k : Key} {logs : Ω → Bool → List (Block ℝ d)} {w : ℕ → Ω → World ℝ D d M O} {zs : ℕ → Ω → List (Pos ℝ d)} {b1 b2 : ℕ → Ω → Block ℝ d}
    (R : ProdRun env c data (fun _ => m) k logs c.nProdLoops w zs b1 b2) (h : IdealOn (Desc k) past sig P env) {q : Measure (Pos ℝ d)} {lnf : Pos ℝ d → ℝ} (hE : MixingBundle (Desc k) P sig env c data m q lnf)
    (μ : ℕ → Measure (Pos ℝ d)) (hn : 0 < c.nProdLoops) (f : Pos ℝ d → ℝ) (hf : Measurable f) (B : ℝ) (hB : ∀ x, |f x| ≤ B) (η : ℝ) (hη : 0 ≤ η) (N : ℕ) (hN : Forgets c data q lnf μ f η N)
    (i : ℕ) (hi : i < c.nChains) (hstart : ∃ X : Ω → Pos ℝ d, (∀ ω, (w 0 ω).xs[i]? = some (X ω)) ∧ Measurable[past] X ∧ P.map X = μ i) (b : Ω → Buffer ℝ)
    (hb : ∀ ω, ∀ j < c.nProdSteps, ∀ Y, rowCell c b1 b2 i (j / (rowsPerCall c true + rowsPerCall c false)) (j % (rowsPerCall c true + rowsPerCall c false)) ω = some Y → ∀ a : Fin d, (b ω).data.get [i, j, a] = Y a)
    (δ : ℝ) (hδ : 0 < δ) : P.real {ω | δ < |chainMean f (b ω) i c.nProdSteps|} ≤ (η + (4 * N + 1) * B ^ 2 / c.nProdLoops) / δ ^ 2 := by
  haveI := hE.prob
  haveI : IsProbabilityMeasure (noise d) := by unfold noise; infer_instance
  have h1 := localStep_measurable (.mala c.stepSize : KernelRes ℝ d M) c.logpdf data hE.meas hE.gradMeas
  have h2 := flowStep_measurable c.logpdf data lnf hE.meas hE.lnfMeas
  set n := c.nProdLoops with hnn
  set Q := rowsPerCall c true + rowsPerCall c false with hQ
  have hQ0 : 0 < Q := by have := rowsPerCall_pos hE.good true; omega
  have hcap : c.nProdSteps = n * Q := capacity_eq c true
  have hs0 : ∃ ρ ∈ ({μ i} : Set (Measure (Pos ℝ d))), KnownLaw past sig P (prodSet k 0) (histLaw (stepLaw (noise d) (localStep (.mala c.stepSize : KernelRes ℝ d M) c.logpdf data))
      (stepLaw (q.prod unif) (flowStep c.logpdf data lnf)) [] ρ) (fun ω => (w 0 ω).xs[i]?) := by
    obtain ⟨X, e1, e2, e3⟩ := hstart
    exact ⟨μ i, rfl, X, e1, e2.mono (past_le_info (by simp [prodSet])) le_rfl, e3⟩
  obtain ⟨lawX, lawR⟩ := R.laws (hist_rowLaws k h c hE.good data m hE.meas hE.gradMeas hE.ignores q lnf hE.lnfMeas hE.flow {μ i}) 0 [] i hs0
  simp only [Nat.zero_add, List.append_nil, Set.mem_singleton_iff, exists_eq_left] at lawX lawR
  -- the rows
  have hrow : ∀ l r, ∃ Y : Ω → Pos ℝ d, l < n → r < Q → (∀ ω, rowCell c b1 b2 i l r ω = some (Y ω)) ∧ Measurable[info past sig (prodSet k (l + 1))] Y := by
    intro l r
    by_cases hl : l < n
    · by_cases hr : r < Q
      · obtain ⟨Y, e1, e2, e3⟩ := lawR l hl r hr
        exact ⟨Y, fun _ _ => ⟨e1, e2⟩⟩
      · exact ⟨fun _ _ => 0, fun _ h => absurd h hr⟩
    · exact ⟨fun _ _ => 0, fun h => absurd h hl⟩
  choose Y hY using hrow
  have Ym : ∀ l < n, ∀ r < Q, Measurable (Y l r) := fun l hl r hr => (hY l r hl hr).2.mono (h.info_le _) le_rfl
  -- correlations
  have cor : ∀ l l', N ≤ l → l + N < l' → l' < n → ∀ r < Q, ∀ r' < Q, ∫ ω, f (Y l r ω) * f (Y l' r' ω) ∂P ≤ η := by
    intro l l' hl hll hl' r hr r' hr'
    obtain ⟨X, e1, e2, e3⟩ := lawX (l + 1) (by omega)
    have hYr := hY l r (by omega) hr
    set J := P.map (fun ω => (Y l r ω, X ω)) with hJ
    have hJm : Measurable (fun ω => (Y l r ω, X ω)) := (hYr.2.prodMk e2).mono (h.info_le _) le_rfl
    haveI : IsProbabilityMeasure J := Measure.isProbabilityMeasure_map hJm.aemeasurable
    have hJs : J.map Prod.snd = histLaw (stepLaw (noise d) (localStep (.mala c.stepSize : KernelRes ℝ d M) c.logpdf data)) (stepLaw (q.prod unif) (flowStep c.logpdf data lnf)) (loopsSteps c (l + 1)) (μ i) := by
      rw [hJ, Measure.map_map measurable_snd hJm, ← e3]; rfl
    have hstart' : JointLaw past sig P (prodSet k (l + 1)) (Y l r) (histLaw (stepLaw (noise d) (onSnd (localStep (.mala c.stepSize : KernelRes ℝ d M) c.logpdf data)))
      (stepLaw (q.prod unif) (onSnd (flowStep c.logpdf data lnf))) [] J) (fun ω => (w (l + 1) ω).xs[i]?) := ⟨hYr.2, X, e1, e2, rfl⟩
    obtain ⟨l'', rfl⟩ : ∃ l'', l' = l + 1 + l'' := ⟨l' - (l + 1), by omega⟩
    have := (R.laws (joint_rowLaws k h c hE.good data m hE.meas hE.gradMeas hE.ignores q lnf hE.lnfMeas hE.flow (Y l r) J) (l + 1) [] i hstart').2 l'' hl' r' hr'
    rw [List.append_nil] at this
    obtain ⟨-, Y', g1, g2, g3⟩ := this
    obtain rfl : Y' = Y (l + 1 + l'') r' := funext fun ω => by
      have := (hY (l + 1 + l'') r' hl' hr').1 ω
      rw [g1 ω, Option.some.injEq] at this; exact this
    have hm2 : Measurable (fun ω => (Y l r ω, Y (l + 1 + l'') r' ω)) := (Ym l (by omega) r hr).prodMk (Ym _ hl' r' hr')
    have e : ∫ ω, f (Y l r ω) * f (Y (l + 1 + l'') r' ω) ∂P = ∫ p, f p.1 * f p.2 ∂(P.map fun ω => (Y l r ω, Y (l + 1 + l'') r' ω)) := by
      rw [integral_map hm2.aemeasurable]
      exact ((hf.comp measurable_fst).mul (hf.comp measurable_snd)).aestronglyMeasurable
    rw [e, g3]
    exact (abs_le.1 (hN i hi (l + 1) (by omega) J inferInstance hJs l'' (by omega) r' hr')).2
  exact means_of_cor hE.good hn f hf B hB η hη N i Y (fun l hl r hr => (hY l r hl hr).1) Ym cor b hb δ hδ

theorem forgets_withProd {c : BundleCfg ℝ D d M O} {data : Data D} {q : Measure (Pos ℝ d)} {lnf : Pos ℝ d → ℝ} {μ : ℕ → Measure (Pos ℝ d)} {f : Pos ℝ d → ℝ} {η : ℝ} {N : ℕ}
    (h : Forgets c data q lnf μ f η N) (n : ℕ) : Forgets (c.withProd n) data q lnf μ f η N := by
  intro i hi l hl J hJ hJs l' hl' r hr
  rw [loopsSteps_withProd] at hJs ⊢
  exact h i hi l hl J hJ hJs l' hl' r hr

theorem chainMean_sub (f : Pos ℝ d → ℝ) (b : Buffer ℝ) (i n : ℕ) (hn : 0 < n) (a : ℝ) : chainMean (fun x => f x - a) b i n = chainMean f b i n - a := by
  have : (n : ℝ) ≠ 0 := by positivity
  simp only [chainMean, Finset.sum_sub_distrib, Finset.sum_const, Finset.card_range, nsmul_eq_mul]
  field_simp

theorem production_means (k : Key) (h : IdealOn (Desc k) past sig P env) (c : BundleCfg ℝ D d M O) (data : Data D) (m : M) (q : Measure (Pos ℝ d)) (lnf : Pos ℝ d → ℝ)
    (hE : MixingBundle (Desc k) P sig env c data m q lnf) (μ : ℕ → Measure (Pos ℝ d)) (f : Pos ℝ d → ℝ) (hf : Measurable f) (B a : ℝ) (hB : ∀ x, |f x - a| ≤ B)
    (η : ℝ) (hη : 0 ≤ η) (N : ℕ) (hN : Forgets c data q lnf μ (fun x => f x - a) η N) (hn : 0 < c.nProdLoops) (δ : ℝ) (hδ : 0 < δ)
    (key : Ω → Key) (xs : Ω → List (Pos ℝ d)) (hx : ∀ ω, (xs ω).length = c.nChains) (w w' : Ω → World ℝ D d M O)
    (htrain : ∀ ω, Completes (env ω) (malaBundle c).strategies.lookup data (repeatPhase c.nTrainLoops trainingPhase ++ ["reset_steppers", "update_state"])
      ⟨key ω, xs ω, ⟨(malaBundle c).resources, fun _ => 0⟩⟩ (w ω))
    (hkey : ∀ ω, (w ω).key = k) (hflow : ∀ ω, (w ω).heap.res "global_sampler" = some (.kernel (.nf m c.nfBatch)))
    (hstart : ∀ i < c.nChains, ∃ X : Ω → Pos ℝ d, (∀ ω, (w ω).xs[i]? = some (X ω)) ∧ Measurable[past] X ∧ P.map X = μ i)
    (hprod : ∀ ω, Completes (env ω) (malaBundle c).strategies.lookup data (repeatPhase c.nProdLoops productionPhase) (w ω) (w' ω)) :
    ∃ b : Ω → Buffer ℝ, (∀ ω, (w' ω).heap.res "positions_production" = some (.buffer (b ω))) ∧
      P.real {ω | ∃ i < c.nChains, δ < |chainMean f (b ω) i c.nProdSteps - a|} ≤ c.nChains * ((η + (4 * N + 1) * B ^ 2 / c.nProdLoops) / δ ^ 2) := by
  obtain ⟨logs, v, zs, b1, b2, e0, en, R⟩ := production_run hE.good (fun ω => hE.flow.lawful ω) w w'
    (fun ω => production_start (env ω) (hE.flow.lawful ω) c hE.good data (key ω) (xs ω) (hx ω) (w ω) (htrain ω)) hkey hflow hprod
  choose b hb hcell using fun ω => R.buffer ω
  refine ⟨b, fun ω => by rw [← en]; exact hb ω, ?_⟩
  have hpos : 0 < c.nProdSteps := by
    have hcap : c.nProdSteps = c.nProdLoops * (rowsPerCall c true + rowsPerCall c false) := capacity_eq c true
    have := rowsPerCall_pos hE.good true
    rw [hcap]; exact Nat.mul_pos hn (by omega)
  have hset : {ω | ∃ i < c.nChains, δ < |chainMean f (b ω) i c.nProdSteps - a|} = ⋃ i ∈ Finset.range c.nChains, {ω | δ < |chainMean (fun x => f x - a) (b ω) i c.nProdSteps|} := by
    ext ω
    simp only [Set.mem_setOf_eq, Set.mem_iUnion, Finset.mem_range, exists_prop, chainMean_sub f _ _ _ hpos]
  rw [hset]
  refine (measureReal_biUnion_finset_le _ _).trans ?_
  calc _ ≤ ∑ i ∈ Finset.range c.nChains, (η + (4 * N + 1) * B ^ 2 / c.nProdLoops) / δ ^ 2 := by
        refine Finset.sum_le_sum fun i hi => ?_
        rw [Finset.mem_range] at hi
        exact R.means h hE μ hn (fun x => f x - a) (hf.sub_const a) B hB η hη N hN i hi (by rw [e0]; exact hstart i hi) b (fun ω j hj => hcell ω i hi j hj) δ hδ
    _ = _ := by simp

/-- For bounded functions there is such an `N`, and a number of loops that makes the deviation probability small. -/
theorem means_bound (c : BundleCfg ℝ D d M O) (data : Data D) (m : M) (q : Measure (Pos ℝ d)) (lnf : Pos ℝ d → ℝ) (hE : MixingBundle T P sig env c data m q lnf) (μ : ℕ → Measure (Pos ℝ d))
    (hμ : ∀ i, IsProbabilityMeasure (μ i)) (f : Pos ℝ d → ℝ) (hf : Measurable f) (B : ℝ) (hB : ∀ x, |f x| ≤ B) (δ ε : ℝ) (hδ : 0 < δ) (hε : 0 < ε) :
    ∃ (C η : ℝ) (N L : ℕ), (∀ x, |f x - ∫ x, f x ∂(normalised (targetMeasure fun x => c.logpdf.val x data))| ≤ C) ∧ 0 ≤ η ∧
      Forgets c data q lnf μ (fun x => f x - ∫ x, f x ∂(normalised (targetMeasure fun x => c.logpdf.val x data))) η N ∧
      ∀ n : ℕ, L ≤ n → 0 < n ∧ c.nChains * ((η + (4 * N + 1) * C ^ 2 / n) / δ ^ 2) ≤ ε := by
  haveI := hE.prob
  haveI := normalised_isProb _ hE.meas hE.finite
  set a := ∫ x, f x ∂(normalised (targetMeasure fun x => c.logpdf.val x data)) with ha
  have haB : |a| ≤ B := abs_integral_bdd hB
  have hB0 : 0 ≤ B := le_trans (abs_nonneg _) haB
  have hC : ∀ x, |f x - a| ≤ 2 * B + 1 := fun x => by
    have h1 := abs_le.1 (hB x); have h2 := abs_le.1 haB
    rw [abs_le]; constructor <;> linarith
  have hf0 : ∫ x, (f x - a) ∂(normalised (targetMeasure fun x => c.logpdf.val x data)) = 0 := by
    rw [integral_sub (integrable_bdd hf hB) (integrable_const a)]
    simp [ha]
  set η := ε * δ ^ 2 / (2 * (c.nChains + 1)) with hη
  have hη0 : 0 < η := by positivity
  obtain ⟨N, hN⟩ := cor_small c data hE.step hE.meas hE.gradMeas hE.finite q lnf hE.lnfMeas hE.flow.density c.nChains μ hμ (fun x => f x - a) (hf.sub_const a) (2 * B + 1) (by linarith) hC hf0
    (rowsPerCall c true + rowsPerCall c false) η hη0
  obtain ⟨L, hL⟩ := exists_nat_gt ((4 * N + 1) * (2 * B + 1) ^ 2 / η)
  refine ⟨2 * B + 1, η, N, L, hC, hη0.le, hN, fun n hn => ?_⟩
  have hLn : (4 * N + 1) * (2 * B + 1) ^ 2 / η < (n : ℝ) := lt_of_lt_of_le hL (by exact_mod_cast hn)
  have hnp : (0 : ℝ) < n := lt_of_le_of_lt (by positivity) hLn
  refine ⟨by exact_mod_cast hnp, ?_⟩
  have h2 : (4 * N + 1) * (2 * B + 1) ^ 2 / n ≤ η := by
    rw [div_lt_iff₀ hη0] at hLn
    rw [div_le_iff₀ hnp]; linarith
  calc c.nChains * ((η + (4 * N + 1) * (2 * B + 1) ^ 2 / n) / δ ^ 2) ≤ c.nChains * ((η + η) / δ ^ 2) := by
        refine mul_le_mul_of_nonneg_left ?_ (Nat.cast_nonneg _)
        refine div_le_div_of_nonneg_right (by linarith) (by positivity)
    _ = ε * (c.nChains / (c.nChains + 1)) := by rw [hη]; field_simp; ring
    _ ≤ ε * 1 := by
      refine mul_le_mul_of_nonneg_left ?_ hε.le
      rw [div_le_one (by positivity)]; linarith
    _ = ε := mul_one ε

/-- **C72 (production phase).** A run of `RQSpline_MALA_Bundle` in an ideal random world.  Suppose that when training is over (`w ω`) the random key is `k`, the flow in the global sampler is `m` — a flow
whose `log_prob` is the log-density of its samples up to a constant — and the position of chain `i` has any distribution `μ i`, determined by what happened before.  Let `f` be any bounded measurable function
of the position.  For all `δ, ε > 0` there is an `L` such that with `L` or more production loops, the probability that in some chain the average of `f` over the production rows of `positions_production`
differs by more than `δ` from the mean of `f` under the target is at most `ε`. -/
theorem C72_production (k : Key) (h : IdealOn (Desc k) past sig P env) (c : BundleCfg ℝ D d M O) (data : Data D) (m : M) (q : Measure (Pos ℝ d)) (lnf : Pos ℝ d → ℝ)
    (hE : MixingBundle (Desc k) P sig env c data m q lnf) (μ : ℕ → Measure (Pos ℝ d)) (hμ : ∀ i, IsProbabilityMeasure (μ i)) (f : Pos ℝ d → ℝ) (hf : Measurable f) (B : ℝ) (hB : ∀ x, |f x| ≤ B)
    (δ ε : ℝ) (hδ : 0 < δ) (hε : 0 < ε) :
    ∃ L, ∀ (n : ℕ), L ≤ n → ∀ (key : Ω → Key) (xs : Ω → List (Pos ℝ d)) (w w' : Ω → World ℝ D d M O), (∀ ω, (xs ω).length = c.nChains) →
      (∀ ω, Completes (env ω) (malaBundle (c.withProd n)).strategies.lookup data (repeatPhase c.nTrainLoops trainingPhase ++ ["reset_steppers", "update_state"])
        ⟨key ω, xs ω, ⟨(malaBundle (c.withProd n)).resources, fun _ => 0⟩⟩ (w ω)) →
      (∀ ω, (w ω).key = k) → (∀ ω, (w ω).heap.res "global_sampler" = some (.kernel (.nf m c.nfBatch))) →
      (∀ i < c.nChains, ∃ X : Ω → Pos ℝ d, (∀ ω, (w ω).xs[i]? = some (X ω)) ∧ Measurable[past] X ∧ P.map X = μ i) →
      (∀ ω, Completes (env ω) (malaBundle (c.withProd n)).strategies.lookup data (repeatPhase n productionPhase) (w ω) (w' ω)) →
      ∃ b : Ω → Buffer ℝ, (∀ ω, (w' ω).heap.res "positions_production" = some (.buffer (b ω))) ∧
        P.real {ω | ∃ i < c.nChains, δ < |chainMean f (b ω) i (c.withProd n).nProdSteps - ∫ x, f x ∂(normalised (targetMeasure fun x => c.logpdf.val x data))|} ≤ ε := by
  obtain ⟨C, η, N, L, hC, hη, hN, hL⟩ := means_bound c data m q lnf hE μ hμ f hf B hB δ ε hδ hε
  refine ⟨L, fun n hn key xs w w' hx htrain hkey hflow hstart hprod => ?_⟩
  obtain ⟨hn0, hb⟩ := hL n hn
  obtain ⟨b, h1, h2⟩ := production_means k h (c.withProd n) data m q lnf (hE.withProd n) μ f hf C _ hC η hη N (forgets_withProd hN n) hn0 δ hδ key xs hx w w' htrain hkey hflow hstart hprod
  exact ⟨b, h1, h2.trans hb⟩

/-- **C72 (given the training phase).** Whole runs of `RQSpline_MALA_Bundle`.  For every flow `m`, start laws `μ i`, bounded measurable `f` and `δ, ε > 0` there is an `L` such that with `n ≥ L` production
loops: if `k` is the random key at the end of training, and `E` is any event of positive probability, decided before production, on which training ended with the flow `m` and given which chain `i` has the
distribution `μ i` at the end of training, then the conditional probability given `E` that some chain's production average of `f` is more than `δ` away from the target mean is at most `ε`. -/
theorem C72_given_training (h : IdealDraws past sig P env) (c : BundleCfg ℝ D d M O) (data : Data D) (m : M) (q : Measure (Pos ℝ d)) (lnf : Pos ℝ d → ℝ)
    (hB : MixingBundle (fun _ => True) P sig env c data m q lnf) (μ : ℕ → Measure (Pos ℝ d)) (hμ : ∀ i, IsProbabilityMeasure (μ i)) (f : Pos ℝ d → ℝ) (hf : Measurable f) (C : ℝ) (hC : ∀ x, |f x| ≤ C)
    (δ ε : ℝ) (hδ : 0 < δ) (hε : 0 < ε) :
    ∃ L, ∀ (n : ℕ), L ≤ n → ∀ (key : Key) (xs : Ω → List (Pos ℝ d)) (w w' : Ω → World ℝ D d M O) (k : Key) (E : Set Ω), (∀ ω, (xs ω).length = c.nChains) →
      MeasurableSet[before past sig k] E → P E ≠ 0 →
      (∀ ω ∈ E, Completes (env ω) (malaBundle (c.withProd n)).strategies.lookup data (repeatPhase c.nTrainLoops trainingPhase ++ ["reset_steppers", "update_state"])
        ⟨key, xs ω, ⟨(malaBundle (c.withProd n)).resources, fun _ => 0⟩⟩ (w ω)) →
      (∀ ω ∈ E, (w ω).key = k) → (∀ ω ∈ E, (w ω).heap.res "global_sampler" = some (.kernel (.nf m c.nfBatch))) →
      (∀ i < c.nChains, ∃ X : Ω → Pos ℝ d, (∀ ω ∈ E, (w ω).xs[i]? = some (X ω)) ∧ Measurable[before past sig k] X ∧ (P[|E]).map X = μ i) →
      (∀ ω ∈ E, Completes (env ω) (malaBundle (c.withProd n)).strategies.lookup data (repeatPhase n productionPhase) (w ω) (w' ω)) →
      ∃ b : Ω → Buffer ℝ, (∀ ω ∈ E, (w' ω).heap.res "positions_production" = some (.buffer (b ω))) ∧
        (P[|E]).real {ω | ∃ i < c.nChains, δ < |chainMean f (b ω) i (c.withProd n).nProdSteps - ∫ x, f x ∂(normalised (targetMeasure fun x => c.logpdf.val x data))|} ≤ ε := by
  haveI := hB.prob
  obtain ⟨C', η, N, L, hC', hη, hN, hL⟩ := means_bound c data m q lnf hB μ hμ f hf C hC δ ε hδ hε
  refine ⟨L, fun n hn key xs w w' k E hx hE hP htrain hkey hflow hstart hprod => ?_⟩
  obtain ⟨hn0, hbd⟩ := hL n hn
  have hE' : MeasurableSet E := before_le h k E hE
  have hI := idealOn_cond h k (fun _ _ => trivial) hE hP
  haveI : IsProbabilityMeasure (condOn P E) := by
    constructor
    have := condOn_apply (P := P) hE' MeasurableSet.univ
    rw [Set.preimage_univ] at this
    rw [this]
    exact (cond_isProbabilityMeasure hP).measure_univ
  have hEB : MixingBundle (Desc k) (condOn P E) (fun a => (after sig k a).comap Subtype.val) (fun ω : E => env ω) (c.withProd n) data m q lnf :=
    ⟨goodCfg_withProd hB.good n, hB.step, hB.meas, hB.gradMeas, hB.ignores, hB.finite, hB.prob, hB.lnfMeas, idealFlow_cond h k (fun _ _ => trivial) hE hP m q lnf hB.flow⟩
  obtain ⟨b, h1, h2⟩ := production_means k hI (c.withProd n) data m q lnf hEB μ f hf C' _ hC' η hη N (forgets_withProd hN n) hn0 δ hδ (fun _ => key) (fun ω : E => xs ω) (fun ω => hx ω)
    (fun ω : E => w ω) (fun ω : E => w' ω)
    (fun ω => htrain ω ω.2) (fun ω => hkey ω ω.2) (fun ω => hflow ω ω.2) (fun i hi => by
      obtain ⟨X, h1, h2, h3⟩ := hstart i hi
      exact ⟨fun ω : E => X ω, fun ω => h1 ω ω.2, h2.comp (comap_measurable _), by rw [condOn_map hE' (h2.mono (before_le h k) le_rfl), h3]⟩) (fun ω => hprod ω ω.2)
  classical
  refine ⟨fun ω => if hω : ω ∈ E then b ⟨ω, hω⟩ else Buffer.new "" [], fun ω hω => by simp only [dif_pos hω]; exact h1 ⟨ω, hω⟩, ?_⟩
  refine le_trans (le_of_eq ?_) (h2.trans hbd)
  rw [measureReal_def, measureReal_def]
  congr 1
  rw [condOn, MeasurableEmbedding.comap_apply (MeasurableEmbedding.subtype_coe hE'), cond_apply hE', cond_apply hE']
  congr 2
  ext ω
  simp only [Set.mem_inter_iff, Set.mem_setOf_eq, Set.mem_image, Subtype.exists, exists_and_right, exists_eq_right]
  constructor
  · rintro ⟨hω, i, hi, hd⟩
    rw [dif_pos hω] at hd
    exact ⟨hω, hω, i, hi, hd⟩
  · rintro ⟨hω, _, i, hi, hd⟩
    refine ⟨hω, i, hi, ?_⟩
    rw [dif_pos hω]; exact hd

/-- **C72 (whole `sample` call).** `Sampler(rqs_mala_bundle).sample(initial_position, data)` in an ideal random world never raises; and for every flow `m`, start laws `μ i`, bounded measurable `f` and
`δ, ε > 0` there is an `L` such that with `n ≥ L` production loops: given any event `E` of positive probability, decided before production, on which the frozen flow is `m` and given which chain `i` starts
production with distribution `μ i`, the probability that some chain's production average of `f` is more than `δ` away from the target mean is at most `ε`. -/
theorem C72_sample (h : IdealDraws past sig P env) (c : BundleCfg ℝ D d M O) (hn : 0 < c.nChains) (hb : 0 < c.batchSize)
    (hfin : ∀ x : ℝ, BufNum.isFinite x = true) (data : Data D) (m : M) (q : Measure (Pos ℝ d)) (lnf : Pos ℝ d → ℝ) (hB : MixingBundle (fun _ => True) P sig env c data m q lnf)
    (μ : ℕ → Measure (Pos ℝ d)) (hμ : ∀ i, IsProbabilityMeasure (μ i)) (f : Pos ℝ d → ℝ) (hf : Measurable f) (C : ℝ) (hC : ∀ x, |f x| ≤ C) (δ ε : ℝ) (hδ : 0 < δ) (hε : 0 < ε) :
    ∃ L, ∀ (n : ℕ), L ≤ n → ∀ (nd nc : ℕ) (key : Key) (kw : List (String × V)) (s : Sampler ℝ D d M O V), Sampler.new nd nc key none none none (some (malaBundle (c.withProd n))) kw = .ok s →
      ∀ init : Ω → InitPos ℝ d, (∀ ω, (init ω).atleast2d.length = c.nChains) →
      ∃ (w : Ω → World ℝ D d M O) (s' : Ω → Sampler ℝ D d M O V), (∀ ω, s.sample (env ω) (init ω) data = (.ok (), s' ω)) ∧
      (∀ ω, Completes (env ω) (malaBundle (c.withProd n)).strategies.lookup data (repeatPhase c.nTrainLoops trainingPhase ++ ["reset_steppers", "update_state"])
        ⟨key, (init ω).atleast2d, ⟨(malaBundle (c.withProd n)).resources, fun _ => 0⟩⟩ (w ω)) ∧
      ∀ E : Set Ω, MeasurableSet[before past sig (trainedKey c.nTrainLoops c.nEpochs key)] E → P E ≠ 0 →
        (∀ ω ∈ E, (w ω).heap.res "global_sampler" = some (.kernel (.nf m c.nfBatch))) →
        (∀ i < c.nChains, ∃ X : Ω → Pos ℝ d, (∀ ω ∈ E, (w ω).xs[i]? = some (X ω)) ∧
          Measurable[before past sig (trainedKey c.nTrainLoops c.nEpochs key)] X ∧ (P[|E]).map X = μ i) →
        ∃ b : Ω → Buffer ℝ, (∀ ω ∈ E, (s' ω).heap.res "positions_production" = some (.buffer (b ω))) ∧
          (P[|E]).real {ω | ∃ i < c.nChains, δ < |chainMean f (b ω) i (c.withProd n).nProdSteps - ∫ x, f x ∂(normalised (targetMeasure fun x => c.logpdf.val x data))|} ≤ ε := by
  obtain ⟨L, hL⟩ := C72_given_training h c data m q lnf hB μ hμ f hf C hC δ ε hδ hε
  refine ⟨L, fun n hnL nd nc key kw s hs init hx => ?_⟩
  simp only [Sampler.new, Except.ok.injEq] at hs
  subst hs
  have hl : ∀ ω, (env ω).ops.Lawful := hB.flow.lawful
  have hG : ∀ ω, StaysIn (env ω) (c.withProd n) data (fun _ => True) := fun ω => ⟨fun _ _ _ _ _ => trivial, fun _ _ _ _ _ _ _ _ => trivial, fun x _ i => hfin _⟩
  choose w w' h1 h2 using fun ω => bundle_total (env ω) (hl ω) (c.withProd n) (goodCfg_withProd hB.good n) data hn hb _ (hG ω) key (init ω).atleast2d (hx ω) (fun _ _ => trivial)
  have h3 : ∀ ω, Completes (env ω) (bundleStrategies (c.withProd n)).lookup data (bundleOrder (c.withProd n)) ⟨key, (init ω).atleast2d, ⟨bundleResources (c.withProd n), fun _ => 0⟩⟩ (w' ω) := fun ω => by
    rw [bundleOrder, completes_append]; exact ⟨w ω, h1 ω, h2 ω⟩
  have h4 := fun ω => completes_sample (h3 ω)
  have hsample : ∀ ω, Sampler.sample (V := V) (env ω) ⟨nd, nc, key, ⟨bundleResources (c.withProd n), fun _ => 0⟩, (bundleStrategies (c.withProd n)).lookup, some (bundleOrder (c.withProd n)),
      setAttrs kw (fun _ => none)⟩ (init ω) data =
      (.ok (), ⟨nd, nc, key, (w' ω).heap, (bundleStrategies (c.withProd n)).lookup, some (bundleOrder (c.withProd n)), setAttrs kw (fun _ => none)⟩) := by
    intro ω
    simp only [Sampler.sample]
    rw [h4 ω]
  refine ⟨w, _, hsample, h1, ?_⟩
  intro E hEm hP hflow hstart
  exact hL n hnL key (fun ω => (init ω).atleast2d) w w' (trainedKey c.nTrainLoops c.nEpochs key) E hx hEm hP (fun ω _ => h1 ω)
    (fun ω _ => switch_key (env ω) (c.withProd n) data _ _ _ (h1 ω)) hflow hstart (fun ω _ => h2 ω)

end FlowMC
