import Verif.Lemmas.Paths
import Verif.Props.ChainAverages
/-
C118: a chain in equilibrium is stationary and can be read backwards.
-/
open MeasureTheory ProbabilityTheory
open scoped ENNReal
set_option linter.unusedSectionVars false
namespace FlowMC
open Spec

/-- A trajectory of a sweep. -/
theorem sweep_weight {A B C : Type} [MeasurableSpace A] [MeasurableSpace B] [MeasurableSpace C] (step : B × C → A → A) (hm : Measurable (fun p : A × (B × C) => step p.2 p.1))
    (q : Measure B) [IsProbabilityMeasure q] (ν : Measure C) [IsProbabilityMeasure ν] (n : ℕ) (f : ℕ → A → ℝ≥0∞) (hf : ∀ j, Measurable (f j)) (x : A) :
    ∫⁻ p, ∏ j ∈ Finset.range (n + 1), f j (sweepAt step j n x p.1 p.2) ∂((Measure.pi fun _ : Fin n => q).prod (Measure.pi fun _ : Fin n => ν)) = pathWeight (q.prod ν) step n f x := by
  induction n generalizing f x with
  | zero => simp [pathWeight, sweepAt]
  | succ n ih =>
    set ρ := (Measure.pi fun _ : Fin (n + 1) => q).prod (Measure.pi fun _ : Fin (n + 1) => ν) with hρ
    set ρ' := (Measure.pi fun _ : Fin n => q).prod (Measure.pi fun _ : Fin n => ν) with hρ'
    set G : A × ((Fin n → B) × (Fin n → C)) → ℝ≥0∞ := fun p => ∏ j ∈ Finset.range (n + 1), f (j + 1) (sweepAt step j n p.1 p.2.1 p.2.2) with hG
    have hGm : Measurable G := Finset.measurable_fun_prod _ fun j _ => (hf _).comp (sweepAt_measurable step hm j n)
    have h1 : Measurable (fun p : A × ((Fin (n + 1) → B) × (Fin (n + 1) → C)) => step (p.2.1 0, p.2.2 0) p.1) :=
      hm.comp (by fun_prop : Measurable fun p : A × ((Fin (n + 1) → B) × (Fin (n + 1) → C)) => (p.1, (p.2.1 0, p.2.2 0)))
    have h2 : Measurable (fun p : A × ((Fin (n + 1) → B) × (Fin (n + 1) → C)) => (step (p.2.1 0, p.2.2 0) p.1, ((fun i : Fin n => p.2.1 i.succ), (fun i : Fin n => p.2.2 i.succ)))) :=
      h1.prodMk (by fun_prop)
    have hx : Measurable (Prod.mk x : ((Fin (n + 1) → B) × (Fin (n + 1) → C)) → A × ((Fin (n + 1) → B) × (Fin (n + 1) → C))) := measurable_prodMk_left
    have e := congrArg (fun κ => ∫⁻ p, G p ∂κ) (sweep_head step hm (Measure.dirac x) q ν n)
    beta_reduce at e
    have hGh : Measurable fun p : A × ((Fin (n + 1) → B) × (Fin (n + 1) → C)) => G (step (p.2.1 0, p.2.2 0) p.1, ((fun i : Fin n => p.2.1 i.succ), (fun i : Fin n => p.2.2 i.succ))) := hGm.comp h2
    rw [lintegral_map hGm h2, Measure.dirac_prod, lintegral_map hGh hx, lintegral_prod _ hGm.aemeasurable] at e
    have hpw := pathWeight_measurable (ν := q.prod ν) hm n (fun j => f (j + 1)) fun j => hf (j + 1)
    have e1 : ∫⁻ y, ∫⁻ p, G (y, p) ∂ρ' ∂(stepLaw (q.prod ν) step (Measure.dirac x)) = ∫⁻ w, pathWeight (q.prod ν) step n (fun j => f (j + 1)) (step w x) ∂(q.prod ν) := by
      have : ∀ y, ∫⁻ p, G (y, p) ∂ρ' = pathWeight (q.prod ν) step n (fun j => f (j + 1)) y := fun y => ih (fun j => f (j + 1)) (fun j => hf _) y
      simp only [this]
      rw [stepLaw, Measure.dirac_prod, Measure.map_map hm measurable_prodMk_left, lintegral_map hpw (hm.comp measurable_prodMk_left)]
      rfl
    rw [e1] at e
    rw [pathWeight, ← e]
    have hGx : Measurable fun p : (Fin (n + 1) → B) × (Fin (n + 1) → C) => G (step (p.1 0, p.2 0) x, ((fun i : Fin n => p.1 i.succ), (fun i : Fin n => p.2 i.succ))) := hGm.comp (h2.comp hx)
    rw [← lintegral_const_mul _ hGx]
    refine lintegral_congr fun p => ?_
    rw [Finset.prod_range_succ', mul_comm]
    rfl

variable {Ω D M O : Type} {d : ℕ}
variable {T : Key → Prop} {past : MeasurableSpace Ω} {sig : Key → MeasurableSpace Ω} [mΩ : MeasurableSpace Ω] {P : Measure Ω} [IsProbabilityMeasure P] {env : Ω → Env ℝ D d M O} [BufNum ℝ]

omit [BufNum ℝ] in
/-- A trajectory of local steps. -/
theorem serial_weight (h : IdealOn T past sig P env) (kr : KernelRes ℝ d M) (K : Ω → LocalKernel ℝ D d)
    (hK : ∀ ω, kr.local? (env ω).rng = some (K ω)) (t : Target ℝ D d) (data : Data D) (ht : Measurable (fun x => t.val x data))
    (hg : Measurable (fun x => t.grad x data)) (n : ℕ) (f : ℕ → Pos ℝ d → ℝ≥0∞) (hf : ∀ j, Measurable (f j)) (k : Key) (hT : ∀ a, Desc k a → T a) (S : Set (Option Key))
    (hS : Disjoint S (descSet k)) (X : Ω → Pos ℝ d) (hX : Measurable[info past sig S] X) (W : Ω → ℝ≥0∞) (hW : Measurable[info past sig S] W) :
    ∫⁻ ω, W ω * ∏ j ∈ Finset.range (n + 1), f j (iterState (localBody (K ω) t data) j (k, X ω, t.val (X ω) data)).2.1 ∂P =
      ∫⁻ ω, W ω * pathWeight (noise d) (localStep kr t data) n f (X ω) ∂P := by
  have hsm := localStep_measurable kr t data ht hg
  haveI : IsProbabilityMeasure (noise d) := by unfold noise; infer_instance
  induction n generalizing f k S X W with
  | zero => simp [pathWeight, iterState]
  | succ n ih =>
    obtain ⟨nm, nl⟩ := noise_law h (.child k 1) (fun a ha => hT a (desc_trans (.child 1 .refl) ha))
    have hd : Disjoint S (descSet (.child k 1)) := hS.mono_right descSet_child
    have hbody : ∀ ω, (localBody (K ω) t data (k, X ω, t.val (X ω) data)).1 =
        (.child k 0, localStep kr t data ((env ω).rng.normal (.child (.child k 1) 0) d, (env ω).rng.uniform (.child (.child k 1) 1)) (X ω),
          t.val (localStep kr t data ((env ω).rng.normal (.child (.child k 1) 0) d, (env ω).rng.uniform (.child (.child k 1) 1)) (X ω)) data) := by
      intro ω
      have := local_kernel_eq kr t data (env ω).rng (K ω) (hK ω) (.child k 1) (X ω)
      simp only [localBody, split, this.1, this.2]
    have hX' : Measurable[info past sig (S ∪ descSet (.child k 1))] (fun ω => localStep kr t data ((env ω).rng.normal (.child (.child k 1) 0) d, (env ω).rng.uniform (.child (.child k 1) 1)) (X ω)) :=
      hsm.comp ((hX.mono (info_mono Set.subset_union_left) le_rfl).prodMk (nm.mono (info_mono Set.subset_union_right) le_rfl))
    have hW0 : Measurable[info past sig S] (fun ω => W ω * f 0 (X ω)) := hW.mul ((hf 0).comp hX)
    have := ih (fun j => f (j + 1)) (fun j => hf _) (.child k 0) (fun a ha => hT a (desc_trans (.child 0 .refl) ha)) (S ∪ descSet (.child k 1))
      (Set.disjoint_union_left.2 ⟨hS.mono_right descSet_child, descSet_disjoint (by decide)⟩) _ hX' (fun ω => W ω * f 0 (X ω)) (hW0.mono (info_mono Set.subset_union_left) le_rfl)
    have e1 : ∀ ω, W ω * ∏ j ∈ Finset.range (n + 1 + 1), f j (iterState (localBody (K ω) t data) j (k, X ω, t.val (X ω) data)).2.1 =
        W ω * f 0 (X ω) * ∏ j ∈ Finset.range (n + 1), f (j + 1) (iterState (localBody (K ω) t data) j (.child k 0,
          localStep kr t data ((env ω).rng.normal (.child (.child k 1) 0) d, (env ω).rng.uniform (.child (.child k 1) 1)) (X ω),
          t.val (localStep kr t data ((env ω).rng.normal (.child (.child k 1) 0) d, (env ω).rng.uniform (.child (.child k 1) 1)) (X ω)) data)).2.1 := by
      intro ω
      rw [Finset.prod_range_succ']
      simp only [iterState, hbody]
      ring
    simp only [e1]
    rw [this]
    -- the fresh noise is independent of the weight and of the position
    have hpw := pathWeight_measurable (ν := noise d) hsm n (fun j => f (j + 1)) fun j => hf (j + 1)
    have hj := h.joint hd (hW0.prodMk hX) nm
    rw [nl] at hj
    set G : (ℝ≥0∞ × Pos ℝ d) × ((Fin d → ℝ) × ℝ) → ℝ≥0∞ := fun p => p.1.1 * pathWeight (noise d) (localStep kr t data) n (fun j => f (j + 1)) (localStep kr t data p.2 p.1.2) with hG
    have hGm : Measurable G := (measurable_fst.comp measurable_fst).mul (hpw.comp (hsm.comp ((measurable_snd.comp measurable_fst).prodMk measurable_snd)))
    have hall := ((hW0.prodMk hX).mono (h.info_le _) le_rfl).prodMk (nm.mono (h.info_le _) le_rfl)
    have e2 := congrArg (fun κ => ∫⁻ p, G p ∂κ) hj
    beta_reduce at e2
    haveI : SFinite (P.map fun ω => (W ω * f 0 (X ω), X ω)) := by infer_instance
    rw [lintegral_map hGm hall, lintegral_prod _ hGm.aemeasurable, lintegral_map hGm.lintegral_prod_right' ((hW0.prodMk hX).mono (h.info_le _) le_rfl)] at e2
    refine e2.trans (lintegral_congr fun ω => ?_)
    simp only [hG, pathWeight]
    have hx : Measurable fun y : (Fin d → ℝ) × ℝ => pathWeight (noise d) (localStep kr t data) n (fun j => f (j + 1)) (localStep kr t data y (X ω)) :=
      hpw.comp (hsm.comp (measurable_prodMk_left (x := X ω)))
    rw [lintegral_const_mul _ hx, mul_assoc]

/-- The rows that a call of the stepper `s` computes for one chain are a trajectory of the chain with the step `step` driven by noise with distribution `ν`, independent of what
happened before. -/
def StepperPaths (T : Key → Prop) (past : MeasurableSpace Ω) (sig : Key → MeasurableSpace Ω) [mΩ : MeasurableSpace Ω] (P : Measure Ω) (env : Ω → Env ℝ D d M O)
    (r0 : String → Option (Resource ℝ D d M O)) (data : Data D) (s : TakeSteps) (ν : Measure (Pos ℝ d × ℝ)) (step : Pos ℝ d × ℝ → Pos ℝ d → Pos ℝ d) : Prop :=
  ∃ kr lr, r0 s.kernelName = some kr ∧ IsSamplerResource kr ∧ r0 s.logpdfName = some lr ∧ IsSamplerResource lr ∧
    (∀ ω f a x r, s.sampler (env ω) kr lr data = .ok f → f a x = .ok r → r.length = s.nSteps) ∧
    ∀ (a : Key), (∀ b, Desc a b → T b) → ∀ (S : Set (Option Key)), Disjoint S (descSet a) → ∀ (X : Ω → Pos ℝ d), Measurable[info past sig S] X →
      ∀ (r : Ω → List (StepOut ℝ d)), (∀ ω, ∃ f, s.sampler (env ω) kr lr data = .ok f ∧ f a (X ω) = .ok (r ω)) →
        ∃ Z : ℕ → Ω → Pos ℝ d, (∀ j ≤ s.nSteps, Measurable[info past sig (S ∪ descSet a)] (Z j)) ∧ (∀ ω, Z 0 ω = X ω) ∧
          (∀ W : Ω → ℝ≥0∞, Measurable[info past sig S] W → ∀ f : ℕ → Pos ℝ d → ℝ≥0∞, (∀ j, Measurable (f j)) →
            ∫⁻ ω, W ω * ∏ j ∈ Finset.range (s.nSteps + 1), f j (Z j ω) ∂P = ∫⁻ ω, W ω * pathWeight ν step s.nSteps f (X ω) ∂P) ∧
          ∀ j < s.nSteps, ∀ ω, ((r ω)[j]?).map (·.pos) = some (Z (j + 1) ω)

omit [BufNum ℝ] in
theorem serial_stepperPaths (h : IdealOn T past sig P env) (r0 : String → Option (Resource ℝ D d M O)) (data : Data D) (s : TakeSteps) (hk : s.kind = .serial) (kr : KernelRes ℝ d M)
    (hx : ExactSettings kr) (hkr : r0 s.kernelName = some (.kernel kr)) (lr : Resource ℝ D d M O) (hlr : r0 s.logpdfName = some lr) (t : Target ℝ D d) (ht : lr.target? = some t)
    (hm : Measurable (fun x => t.val x data)) (hg : Measurable (fun x => t.grad x data)) :
    StepperPaths T past sig P env r0 data s (noise d) (localStep kr t data) := by
  have hK : ∃ K : Ω → LocalKernel ℝ D d, ∀ ω, kr.local? (env ω).rng = some (K ω) := by
    cases kr with
    | nf _ _ => exact hx.elim
    | grw s => exact ⟨_, fun _ => rfl⟩
    | mala s => exact ⟨_, fun _ => rfl⟩
    | hmc _ _ _ _ => exact ⟨_, fun _ => rfl⟩
  obtain ⟨K, hK⟩ := hK
  have hrow : ∀ ω f a x r, s.sampler (env ω) (.kernel kr) lr data = .ok f → f a x = .ok r → r = serialSample (K ω) t data s.nSteps a x := by
    intro ω f a x r hf hr
    unfold TakeSteps.sampler at hf
    have hl := hK ω
    rw [ht] at hf
    simp only [hk] at hf
    cases kr with
    | nf _ _ => exact hx.elim
    | _ =>
      simp only [hl, Except.ok.injEq] at hf
      subst hf
      simpa using hr.symm
  refine ⟨_, lr, hkr, trivial, hlr, isSampler_of_target ht, fun ω f a x r hf hr => by rw [hrow ω f a x r hf hr, serialSample_length], ?_⟩
  intro a hT S hS X hX r hr
  have hXm := hX.mono (h.info_le S) le_rfl
  have : IsProbabilityMeasure (noise d) := by unfold noise; infer_instance
  have hsm := localStep_measurable kr t data hm hg
  refine ⟨fun j ω => (iterState (localBody (K ω) t data) j (a, X ω, t.val (X ω) data)).2.1, fun j _ => (serial_iter h kr K hK t data hm hg _ j a hT S hS X hX rfl).2, fun _ => rfl, fun W hW f hf => ?_,
    fun j hj ω => ?_⟩
  · exact serial_weight h kr K hK t data hm hg s.nSteps f hf a hT S hS X hX W hW
  · obtain ⟨f, hf, hr⟩ := hr ω
    rw [hrow ω f _ _ _ hf hr]
    exact serialSample_state (K ω) t data s.nSteps a (X ω) (j + 1) hj

omit [BufNum ℝ] in
theorem group_stepperPaths (h : IdealOn T past sig P env) (r0 : String → Option (Resource ℝ D d M O)) (data : Data D) (s : TakeSteps) (hk : s.kind = .group) (m : M) (b : ℕ) (hb : 0 < b)
    (hkr : r0 s.kernelName = some (.kernel (.nf m b))) (lr : Resource ℝ D d M O) (hlr : r0 s.logpdfName = some lr) (t : Target ℝ D d) (ht : lr.target? = some t) (hn : IgnoresNSteps t)
    (hm : Measurable (fun x => t.val x data)) (q : Measure (Pos ℝ d)) [IsProbabilityMeasure q] (lnf : Pos ℝ d → ℝ) (hlnf : Measurable lnf) (hf : IdealFlowOn T P sig env m q lnf) :
    StepperPaths T past sig P env r0 data s (q.prod unif) (flowStep t data lnf) := by
  have hrow : ∀ ω f a x r, s.sampler (env ω) (.kernel (.nf m b)) lr data = .ok f → f a x = .ok r → groupSample (env ω) m b t data s.nSteps a x = .ok r := by
    intro ω f a x r hf hr
    unfold TakeSteps.sampler at hf
    rw [ht] at hf
    simp only [hk, Except.ok.injEq] at hf
    subst hf
    exact hr
  have hgs := fun ω a x => group_sweep (env ω) (hf.lawful ω) m b hb t hn data s.nSteps a x
  have hsm := flowStep_measurable t data lnf hm hlnf
  refine ⟨_, lr, hkr, trivial, hlr, isSampler_of_target ht, fun ω f a x r hf hr => ?_, ?_⟩
  · obtain ⟨r', e, hl, -⟩ := hgs ω a x
    rw [hrow ω f a x r hf hr, Except.ok.injEq] at e
    rw [e, hl]
  intro a hT S hS X hX r hr
  haveI : IsProbabilityMeasure (P.map X) := Measure.isProbabilityMeasure_map (hX.mono (h.info_le _) le_rfl).aemeasurable
  have hit := fun j hj => sweep_iter h m q lnf hf b hb _ hsm (P.map X) s.nSteps a hT S hS X hX rfl j hj
  refine ⟨fun j ω => sweepAt (flowStep t data lnf) j s.nSteps (X ω) (fun i : Fin s.nSteps => flowProposal (env ω).ops m b (.child a 1) s.nSteps i)
        (fun i : Fin s.nSteps => (env ω).rng.uniform (stepKey (.child a 0) i)), fun j hj => (hit j hj).2, fun _ => rfl, fun W hW f hfm => ?_, fun j hj ω => ?_⟩
  · obtain ⟨vm, vl⟩ := proposals_law h m q lnf hf b hb (.child a 1) (fun c hc => hT c (desc_trans (.child 1 .refl) hc)) s.nSteps
    obtain ⟨um, ul⟩ := uniforms_law h (.child a 0) (fun c hc => hT c (desc_trans (.child 0 .refl) hc)) s.nSteps
    have vu := h.joint (descSet_disjoint (by decide)) vm um
    have vum : Measurable[info past sig (descSet a)] (fun ω => ((fun i : Fin s.nSteps => flowProposal (env ω).ops m b (.child a 1) s.nSteps i),
        (fun i : Fin s.nSteps => (env ω).rng.uniform (stepKey (.child a 0) i)))) :=
      (vm.mono (info_mono descSet_child) le_rfl).prodMk (um.mono (info_mono descSet_child) le_rfl)
    have hjt := h.joint hS (hW.prodMk hX) vum
    rw [vu, vl, ul] at hjt
    have hWX := (hW.prodMk hX).mono (h.info_le _) le_rfl
    have hall := hWX.prodMk (vum.mono (h.info_le _) le_rfl)
    have hpm : Measurable fun p : (ℝ≥0∞ × Pos ℝ d) × ((Fin s.nSteps → Pos ℝ d) × (Fin s.nSteps → ℝ)) => (p.1.2, p.2) := by fun_prop
    have hGm : Measurable fun p : (ℝ≥0∞ × Pos ℝ d) × ((Fin s.nSteps → Pos ℝ d) × (Fin s.nSteps → ℝ)) =>
        p.1.1 * ∏ j ∈ Finset.range (s.nSteps + 1), f j (sweepAt (flowStep t data lnf) j s.nSteps p.1.2 p.2.1 p.2.2) :=
      (measurable_fst.comp measurable_fst).mul (Finset.measurable_fun_prod _ fun j _ => ((hfm j).comp (sweepAt_measurable _ hsm j _)).comp hpm)
    have e := congrArg (fun κ => ∫⁻ p, p.1.1 * ∏ j ∈ Finset.range (s.nSteps + 1), f j (sweepAt (flowStep t data lnf) j s.nSteps p.1.2 p.2.1 p.2.2) ∂κ) hjt
    beta_reduce at e
    rw [lintegral_map hGm hall, lintegral_prod _ hGm.aemeasurable, lintegral_map hGm.lintegral_prod_right' hWX] at e
    refine e.trans (lintegral_congr fun ω => ?_)
    beta_reduce
    have hGx : Measurable fun p : (Fin s.nSteps → Pos ℝ d) × (Fin s.nSteps → ℝ) => ∏ j ∈ Finset.range (s.nSteps + 1), f j (sweepAt (flowStep t data lnf) j s.nSteps (X ω) p.1 p.2) :=
      Finset.measurable_fun_prod _ fun j _ => ((hfm j).comp (sweepAt_measurable _ hsm j _)).comp (measurable_prodMk_left (x := X ω))
    rw [lintegral_const_mul _ hGx]
    exact congrArg (W ω * ·) (sweep_weight _ hsm q unif s.nSteps f hfm (X ω))
  · obtain ⟨r', e, -, hr'⟩ := hgs ω a (X ω)
    obtain ⟨f, hf', hr⟩ := hr ω
    rw [hrow ω f _ _ _ hf' hr, Except.ok.injEq] at e
    rw [e, hr' j hj, hf.logProb ω]

/-- All rows a stepper records of a known chain in one call, as one trajectory. -/
theorem stepper_path_rows {k0 : Key} (h : IdealOn (Desc k0) past sig P env) {r0 : String → Option (Resource ℝ D d M O)} {i : ℕ} {k : Key} {S : Set (Option Key)} {μ : Measure (Pos ℝ d)} {w : Ω → World ℝ D d M O} {data : Data D}
    (hc : ChainKnown past sig P r0 i k0 k S μ w) (s : TakeSteps) {ν : Measure (Pos ℝ d × ℝ)} [IsProbabilityMeasure ν]
    {step : Pos ℝ d × ℝ → Pos ℝ d → Pos ℝ d} (hsm : Measurable (fun p : Pos ℝ d × (Pos ℝ d × ℝ) => step p.2 p.1)) (hs : StepperPaths (Desc k0) past sig P env r0 data s ν step)
    (w1 : Ω → World ℝ D d M O) (hr : ∀ ω, s.run (env ω) (w ω).key (w ω).xs data (w ω).heap = (.ok ((w1 ω).key, (w1 ω).xs), (w1 ω).heap))
    (n cap cur : ℕ) (hn : 0 < s.nSteps) (hw : ∀ ω, (w ω).xs.length = n) (Pn L A : String) (bP bL bA : Ω → Buffer ℝ) (hpt : ∀ ω, PointsAt (w ω).heap s Pn L A)
    (hrec : ∀ ω, Recorders (w ω).heap n cap Pn L A (bP ω) (bL ω) (bA ω)) (hcur : ∀ ω, (w ω).heap.pos s.ident = cur) (hfit : cur + ceilDiv' s.nSteps s.thinning ≤ cap) :
    0 < s.thinning ∧ ∃ Z : ℕ → Ω → Pos ℝ d, IsPath P ν step μ s.nSteps Z ∧
      ∀ ω, ∃ b, (w1 ω).heap.res Pn = some (.buffer b) ∧ ∀ j < ceilDiv' s.nSteps s.thinning, ∀ a : Fin d, b.data.get [i, cur + j, a] = Z (j * s.thinning + 1) ω a := by
  obtain ⟨kr, lr, hkr, hkr', hlr, hlr', hlen', hs⟩ := hs
  obtain ⟨X, hX, hXm, hXl⟩ := hc.law
  have hok := fun ω => takeSteps_rows (env ω) s _ _ _ _ data _ _ (hr ω)
  have hd : Desc k0 (.child (.child k 1) i) := desc_trans hc.desc (.child i (.child 1 .refl))
  obtain ⟨ω0⟩ : Nonempty Ω := P.nonempty_of_neZero
  have ht := (hok ω0).1
  refine ⟨ht, ?_⟩
  have hrow : ∀ ω, ∃ r, (∃ f, s.sampler (env ω) kr lr data = .ok f ∧ f (.child (.child k 1) i) (X ω) = .ok r) ∧
      ∃ b, (w1 ω).heap.res Pn = some (.buffer b) ∧ ∀ j < ceilDiv' s.nSteps s.thinning, ∀ v, (r[j * s.thinning]?).map (·.pos) = some v → ∀ a : Fin d, b.data.get [i, cur + j, a] = v a := by
    intro ω
    obtain ⟨-, kr', lr', f, rows, h1, h2, h3, h4⟩ := hok ω
    rw [hc.keeps ω _ _ hkr hkr', Option.some.injEq] at h1
    rw [hc.keeps ω _ _ hlr hlr', Option.some.injEq] at h2
    subst h1; subst h2
    have hlens : ∀ r ∈ rows, r.length = s.nSteps := by
      intro r hr
      obtain ⟨⟨a, hl⟩, rfl⟩ := List.mem_iff_get.1 hr
      exact hlen' ω f _ _ _ h3 ((List.forall₂_iff_get.1 h4).2 a (h4.length_eq ▸ hl) hl)
    obtain ⟨ys, h', e, he, -, -⟩ := C19_success (env ω) s (w ω).key (w ω).xs data (w ω).heap cap Pn L A (bP ω) (bL ω) (bA ω) (hpt ω) (by rw [hw]; exact hrec ω)
      (by rw [hcur]; exact hfit) kr lr (hc.keeps ω _ _ hkr hkr') (hc.keeps ω _ _ hlr hlr') f h3 rows h4 hlens ht hn
    rw [hr ω, Prod.mk.injEq] at e
    obtain ⟨b, hb, hcell⟩ := he.pos
    rw [← e.2] at hb
    have hz : ((splitN (.child (w ω).key 1) (w ω).xs.length).zip (w ω).xs)[i]? = some (.child (.child k 1) i, X ω) := by
      rw [zip_splitN_getElem?, show (w ω).xs[i]? = some (X ω) from hX ω, hc.key]; rfl
    have hi := (List.getElem?_eq_some_iff.1 hz).1
    have hi' : i < rows.length := h4.length_eq ▸ hi
    have e1 := (List.forall₂_iff_get.1 h4).2 i hi hi'
    have e0 : ((splitN (.child (w ω).key 1) (w ω).xs.length).zip (w ω).xs).get ⟨i, hi⟩ = (.child (.child k 1) i, X ω) := (List.getElem?_eq_some_iff.1 hz).2
    rw [e0] at e1
    refine ⟨rows[i], ⟨f, h3, e1⟩, b, hb, fun j hj v hv a => ?_⟩
    have := hcell.inside i j v (List.getElem?_eq_some_iff.1 (hX ω)).1 hj (by
      beta_reduce
      rw [cell_everyNth _ ht, cellOf, List.getElem?_eq_getElem hi', Option.bind_some]; exact hv) a
    rwa [hcur] at this
  choose r hf b hb hcell using hrow
  obtain ⟨Z, hZm, -, hZ, hrows⟩ := hs _ (fun b hb => desc_trans hd hb) S (hc.fresh.mono_right (descSet_mono (.child i (.child 1 .refl)))) X hXm r hf
  refine ⟨Z, ⟨fun j hj => (hZm j hj).mono (h.info_le _) le_rfl, fun f hf => ?_⟩, fun ω => ⟨b ω, hb ω, fun j hj => hcell ω j hj _ (hrows _ (lt_of_lt_ceil ht hn hj) ω)⟩⟩
  have := hZ (fun _ => 1) measurable_const f hf
  simp only [one_mul] at this
  rw [this, ← hXl, lintegral_map (pathWeight_measurable hsm _ f hf) (hXm.mono (h.info_le _) le_rfl)]

/-- The trajectories of an exact stepper, for any number of steps and thinning, and its detailed balance. -/
theorem exactStepper_paths {k : Key} (h : IdealOn (Desc k) past sig P env) {r0 : String → Option (Resource ℝ D d M O)} {data : Data D} {μ : Measure (Pos ℝ d)} [IsProbabilityMeasure μ] {s : TakeSteps}
    (hs : ExactStepper (Desc k) P sig env r0 data μ s) : ∃ (ν : Measure (Pos ℝ d × ℝ)) (_ : IsProbabilityMeasure ν) (step : Pos ℝ d × ℝ → Pos ℝ d → Pos ℝ d),
      Measurable (fun p : Pos ℝ d × (Pos ℝ d × ℝ) => step p.2 p.1) ∧ stepLaw ν step μ = μ ∧ Reversible μ ν step ∧
      ∀ n t : ℕ, StepperPaths (Desc k) past sig P env r0 data { s with nSteps := n, thinning := t } ν step := by
  obtain ⟨lr, t, hlr, ht, hm, hg, hμ, ⟨hk, kr, hkr, hx⟩ | ⟨hk, hn, m, b, q, lnf, hb, hkr, hq, hl, hf⟩⟩ := hs
  · obtain ⟨hfin, rfl⟩ := samplesFrom_normalised μ _ hm hμ
    have : IsProbabilityMeasure (noise d) := by unfold noise; infer_instance
    have : SFinite (targetMeasure fun x => t.val x data) := by unfold targetMeasure; infer_instance
    have hr := (localStep_reversible kr hx t data hm hg).smul (targetMeasure (fun x => t.val x data) Set.univ)⁻¹
    have hmeas := localStep_measurable kr t data hm hg
    exact ⟨noise d, inferInstance, _, hmeas, hr.invariant hmeas, hr, fun n t' => serial_stepperPaths h r0 data { s with nSteps := n, thinning := t' } hk kr hx hkr lr hlr t ht hm hg⟩
  · obtain ⟨hfin, rfl⟩ := samplesFrom_normalised μ _ hm hμ
    have hd := flow_mhData t data hm lnf hl q hf.density
    exact ⟨q.prod unif, inferInstance, _, hd.meas, hd.reversible.invariant hd.meas, hd.reversible, fun n t' => group_stepperPaths h r0 data { s with nSteps := n, thinning := t' } hk m b hb hkr lr hlr t ht hn hm q lnf hl hf⟩

section
variable (k : Key) (h : IdealOn (Desc k) past sig P env) (r0 : String → Option (Resource ℝ D d M O)) (data : Data D) (μ : Measure (Pos ℝ d)) [IsProbabilityMeasure μ]
    (strats : String → Option (Strategy ℝ D d M O)) (names : List String) (hs : ∀ name ∈ names, ∀ s, strats name = some s → ExactStrategy (Desc k) P sig env r0 data μ s)
    (w w' w'' : Ω → World ℝ D d M O) (hkey : ∀ ω, (w ω).key = k) (hres : ∀ ω, KeepsSamplers r0 (w ω).heap) (i : ℕ) (X : Ω → Pos ℝ d) (hX : ∀ ω, (w ω).xs[i]? = some (X ω))
    (hXm : Measurable[past] X) (hXl : P.map X = μ) (hr : ∀ ω, Completes (env ω) strats data names (w ω) (w' ω))
    (s : TakeSteps) (hstep : ExactStepper (Desc k) P sig env r0 data μ s) (hn : 0 < s.nSteps)
    (hcall : ∀ ω, s.run (env ω) (w' ω).key (w' ω).xs data (w' ω).heap = (.ok ((w'' ω).key, (w'' ω).xs), (w'' ω).heap)) (n cap cur : ℕ) (hw : ∀ ω, (w' ω).xs.length = n)
    (Pn L A : String) (bP bL bA : Ω → Buffer ℝ) (hpt : ∀ ω, PointsAt (w' ω).heap s Pn L A) (hrec : ∀ ω, Recorders (w' ω).heap n cap Pn L A (bP ω) (bL ω) (bA ω))
    (hcur : ∀ ω, (w' ω).heap.pos s.ident = cur) (hfit : cur + ceilDiv' s.nSteps s.thinning ≤ cap)
include h hs hkey hres hX hXm hXl hr hstep hn hcall hw hpt hrec hcur hfit

/-- **C118 (reading backwards).** An exact stepper for `μ` (random walk, MALA, HMC with a diagonal mass matrix, or flow proposals; any thinning) is called after any calls of exact strategies, from a start with
distribution `μ`.  The rows that the call records for chain `i`, read from the last to the first, have the same joint distribution as read from the first to the last. -/
theorem C118_backwards : ∃ b : Ω → Buffer ℝ, (∀ ω, (w'' ω).heap.res Pn = some (.buffer (b ω))) ∧
    Measurable (fun ω (j : Fin (ceilDiv' s.nSteps s.thinning)) (a : Fin d) => (b ω).data.get [i, cur + j, a]) ∧
    P.map (fun ω (j : Fin (ceilDiv' s.nSteps s.thinning)) (a : Fin d) => (b ω).data.get [i, cur + j.rev, a]) =
      P.map (fun ω (j : Fin (ceilDiv' s.nSteps s.thinning)) (a : Fin d) => (b ω).data.get [i, cur + j, a]) := by
  obtain ⟨k', S', hc⟩ := exact_chain k h r0 data μ strats names hs w w' hkey hres i X hX hXm hXl hr
  obtain ⟨ν, hν, step, hm, hinv, hrev, hrows⟩ := exactStepper_paths h hstep
  obtain ⟨ht, Z, hZ, hcell⟩ := stepper_path_rows h hc s hm (hrows s.nSteps s.thinning) w'' hcall n cap cur hn hw Pn L A bP bL bA hpt hrec hcur hfit
  choose b hb hcell using hcell
  have hlt : ∀ j < ceilDiv' s.nSteps s.thinning, j * s.thinning + 1 ≤ s.nSteps := fun j hj => lt_of_lt_ceil ht hn hj
  have e : ∀ ω (j : Fin (ceilDiv' s.nSteps s.thinning)), (fun a : Fin d => (b ω).data.get [i, cur + j, a]) = Z (j * s.thinning + 1) ω := fun ω j => funext fun a => hcell ω j j.2 a
  have E : (fun ω (j : Fin (ceilDiv' s.nSteps s.thinning)) (a : Fin d) => (b ω).data.get [i, cur + j, a]) = fun ω (j : Fin (ceilDiv' s.nSteps s.thinning)) => Z ((j : ℕ) * s.thinning + 1) ω := funext fun ω => funext fun j => e ω j
  have E' : (fun ω (j : Fin (ceilDiv' s.nSteps s.thinning)) (a : Fin d) => (b ω).data.get [i, cur + j.rev, a]) = fun ω j => Z (j.rev * s.thinning + 1) ω := funext fun ω => funext fun j => e ω j.rev
  refine ⟨b, hb, ?_, ?_⟩
  · rw [E]
    exact measurable_pi_lambda _ fun j => hZ.meas _ (hlt j j.2)
  · rw [E, E']
    exact (hZ.backwards hm hrev hinv s.thinning _ 1 hlt).symm

/-- **C118 (stationarity).** In the same situation the joint distribution of `l` successive recorded rows does not depend on where in the call they are: so the autocovariance at a given lag is the same all along. -/
theorem C118_stationary (p l : ℕ) (hp : p + l ≤ ceilDiv' s.nSteps s.thinning) : ∃ b : Ω → Buffer ℝ, (∀ ω, (w'' ω).heap.res Pn = some (.buffer (b ω))) ∧
    Measurable (fun ω (j : Fin l) (a : Fin d) => (b ω).data.get [i, cur + j, a]) ∧
    P.map (fun ω (j : Fin l) (a : Fin d) => (b ω).data.get [i, cur + (p + j), a]) = P.map (fun ω (j : Fin l) (a : Fin d) => (b ω).data.get [i, cur + j, a]) := by
  obtain ⟨k', S', hc⟩ := exact_chain k h r0 data μ strats names hs w w' hkey hres i X hX hXm hXl hr
  obtain ⟨ν, hν, step, hm, hinv, hrev, hrows⟩ := exactStepper_paths h hstep
  obtain ⟨ht, Z, hZ, hcell⟩ := stepper_path_rows h hc s hm (hrows s.nSteps s.thinning) w'' hcall n cap cur hn hw Pn L A bP bL bA hpt hrec hcur hfit
  choose b hb hcell using hcell
  have hlt : ∀ j < ceilDiv' s.nSteps s.thinning, j * s.thinning + 1 ≤ s.nSteps := fun j hj => lt_of_lt_ceil ht hn hj
  have e : ∀ ω (j : Fin l), (fun a : Fin d => (b ω).data.get [i, cur + j, a]) = Z (j * s.thinning + 1) ω := fun ω j => funext fun a => hcell ω j (by omega) a
  have e' : ∀ ω (j : Fin l), (fun a : Fin d => (b ω).data.get [i, cur + (p + j), a]) = Z (j * s.thinning + (p * s.thinning + 1)) ω := fun ω j => by
    rw [show (j : ℕ) * s.thinning + (p * s.thinning + 1) = (p + j) * s.thinning + 1 by ring]
    exact funext fun a => hcell ω (p + j) (by omega) a
  have E : (fun ω (j : Fin l) (a : Fin d) => (b ω).data.get [i, cur + j, a]) = fun ω (j : Fin l) => Z ((j : ℕ) * s.thinning + 1) ω := funext fun ω => funext fun j => e ω j
  have E' : (fun ω (j : Fin l) (a : Fin d) => (b ω).data.get [i, cur + (p + j), a]) = fun ω (j : Fin l) => Z ((j : ℕ) * s.thinning + (p * s.thinning + 1)) ω := funext fun ω => funext fun j => e' ω j
  refine ⟨b, hb, ?_, ?_⟩
  · rw [E]
    exact measurable_pi_lambda _ fun j => hZ.meas _ (hlt j (by omega))
  · rw [E, E']
    refine hZ.shift hm hinv s.thinning l _ 1 (fun j hj => ?_) fun j hj => hlt j (by omega)
    have := hlt (p + j) (by omega)
    rw [Nat.add_mul] at this
    omega

end

end FlowMC
