import Verif.Lemmas.ChainAverages
import Verif.Props.AnyOrder
/-
C99: averages over the rows of one long `TakeSteps` call converge to expectations under the target, from every start and after every history of calls.
-/
open MeasureTheory ProbabilityTheory Filter
open scoped ENNReal Topology
set_option linter.unusedSectionVars false
namespace FlowMC
open Spec

/-- Two states of one sweep. -/
theorem sweepAt_pair {A B C : Type} [MeasurableSpace A] [MeasurableSpace B] [MeasurableSpace C] (step : B × C → A → A) (hm : Measurable (fun p : A × (B × C) => step p.2 p.1)) (μ : Measure A) [SFinite μ]
    (q : Measure B) [IsProbabilityMeasure q] (ν : Measure C) [IsProbabilityMeasure ν] (i j n : ℕ) (hj : i + j ≤ n) :
    (μ.prod ((Measure.pi fun _ : Fin n => q).prod (Measure.pi fun _ : Fin n => ν))).map (fun p => (sweepAt step i n p.1 p.2.1 p.2.2, sweepAt step (i + j) n p.1 p.2.1 p.2.2)) =
      (stepLaw (q.prod ν) (onSnd step))^[j] (((stepLaw (q.prod ν) step)^[i] μ).map fun x => (x, x)) := by
  induction i generalizing n μ with
  | zero =>
    have hd : Measurable fun x : A => (x, x) := measurable_id.prodMk measurable_id
    have e : (fun p : A × ((Fin n → B) × (Fin n → C)) => (sweepAt step 0 n p.1 p.2.1 p.2.2, sweepAt step (0 + j) n p.1 p.2.1 p.2.2)) =
        (fun p : (A × A) × ((Fin n → B) × (Fin n → C)) => sweepAt (onSnd step) j n p.1 p.2.1 p.2.2) ∘ Prod.map (fun x : A => (x, x)) id := by
      funext p
      simp only [Function.comp, Prod.map, sweepAt_onSnd, Nat.zero_add, id]
      rfl
    rw [e, ← Measure.map_map (sweepAt_measurable _ (onSnd_measurable hm) j n) (hd.prodMap measurable_id)]
    have := Measure.map_prod_map μ ((Measure.pi fun _ : Fin n => q).prod (Measure.pi fun _ : Fin n => ν)) hd measurable_id
    rw [← this, Measure.map_id]
    exact sweepAt_iter _ (onSnd_measurable hm) _ q ν j n (by omega)
  | succ i ih =>
    cases n with
    | zero => omega
    | succ n =>
      have h1 : Measurable (fun p : A × ((Fin (n + 1) → B) × (Fin (n + 1) → C)) => step (p.2.1 0, p.2.2 0) p.1) :=
        hm.comp (by fun_prop : Measurable fun p : A × ((Fin (n + 1) → B) × (Fin (n + 1) → C)) => (p.1, (p.2.1 0, p.2.2 0)))
      haveI : SFinite (stepLaw (q.prod ν) step μ) := by unfold stepLaw; infer_instance
      have := ih (stepLaw (q.prod ν) step μ) n (by omega)
      rw [← sweep_head step hm μ q ν n, Measure.map_map ((sweepAt_measurable step hm i n).prodMk (sweepAt_measurable step hm (i + j) n)) (h1.prodMk (by fun_prop))] at this
      rw [Function.iterate_succ_apply, ← this]
      congr 1
      funext p
      rw [show i + 1 + j = (i + j) + 1 by ring]
      rfl

variable {Ω D M O : Type} {d : ℕ}
variable {T : Key → Prop} {past : MeasurableSpace Ω} {sig : Key → MeasurableSpace Ω} [mΩ : MeasurableSpace Ω] {P : Measure Ω} [IsProbabilityMeasure P] {env : Ω → Env ℝ D d M O} [BufNum ℝ]

omit [BufNum ℝ] in
/-- Two states of a chain of local steps. -/
theorem serial_pair (h : IdealOn T past sig P env) (kr : KernelRes ℝ d M) (K : Ω → LocalKernel ℝ D d)
    (hK : ∀ ω, kr.local? (env ω).rng = some (K ω)) (t : Target ℝ D d) (data : Data D) (ht : Measurable (fun x => t.val x data))
    (hg : Measurable (fun x => t.grad x data)) (i j : ℕ) (k : Key) (hT : ∀ a, Desc k a → T a) (S : Set (Option Key))
    (hS : Disjoint S (descSet k)) (X : Ω → Pos ℝ d) (hX : Measurable[info past sig S] X) :
    P.map (fun ω => ((iterState (localBody (K ω) t data) i (k, X ω, t.val (X ω) data)).2.1, (iterState (localBody (K ω) t data) (i + j) (k, X ω, t.val (X ω) data)).2.1)) =
      (stepLaw (noise d) (onSnd (localStep kr t data)))^[j]
        (P.map fun ω => ((iterState (localBody (K ω) t data) i (k, X ω, t.val (X ω) data)).2.1, (iterState (localBody (K ω) t data) i (k, X ω, t.val (X ω) data)).2.1)) := by
  have hsm := localStep_measurable kr t data ht hg
  induction i generalizing k S X with
  | zero =>
    rw [Nat.zero_add]
    exact (serial_joint h kr K hK t data ht hg _ j k hT S hS X hX X hX rfl).1
  | succ i ih =>
    obtain ⟨nm, nl⟩ := noise_law h (.child k 1) (fun a ha => hT a (desc_trans (.child 1 .refl) ha))
    have hbody : ∀ ω, (localBody (K ω) t data (k, X ω, t.val (X ω) data)).1 =
        (.child k 0, localStep kr t data ((env ω).rng.normal (.child (.child k 1) 0) d, (env ω).rng.uniform (.child (.child k 1) 1)) (X ω),
          t.val (localStep kr t data ((env ω).rng.normal (.child (.child k 1) 0) d, (env ω).rng.uniform (.child (.child k 1) 1)) (X ω)) data) := by
      intro ω
      have := local_kernel_eq kr t data (env ω).rng (K ω) (hK ω) (.child k 1) (X ω)
      simp only [localBody, split, this.1, this.2]
    rw [show i + 1 + j = (i + j) + 1 by ring]
    simp only [iterState, hbody]
    have hX' : Measurable[info past sig (S ∪ descSet (.child k 1))] (fun ω => localStep kr t data ((env ω).rng.normal (.child (.child k 1) 0) d, (env ω).rng.uniform (.child (.child k 1) 1)) (X ω)) :=
      hsm.comp ((hX.mono (info_mono Set.subset_union_left) le_rfl).prodMk (nm.mono (info_mono Set.subset_union_right) le_rfl))
    exact ih (.child k 0) (fun a ha => hT a (desc_trans (.child 0 .refl) ha)) (S ∪ descSet (.child k 1))
      (Set.disjoint_union_left.2 ⟨hS.mono_right descSet_child, descSet_disjoint (by decide)⟩) _ hX'

/-- The rows that a call of the stepper `s` computes for one chain are successive states of the chain with the step `step` driven by noise with distribution `ν`. -/
def StepperRows (T : Key → Prop) (past : MeasurableSpace Ω) (sig : Key → MeasurableSpace Ω) [mΩ : MeasurableSpace Ω] (P : Measure Ω) (env : Ω → Env ℝ D d M O)
    (r0 : String → Option (Resource ℝ D d M O)) (data : Data D) (s : TakeSteps) (ν : Measure (Pos ℝ d × ℝ)) (step : Pos ℝ d × ℝ → Pos ℝ d → Pos ℝ d) : Prop :=
  ∃ kr lr, r0 s.kernelName = some kr ∧ IsSamplerResource kr ∧ r0 s.logpdfName = some lr ∧ IsSamplerResource lr ∧
    (∀ ω f a x r, s.sampler (env ω) kr lr data = .ok f → f a x = .ok r → r.length = s.nSteps) ∧
    ∀ (a : Key), (∀ b, Desc a b → T b) → ∀ (S : Set (Option Key)), Disjoint S (descSet a) → ∀ (X : Ω → Pos ℝ d), Measurable[info past sig S] X →
      ∀ (r : Ω → List (StepOut ℝ d)), (∀ ω, ∃ f, s.sampler (env ω) kr lr data = .ok f ∧ f a (X ω) = .ok (r ω)) →
        ∃ Z : ℕ → Ω → Pos ℝ d, ChainRows P ν step (P.map X) s.nSteps Z ∧ ∀ j < s.nSteps, ∀ ω, ((r ω)[j]?).map (·.pos) = some (Z (j + 1) ω)

omit [BufNum ℝ] in
theorem serial_stepperRows (h : IdealOn T past sig P env) (r0 : String → Option (Resource ℝ D d M O)) (data : Data D) (s : TakeSteps) (hk : s.kind = .serial) (kr : KernelRes ℝ d M)
    (hx : ExactSettings kr) (hkr : r0 s.kernelName = some (.kernel kr)) (lr : Resource ℝ D d M O) (hlr : r0 s.logpdfName = some lr) (t : Target ℝ D d) (ht : lr.target? = some t)
    (hm : Measurable (fun x => t.val x data)) (hg : Measurable (fun x => t.grad x data)) :
    StepperRows T past sig P env r0 data s (noise d) (localStep kr t data) := by
  have hK : ∃ K : Ω → LocalKernel ℝ D d, ∀ ω, kr.local? (env ω).rng = some (K ω) := by
    cases kr with
    | nf _ _ => exact hx.elim
    | grw s => exact ⟨_, fun _ => rfl⟩
    | mala s => exact ⟨_, fun _ => rfl⟩
    | hmc _ _ _ _ => exact ⟨_, fun _ => rfl⟩
  obtain ⟨K, hK⟩ := hK
  have hrow : ∀ ω f a x r, s.sampler (env ω) (.kernel kr) lr data = .ok f → f a x = .ok r → r = serialSample (K ω) t data s.nSteps a x := by
    intro ω f a x r hf hr
    unfold TakeSteps.sampler at hf
    have hl := hK ω
    rw [ht] at hf
    simp only [hk] at hf
    cases kr with
    | nf _ _ => exact hx.elim
    | _ =>
      simp only [hl, Except.ok.injEq] at hf
      subst hf
      simpa using hr.symm
  refine ⟨_, lr, hkr, trivial, hlr, isSampler_of_target ht, fun ω f a x r hf hr => by rw [hrow ω f a x r hf hr, serialSample_length], ?_⟩
  intro a hT S hS X hX r hr
  refine ⟨fun j ω => (iterState (localBody (K ω) t data) j (a, X ω, t.val (X ω) data)).2.1, ⟨fun j _ => ?_, fun j _ => ?_, fun i j _ => ?_⟩, fun j hj ω => ?_⟩
  · exact (serial_iter h kr K hK t data hm hg _ j a hT S hS X hX rfl).2.mono (h.info_le _) le_rfl
  · exact (serial_iter h kr K hK t data hm hg _ j a hT S hS X hX rfl).1
  · exact serial_pair h kr K hK t data hm hg i j a hT S hS X hX
  · obtain ⟨f, hf, hr⟩ := hr ω
    rw [hrow ω f _ _ _ hf hr]
    exact serialSample_state (K ω) t data s.nSteps a (X ω) (j + 1) hj

omit [BufNum ℝ] in
theorem group_stepperRows (h : IdealOn T past sig P env) (r0 : String → Option (Resource ℝ D d M O)) (data : Data D) (s : TakeSteps) (hk : s.kind = .group) (m : M) (b : ℕ) (hb : 0 < b)
    (hkr : r0 s.kernelName = some (.kernel (.nf m b))) (lr : Resource ℝ D d M O) (hlr : r0 s.logpdfName = some lr) (t : Target ℝ D d) (ht : lr.target? = some t) (hn : IgnoresNSteps t)
    (hm : Measurable (fun x => t.val x data)) (q : Measure (Pos ℝ d)) [IsProbabilityMeasure q] (lnf : Pos ℝ d → ℝ) (hlnf : Measurable lnf) (hf : IdealFlowOn T P sig env m q lnf) :
    StepperRows T past sig P env r0 data s (q.prod unif) (flowStep t data lnf) := by
  have hrow : ∀ ω f a x r, s.sampler (env ω) (.kernel (.nf m b)) lr data = .ok f → f a x = .ok r → groupSample (env ω) m b t data s.nSteps a x = .ok r := by
    intro ω f a x r hf hr
    unfold TakeSteps.sampler at hf
    rw [ht] at hf
    simp only [hk, Except.ok.injEq] at hf
    subst hf
    exact hr
  have hgs := fun ω a x => group_sweep (env ω) (hf.lawful ω) m b hb t hn data s.nSteps a x
  have hsm := flowStep_measurable t data lnf hm hlnf
  refine ⟨_, lr, hkr, trivial, hlr, isSampler_of_target ht, fun ω f a x r hf hr => ?_, ?_⟩
  · obtain ⟨r', e, hl, -⟩ := hgs ω a x
    rw [hrow ω f a x r hf hr, Except.ok.injEq] at e
    rw [e, hl]
  intro a hT S hS X hX r hr
  haveI : IsProbabilityMeasure (P.map X) := Measure.isProbabilityMeasure_map (hX.mono (h.info_le _) le_rfl).aemeasurable
  have hdiag : Measurable fun x : Pos ℝ d => (x, x) := measurable_id.prodMk measurable_id
  have hit := fun j hj => sweep_iter h m q lnf hf b hb _ hsm (P.map X) s.nSteps a hT S hS X hX rfl j hj
  refine ⟨fun j ω => sweepAt (flowStep t data lnf) j s.nSteps (X ω) (fun i : Fin s.nSteps => flowProposal (env ω).ops m b (.child a 1) s.nSteps i)
        (fun i : Fin s.nSteps => (env ω).rng.uniform (stepKey (.child a 0) i)), ⟨fun j hj => (hit j hj).2.mono (h.info_le _) le_rfl, fun j hj => (hit j hj).1, fun i j hij => ?_⟩, fun j hj ω => ?_⟩
  · obtain ⟨vm, vl⟩ := proposals_law h m q lnf hf b hb (.child a 1) (fun c hc => hT c (desc_trans (.child 1 .refl) hc)) s.nSteps
    obtain ⟨um, ul⟩ := uniforms_law h (.child a 0) (fun c hc => hT c (desc_trans (.child 0 .refl) hc)) s.nSteps
    have vu := h.joint (descSet_disjoint (by decide)) vm um
    have vum : Measurable[info past sig (descSet a)] (fun ω => ((fun i : Fin s.nSteps => flowProposal (env ω).ops m b (.child a 1) s.nSteps i),
        (fun i : Fin s.nSteps => (env ω).rng.uniform (stepKey (.child a 0) i)))) :=
      (vm.mono (info_mono descSet_child) le_rfl).prodMk (um.mono (info_mono descSet_child) le_rfl)
    have hjt := h.joint hS hX vum
    rw [vu, vl, ul] at hjt
    have hall := ((hX.mono (h.info_le _) le_rfl).prodMk (vum.mono (h.info_le _) le_rfl))
    have hp := sweepAt_pair _ hsm (P.map X) q unif i j s.nSteps hij
    rw [← hjt, Measure.map_map ((sweepAt_measurable _ hsm i _).prodMk (sweepAt_measurable _ hsm (i + j) _)) hall] at hp
    refine hp.trans (congrArg _ ?_)
    rw [← (hit i (by omega)).1, Measure.map_map hdiag ((hit i (by omega)).2.mono (h.info_le _) le_rfl)]
    rfl
  · obtain ⟨r', e, -, hr'⟩ := hgs ω a (X ω)
    obtain ⟨f, hf', hr⟩ := hr ω
    rw [hrow ω f _ _ _ hf' hr, Except.ok.injEq] at e
    rw [e, hr' j hj, hf.logProb ω]

/-- All rows a stepper records of a known chain in one call. -/
theorem stepper_all_rows {r0 : String → Option (Resource ℝ D d M O)} {i : ℕ} {k0 k : Key} {S : Set (Option Key)} {μ : Measure (Pos ℝ d)} {w : Ω → World ℝ D d M O} {data : Data D}
    (hc : ChainKnown past sig P r0 i k0 k S μ w) (s : TakeSteps) {ν : Measure (Pos ℝ d × ℝ)} {step : Pos ℝ d × ℝ → Pos ℝ d → Pos ℝ d} (hs : StepperRows (Desc k0) past sig P env r0 data s ν step)
    (w1 : Ω → World ℝ D d M O) (hr : ∀ ω, s.run (env ω) (w ω).key (w ω).xs data (w ω).heap = (.ok ((w1 ω).key, (w1 ω).xs), (w1 ω).heap))
    (n cap cur : ℕ) (hn : 0 < s.nSteps) (hw : ∀ ω, (w ω).xs.length = n) (Pn L A : String) (bP bL bA : Ω → Buffer ℝ) (hpt : ∀ ω, PointsAt (w ω).heap s Pn L A)
    (hrec : ∀ ω, Recorders (w ω).heap n cap Pn L A (bP ω) (bL ω) (bA ω)) (hcur : ∀ ω, (w ω).heap.pos s.ident = cur) (hfit : cur + ceilDiv' s.nSteps s.thinning ≤ cap) :
    0 < s.thinning ∧ ∃ Z : ℕ → Ω → Pos ℝ d, ChainRows P ν step μ s.nSteps Z ∧
      ∀ ω, ∃ b, (w1 ω).heap.res Pn = some (.buffer b) ∧ ∀ j < ceilDiv' s.nSteps s.thinning, ∀ a : Fin d, b.data.get [i, cur + j, a] = Z (j * s.thinning + 1) ω a := by
  obtain ⟨kr, lr, hkr, hkr', hlr, hlr', hlen', hs⟩ := hs
  obtain ⟨X, hX, hXm, hXl⟩ := hc.law
  have hok := fun ω => takeSteps_rows (env ω) s _ _ _ _ data _ _ (hr ω)
  have hd : Desc k0 (.child (.child k 1) i) := desc_trans hc.desc (.child i (.child 1 .refl))
  obtain ⟨ω0⟩ : Nonempty Ω := P.nonempty_of_neZero
  have ht := (hok ω0).1
  refine ⟨ht, ?_⟩
  have hrow : ∀ ω, ∃ r, (∃ f, s.sampler (env ω) kr lr data = .ok f ∧ f (.child (.child k 1) i) (X ω) = .ok r) ∧
      ∃ b, (w1 ω).heap.res Pn = some (.buffer b) ∧ ∀ j < ceilDiv' s.nSteps s.thinning, ∀ v, (r[j * s.thinning]?).map (·.pos) = some v → ∀ a : Fin d, b.data.get [i, cur + j, a] = v a := by
    intro ω
    obtain ⟨-, kr', lr', f, rows, h1, h2, h3, h4⟩ := hok ω
    rw [hc.keeps ω _ _ hkr hkr', Option.some.injEq] at h1
    rw [hc.keeps ω _ _ hlr hlr', Option.some.injEq] at h2
    subst h1; subst h2
    have hlens : ∀ r ∈ rows, r.length = s.nSteps := by
      intro r hr
      obtain ⟨⟨a, hl⟩, rfl⟩ := List.mem_iff_get.1 hr
      exact hlen' ω f _ _ _ h3 ((List.forall₂_iff_get.1 h4).2 a (h4.length_eq ▸ hl) hl)
    obtain ⟨ys, h', e, he, -, -⟩ := C19_success (env ω) s (w ω).key (w ω).xs data (w ω).heap cap Pn L A (bP ω) (bL ω) (bA ω) (hpt ω) (by rw [hw]; exact hrec ω)
      (by rw [hcur]; exact hfit) kr lr (hc.keeps ω _ _ hkr hkr') (hc.keeps ω _ _ hlr hlr') f h3 rows h4 hlens ht hn
    rw [hr ω, Prod.mk.injEq] at e
    obtain ⟨b, hb, hcell⟩ := he.pos
    rw [← e.2] at hb
    have hz : ((splitN (.child (w ω).key 1) (w ω).xs.length).zip (w ω).xs)[i]? = some (.child (.child k 1) i, X ω) := by
      rw [zip_splitN_getElem?, show (w ω).xs[i]? = some (X ω) from hX ω, hc.key]; rfl
    have hi := (List.getElem?_eq_some_iff.1 hz).1
    have hi' : i < rows.length := h4.length_eq ▸ hi
    have e1 := (List.forall₂_iff_get.1 h4).2 i hi hi'
    have e0 : ((splitN (.child (w ω).key 1) (w ω).xs.length).zip (w ω).xs).get ⟨i, hi⟩ = (.child (.child k 1) i, X ω) := (List.getElem?_eq_some_iff.1 hz).2
    rw [e0] at e1
    refine ⟨rows[i], ⟨f, h3, e1⟩, b, hb, fun j hj v hv a => ?_⟩
    have := hcell.inside i j v (List.getElem?_eq_some_iff.1 (hX ω)).1 hj (by
      beta_reduce
      rw [cell_everyNth _ ht, cellOf, List.getElem?_eq_getElem hi', Option.bind_some]; exact hv) a
    rwa [hcur] at this
  choose r hf b hb hcell using hrow
  obtain ⟨Z, hZ, hrows⟩ := hs _ (fun b hb => desc_trans hd hb) S (hc.fresh.mono_right (descSet_mono (.child i (.child 1 .refl)))) X hXm r hf
  rw [hXl] at hZ
  exact ⟨Z, hZ, fun ω => ⟨b ω, hb ω, fun j hj => hcell ω j hj _ (hrows _ (lt_of_lt_ceil ht hn hj) ω)⟩⟩

/-- A mixing exact stepper: its step, for every number of steps. -/
theorem exactStepper_rows {k : Key} (h : IdealOn (Desc k) past sig P env) {r0 : String → Option (Resource ℝ D d M O)} {data : Data D} {μ : Measure (Pos ℝ d)} [IsProbabilityMeasure μ] {s : TakeSteps}
    (hs : ExactStepper (Desc k) P sig env r0 data μ s) (hmix : MixingStepper r0 data s) : ∃ (ν : Measure (Pos ℝ d × ℝ)) (_ : IsProbabilityMeasure ν) (step : Pos ℝ d × ℝ → Pos ℝ d → Pos ℝ d),
      Measurable (fun p : Pos ℝ d × (Pos ℝ d × ℝ) => step p.2 p.1) ∧ stepLaw ν step μ = μ ∧
      (∀ ρ : Measure (Pos ℝ d), IsProbabilityMeasure ρ → TVConverges (fun n => (stepLaw ν step)^[n] ρ) μ) ∧ ∀ n, StepperRows (Desc k) past sig P env r0 data { s with nSteps := n } ν step := by
  obtain ⟨lr, t, hlr, ht, hm, hg, hμ, ⟨hk, kr, hkr, hx⟩ | ⟨hk, hn, m, b, q, lnf, hb, hkr, hq, hl, hf⟩⟩ := hs
  · obtain ⟨hfin, rfl⟩ := samplesFrom_normalised μ _ hm hμ
    haveI : IsProbabilityMeasure (noise d) := by unfold noise; infer_instance
    haveI : SFinite (targetMeasure fun x => t.val x data) := by unfold targetMeasure; infer_instance
    have hr := (localStep_reversible kr hx t data hm hg).smul (targetMeasure (fun x => t.val x data) Set.univ)⁻¹
    have hmeas := localStep_measurable kr t data hm hg
    have hms : MixingSettings (fun x => t.grad x data) kr := by
      rcases hmix with hg' | ⟨kr', lr', t', h1, h2, h3, h4⟩
      · rw [hk] at hg'; cases hg'
      · rw [hkr] at h1; rw [hlr] at h2; cases h1; cases h2; rw [ht] at h3; cases h3; exact h4
    exact ⟨noise d, inferInstance, _, hmeas, hr.invariant hmeas, fun ρ hρ => local_tv kr t data hms hm hg hfin ρ,
      fun n => serial_stepperRows h r0 data { s with nSteps := n } hk kr hx hkr lr hlr t ht hm hg⟩
  · obtain ⟨hfin, rfl⟩ := samplesFrom_normalised μ _ hm hμ
    have hd := flow_mhData t data hm lnf hl q hf.density
    exact ⟨q.prod unif, inferInstance, _, hd.meas, hd.reversible.invariant hd.meas, fun ρ hρ => C70_flow t data hm lnf hl q hf.density hfin ρ,
      fun n => group_stepperRows h r0 data { s with nSteps := n } hk m b hb hkr lr hlr t ht hn hm q lnf hl hf⟩

/-- What a long call has to achieve: whatever calls `names` come before it, a call of the stepper `s` that records `rows` rows leaves a positions buffer in which, except with probability `ε`, the average of `f` over the
rows of chain `i` recorded by the call is within `δ` of `∫ f dμ`. -/
def Spec.AveragesAfter (env : Ω → Env ℝ D d M O) (P : Measure Ω) (r0 : String → Option (Resource ℝ D d M O)) (data : Data D) (μ : Measure (Pos ℝ d)) (strats : String → Option (Strategy ℝ D d M O))
    (names : List String) (k : Key) (X : Ω → Pos ℝ d) (f : Pos ℝ d → ℝ) (δ ε : ℝ) (s : TakeSteps) (rows : ℕ) : Prop :=
  ∀ (w w' w'' : Ω → World ℝ D d M O) (i : ℕ), (∀ ω, (w ω).key = k) → (∀ ω, KeepsSamplers r0 (w ω).heap) →
    (∀ ω, (w ω).xs[i]? = some (X ω)) → (∀ ω, Completes (env ω) strats data names (w ω) (w' ω)) →
    (∀ ω, s.run (env ω) (w' ω).key (w' ω).xs data (w' ω).heap = (.ok ((w'' ω).key, (w'' ω).xs), (w'' ω).heap)) →
      ∀ (n cap cur : ℕ), (∀ ω, (w' ω).xs.length = n) → ∀ (Pn L A : String) (bP bL bA : Ω → Buffer ℝ), (∀ ω, PointsAt (w' ω).heap s Pn L A) →
      (∀ ω, Recorders (w' ω).heap n cap Pn L A (bP ω) (bL ω) (bA ω)) → (∀ ω, (w' ω).heap.pos s.ident = cur) → cur + rows ≤ cap →
      ∃ b : Ω → Buffer ℝ, (∀ ω, (w'' ω).heap.res Pn = some (.buffer (b ω))) ∧
        P.real {ω | δ < |(∑ j ∈ Finset.range rows, f (fun a => (b ω).data.get [i, cur + j, a])) / rows - ∫ x, f x ∂μ|} ≤ ε

/-- **C99.** A stepper that is exact for `μ` and mixing — random walk, MALA, HMC with short trajectories and a diagonal mass matrix, or flow proposals — is used for one long call, from any start and after any calls `names` of exact
strategies.  For every integrable function `f` (a posterior mean, a variance, the probability of a set) and all `δ`, `ε` there is `L` such that if the call records at least `L` rows, the average of `f` over the rows of a
chain that it records is within `δ` of `∫ f dμ`, except with probability `ε`.  No burn-in has to be thrown away, and `L` does not depend on the chain, the buffers, the cursor or what the other chains do. -/
theorem C99_averages (k : Key) (h : IdealOn (Desc k) past sig P env) (r0 : String → Option (Resource ℝ D d M O)) (data : Data D) (μ : Measure (Pos ℝ d)) [IsProbabilityMeasure μ]
    (strats : String → Option (Strategy ℝ D d M O)) (names : List String) (hs : ∀ name ∈ names, ∀ s, strats name = some s → ExactStrategy (Desc k) P sig env r0 data μ s)
    (s : TakeSteps) (hstep : ExactStepper (Desc k) P sig env r0 data μ s) (hmix : MixingStepper r0 data s) (X : Ω → Pos ℝ d) (hXm : Measurable[past] X)
    (f : Pos ℝ d → ℝ) (hf : Measurable f) (hfi : Integrable f μ) (δ ε : ℝ) (hδ : 0 < δ) (hε : 0 < ε) :
    ∃ L, ∀ N, L ≤ ceilDiv' N s.thinning → AveragesAfter env P r0 data μ strats names k X f δ ε { s with nSteps := N } (ceilDiv' N s.thinning) := by
  have hXm' : Measurable[mΩ] X := hXm.mono (le_trans (past_le_info (past := past) (sig := sig) (S := {none}) (by simp)) (h.info_le _)) le_rfl
  haveI : IsProbabilityMeasure (P.map X) := Measure.isProbabilityMeasure_map hXm'.aemeasurable
  obtain ⟨Ψ, hΨ⟩ := dictionary_maps h r0 data μ strats names hs
  obtain ⟨ν, hν, step, hm, hinv, htv, hrows⟩ := exactStepper_rows h hstep hmix
  have key : ∀ (l : List String) (ρ : Measure (Pos ℝ d)), (∀ n ∈ l, n ∈ names) → IsProbabilityMeasure ρ → IsProbabilityMeasure (l.foldl (fun ν n => Ψ n ν) ρ) := by
    intro l
    induction l with
    | nil => exact fun ρ _ hρ => hρ
    | cons a l ih => exact fun ρ hl hρ => ih _ (fun n hn => hl n (List.mem_cons_of_mem _ hn)) ⟨by rw [(hΨ a (hl a List.mem_cons_self)).1.mass.mass ρ inferInstance]; exact hρ.measure_univ⟩
  have hprob := key names (P.map X) (fun _ h => h) inferInstance
  rcases Nat.eq_zero_or_pos s.thinning with ht0 | ht0
  · refine ⟨1, fun N hN => ?_⟩
    rw [ht0] at hN
    simp [ceilDiv'] at hN
  obtain ⟨L, hL⟩ := chain_lln (P := P) hm hinv (fun x => htv _ inferInstance) (htv (names.foldl (fun ν n => Ψ n ν) (P.map X)) hprob) hf hfi s.thinning ht0 hδ hε
  refine ⟨max L 1, fun N hN w w' w'' i hkey hres hX hr hrun n cap cur hw Pn Ln A bP bL bA hpt hrec hcur hfit => ?_⟩
  obtain ⟨k', S', hc⟩ := order_close h (fun name hn => (hΨ name hn).2.1) hXm hkey hres hX hr
  have hN0 : 0 < N := by
    rcases Nat.eq_zero_or_pos N with h0 | h0
    · subst h0
      have h1 : 1 ≤ ceilDiv' 0 s.thinning := le_trans (le_max_right _ _) hN
      rw [ceilDiv', Nat.div_eq_of_lt (by omega)] at h1
      omega
    · exact h0
  obtain ⟨ht, Z, hZ, hcell⟩ := stepper_all_rows hc { s with nSteps := N } (hrows N) w'' hrun n cap cur hN0 hw Pn Ln A bP bL bA hpt hrec hcur hfit
  choose b hb hcell using hcell
  refine ⟨b, hb, ?_⟩
  have := hL (ceilDiv' N s.thinning) (le_trans (le_max_left _ _) hN) N Z hZ (fun l hl => lt_of_lt_ceil ht0 hN0 hl)
  refine le_trans (le_of_eq ?_) this
  congr 1
  ext ω
  have e : ∑ j ∈ Finset.range (ceilDiv' N s.thinning), f (fun a => (b ω).data.get [i, cur + j, a]) = ∑ j ∈ Finset.range (ceilDiv' N s.thinning), f (Z (j * s.thinning + 1) ω) :=
    Finset.sum_congr rfl fun j hj => congrArg f (funext fun a => hcell ω j (Finset.mem_range.1 hj) a)
  simp only [Set.mem_setOf_eq, e]

end FlowMC
