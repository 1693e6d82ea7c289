import Verif.Lemmas.Compose
import Verif.Props.Doeblin
/-
C94: samplers composed by the user from exact steppers, in any order.
-/
open MeasureTheory ProbabilityTheory
open scoped ENNReal
set_option linter.unusedSectionVars false
namespace FlowMC
open Spec

variable {Ω D M O : Type} {d : ℕ} [BufNum ℝ]
variable {past : MeasurableSpace Ω} {sig : Key → MeasurableSpace Ω} [mΩ : MeasurableSpace Ω] {P : Measure Ω} [IsProbabilityMeasure P] {env : Ω → Env ℝ D d M O} {T : Key → Prop}

/-! ### one stepper -/

/-- A stepper whose kernel and log-density are in `r0`, and whose row number `j` has the distribution `Φ^[j+1] ν` when the start has distribution `ν`. -/
def StepperLaw (T : Key → Prop) (past : MeasurableSpace Ω) (sig : Key → MeasurableSpace Ω) [mΩ : MeasurableSpace Ω] (P : Measure Ω) (env : Ω → Env ℝ D d M O)
    (r0 : String → Option (Resource ℝ D d M O)) (data : Data D) (s : TakeSteps) (Φ : Measure (Pos ℝ d) → Measure (Pos ℝ d)) : Prop :=
  ∃ kr lr, r0 s.kernelName = some kr ∧ IsSamplerResource kr ∧ r0 s.logpdfName = some lr ∧ IsSamplerResource lr ∧
    (∀ ω f a x r, s.sampler (env ω) kr lr data = .ok f → f a x = .ok r → r.length = s.nSteps) ∧
    ∀ (a : Key), (∀ b, Desc a b → T b) → ∀ (S : Set (Option Key)), Disjoint S (descSet a) → ∀ (ν : Measure (Pos ℝ d)) (X : Ω → Pos ℝ d), Measurable[info past sig S] X → P.map X = ν →
      ∀ (r : Ω → List (StepOut ℝ d)), (∀ ω, ∃ f, s.sampler (env ω) kr lr data = .ok f ∧ f a (X ω) = .ok (r ω)) →
        ∀ j < s.nSteps, KnownLaw past sig P (S ∪ descSet a) (Φ^[j + 1] ν) (fun ω => ((r ω)[j]?).map (·.pos))

omit [BufNum ℝ] in
theorem isSampler_of_target {lr : Resource ℝ D d M O} {t : Target ℝ D d} (h : lr.target? = some t) : IsSamplerResource lr := by
  cases lr <;> simp_all [Resource.target?, IsSamplerResource]

omit [BufNum ℝ] in
theorem serial_stepperLaw (h : IdealOn T past sig P env) (r0 : String → Option (Resource ℝ D d M O)) (data : Data D) (s : TakeSteps) (hk : s.kind = .serial) (kr : KernelRes ℝ d M)
    (hx : ExactSettings kr) (hkr : r0 s.kernelName = some (.kernel kr)) (lr : Resource ℝ D d M O) (hlr : r0 s.logpdfName = some lr) (t : Target ℝ D d) (ht : lr.target? = some t)
    (hm : Measurable (fun x => t.val x data)) (hg : Measurable (fun x => t.grad x data)) :
    StepperLaw T past sig P env r0 data s (stepLaw (noise d) (localStep kr t data)) := by
  have hK : ∃ K : Ω → LocalKernel ℝ D d, ∀ ω, kr.local? (env ω).rng = some (K ω) := by
    cases kr with
    | nf _ _ => exact hx.elim
    | grw s => exact ⟨_, fun _ => rfl⟩
    | mala s => exact ⟨_, fun _ => rfl⟩
    | hmc _ _ _ _ => exact ⟨_, fun _ => rfl⟩
  obtain ⟨K, hK⟩ := hK
  have hrow : ∀ ω f a x r, s.sampler (env ω) (.kernel kr) lr data = .ok f → f a x = .ok r → r = serialSample (K ω) t data s.nSteps a x := by
    intro ω f a x r hf hr
    unfold TakeSteps.sampler at hf
    have hl := hK ω
    rw [ht] at hf
    simp only [hk] at hf
    cases kr with
    | nf _ _ => exact hx.elim
    | _ =>
      simp only [hl, Except.ok.injEq] at hf
      subst hf
      simpa using hr.symm
  refine ⟨_, lr, hkr, trivial, hlr, isSampler_of_target ht, fun ω f a x r hf hr => by rw [hrow ω f a x r hf hr, serialSample_length], ?_⟩
  intro a hT S hS ν X hX hl r hr j hj
  obtain ⟨h1, h2⟩ := serial_iter h kr K hK t data hm hg ν (j + 1) a hT S hS X hX hl
  exact ⟨_, fun ω => by obtain ⟨f, hf, hr⟩ := hr ω; beta_reduce; rw [hrow ω f _ _ _ hf hr]; exact serialSample_state (K ω) t data s.nSteps a (X ω) (j + 1) hj, h2, h1⟩

omit [BufNum ℝ] in
theorem group_stepperLaw (h : IdealOn T past sig P env) (r0 : String → Option (Resource ℝ D d M O)) (data : Data D) (s : TakeSteps) (hk : s.kind = .group) (m : M) (b : ℕ) (hb : 0 < b)
    (hkr : r0 s.kernelName = some (.kernel (.nf m b))) (lr : Resource ℝ D d M O) (hlr : r0 s.logpdfName = some lr) (t : Target ℝ D d) (ht : lr.target? = some t) (hn : IgnoresNSteps t)
    (hm : Measurable (fun x => t.val x data)) (q : Measure (Pos ℝ d)) [IsProbabilityMeasure q] (lnf : Pos ℝ d → ℝ) (hlnf : Measurable lnf) (hf : IdealFlowOn T P sig env m q lnf) :
    StepperLaw T past sig P env r0 data s (stepLaw (q.prod unif) (flowStep t data lnf)) := by
  have hrow : ∀ ω f a x r, s.sampler (env ω) (.kernel (.nf m b)) lr data = .ok f → f a x = .ok r → groupSample (env ω) m b t data s.nSteps a x = .ok r := by
    intro ω f a x r hf hr
    unfold TakeSteps.sampler at hf
    rw [ht] at hf
    simp only [hk, Except.ok.injEq] at hf
    subst hf
    exact hr
  have hgs := fun ω a x => group_sweep (env ω) (hf.lawful ω) m b hb t hn data s.nSteps a x
  refine ⟨_, lr, hkr, trivial, hlr, isSampler_of_target ht, fun ω f a x r hf hr => ?_, ?_⟩
  · obtain ⟨r', e, hl, -⟩ := hgs ω a x
    rw [hrow ω f a x r hf hr, Except.ok.injEq] at e
    rw [e, hl]
  intro a hT S hS ν X hX hl r hr j hj
  haveI : IsProbabilityMeasure ν := by
    rw [← hl]; exact Measure.isProbabilityMeasure_map (hX.mono (h.info_le _) le_rfl).aemeasurable
  obtain ⟨h1, h2⟩ := sweep_iter h m q lnf hf b hb _ (flowStep_measurable t data lnf hm hlnf) ν s.nSteps a hT S hS X hX hl (j + 1) hj
  refine ⟨_, fun ω => ?_, h2, h1⟩
  obtain ⟨r', e, -, hr'⟩ := hgs ω a (X ω)
  obtain ⟨f, hf', hr⟩ := hr ω
  rw [hrow ω f _ _ _ hf' hr, Except.ok.injEq] at e
  beta_reduce
  rw [e, hr' j hj, hf.logProb ω]

/-- Index of the last recorded row of a call with `n` steps and thinning `t`. -/
def lastRow (s : TakeSteps) : ℕ := (ceilDiv' s.nSteps s.thinning - 1) * s.thinning

omit [BufNum ℝ] in
theorem lastRow_lt (s : TakeSteps) (ht : 0 < s.thinning) (hn : 0 < s.nSteps) : lastRow s < s.nSteps := by
  have hc := ceilDiv'_pos s.nSteps s.thinning ht hn
  exact lt_of_lt_ceil ht hn (show ceilDiv' s.nSteps s.thinning - 1 < _ by omega)

/-- What is known about chain `i` in a random world whose key is always `k`. -/
structure ChainKnown (past : MeasurableSpace Ω) (sig : Key → MeasurableSpace Ω) [mΩ : MeasurableSpace Ω] (P : Measure Ω) (r0 : String → Option (Resource ℝ D d M O)) (i : ℕ)
    (k0 k : Key) (S : Set (Option Key)) (ν : Measure (Pos ℝ d)) (w : Ω → World ℝ D d M O) : Prop where
  desc : Desc k0 k
  fresh : Disjoint S (descSet k)
  key : ∀ ω, (w ω).key = k
  keeps : ∀ ω, KeepsSamplers r0 (w ω).heap
  law : KnownLaw past sig P S ν (fun ω => (w ω).xs[i]?)

theorem stepper_chain {r0 : String → Option (Resource ℝ D d M O)} {i : ℕ} {k0 k : Key} {S : Set (Option Key)} {ν : Measure (Pos ℝ d)} {w : Ω → World ℝ D d M O} {data : Data D}
    (hc : ChainKnown past sig P r0 i k0 k S ν w) (s : TakeSteps) (Φ : Measure (Pos ℝ d) → Measure (Pos ℝ d)) (hs : StepperLaw (Desc k0) past sig P env r0 data s Φ)
    (w1 : Ω → World ℝ D d M O) (hr : ∀ ω, s.run (env ω) (w ω).key (w ω).xs data (w ω).heap = (.ok ((w1 ω).key, (w1 ω).xs), (w1 ω).heap)) :
    ChainKnown past sig P r0 i k0 (.child k 0) (S ∪ descSet (.child (.child k 1) i)) (Φ^[lastRow s + 1] ν) w1 := by
  obtain ⟨kr, lr, hkr, hkr', hlr, hlr', hlen', hs⟩ := hs
  obtain ⟨X, hX, hXm, hXl⟩ := hc.law
  have hok := fun ω => takeSteps_ok (env ω) s _ _ _ _ data _ _ (hr ω)
  have hd : Desc k0 (.child (.child k 1) i) := desc_trans hc.desc (.child i (.child 1 .refl))
  have hrow : ∀ ω, ∃ r, (∃ f, s.sampler (env ω) kr lr data = .ok f ∧ f (.child (.child k 1) i) (X ω) = .ok r) ∧
      (w1 ω).xs[i]? = (r[(ceilDiv' r.length s.thinning - 1) * s.thinning]?).map (·.pos) := by
    intro ω
    obtain ⟨-, -, kr', lr', f, h1, h2, h3, h4⟩ := hok ω
    rw [hc.keeps ω _ _ hkr hkr', Option.some.injEq] at h1
    rw [hc.keeps ω _ _ hlr hlr', Option.some.injEq] at h2
    subst h1; subst h2
    obtain ⟨r, h5, h6⟩ := h4 i (X ω) (hX ω)
    rw [hc.key ω] at h5
    exact ⟨r, ⟨f, h3, h5⟩, h6⟩
  choose r hf hlast using hrow
  have hlen : ∀ ω, (r ω).length = s.nSteps := fun ω => by obtain ⟨f, h1, h2⟩ := hf ω; exact hlen' ω f _ _ _ h1 h2
  have hlaw := hs _ (fun b hb => desc_trans hd hb) S (hc.fresh.mono_right (descSet_mono (.child i (.child 1 .refl)))) ν X hXm hXl r hf
  obtain ⟨ω0⟩ : Nonempty Ω := P.nonempty_of_neZero
  have ht := (hok ω0).1
  have hn : 0 < s.nSteps := by
    by_contra h0
    have h0 : s.nSteps = 0 := by omega
    have hl := takeSteps_length (env ω0) s _ _ _ _ data _ _ (hr ω0)
    have h1 : (w1 ω0).xs[i]? = none := by
      rw [hlast ω0]
      have : r ω0 = [] := List.length_eq_zero_iff.1 (by rw [hlen, h0])
      simp [this]
    have h2 : i < (w ω0).xs.length := (List.getElem?_eq_some_iff.1 (hX ω0)).1
    rw [List.getElem?_eq_none_iff] at h1
    omega
  refine ⟨.child 0 hc.desc, ?_, fun ω => by rw [(hok ω).2.1, hc.key], fun ω => ?_, (hlaw _ (lastRow_lt s ht hn)).congr fun ω => by rw [hlast ω, hlen ω]; rfl⟩
  · rw [Set.disjoint_union_left]
    refine ⟨hc.fresh.mono_right descSet_child, ?_⟩
    rw [Set.disjoint_left]
    rintro _ ⟨a, rfl, h1⟩ ⟨b, e, h2⟩
    rw [Option.some.injEq] at e
    subst e
    exact children_disjoint (show (1 : ℕ) ≠ 0 by decide) ⟨desc_trans (.child i .refl) h1, h2⟩
  · have := takeSteps_keeps (env ω) s (w ω).key (w ω).xs data (w ω).heap (hc.keeps ω)
    rw [hr ω] at this
    exact this

/-- What a stepper records of a known chain. -/
theorem stepper_records {r0 : String → Option (Resource ℝ D d M O)} {i : ℕ} {k0 k : Key} {S : Set (Option Key)} {ν : Measure (Pos ℝ d)} {w : Ω → World ℝ D d M O} {data : Data D}
    (hc : ChainKnown past sig P r0 i k0 k S ν w) (s : TakeSteps) (Φ : Measure (Pos ℝ d) → Measure (Pos ℝ d)) (hs : StepperLaw (Desc k0) past sig P env r0 data s Φ)
    (w1 : Ω → World ℝ D d M O) (hr : ∀ ω, s.run (env ω) (w ω).key (w ω).xs data (w ω).heap = (.ok ((w1 ω).key, (w1 ω).xs), (w1 ω).heap))
    (n cap cur : ℕ) (hn : 0 < s.nSteps) (hw : ∀ ω, (w ω).xs.length = n) (Pn L A : String) (bP bL bA : Ω → Buffer ℝ) (hpt : ∀ ω, PointsAt (w ω).heap s Pn L A)
    (hrec : ∀ ω, Recorders (w ω).heap n cap Pn L A (bP ω) (bL ω) (bA ω)) (hcur : ∀ ω, (w ω).heap.pos s.ident = cur) (hfit : cur + ceilDiv' s.nSteps s.thinning ≤ cap)
    (j : ℕ) (hj : j < ceilDiv' s.nSteps s.thinning) :
    ∃ Y : Ω → Pos ℝ d, Measurable[info past sig (S ∪ descSet (.child (.child k 1) i))] Y ∧ P.map Y = Φ^[j * s.thinning + 1] ν ∧
      ∀ ω, ∃ b, (w1 ω).heap.res Pn = some (.buffer b) ∧ ∀ a : Fin d, b.data.get [i, cur + j, a] = Y ω a := by
  obtain ⟨kr, lr, hkr, hkr', hlr, hlr', hlen', hs⟩ := hs
  obtain ⟨X, hX, hXm, hXl⟩ := hc.law
  have hok := fun ω => takeSteps_rows (env ω) s _ _ _ _ data _ _ (hr ω)
  have hd : Desc k0 (.child (.child k 1) i) := desc_trans hc.desc (.child i (.child 1 .refl))
  obtain ⟨ω0⟩ : Nonempty Ω := P.nonempty_of_neZero
  have ht := (hok ω0).1
  have hrow : ∀ ω, ∃ r, (∃ f, s.sampler (env ω) kr lr data = .ok f ∧ f (.child (.child k 1) i) (X ω) = .ok r) ∧
      ∃ b, (w1 ω).heap.res Pn = some (.buffer b) ∧ ∀ v, (r[j * s.thinning]?).map (·.pos) = some v → ∀ a : Fin d, b.data.get [i, cur + j, a] = v a := by
    intro ω
    obtain ⟨-, kr', lr', f, rows, h1, h2, h3, h4⟩ := hok ω
    rw [hc.keeps ω _ _ hkr hkr', Option.some.injEq] at h1
    rw [hc.keeps ω _ _ hlr hlr', Option.some.injEq] at h2
    subst h1; subst h2
    have hlens : ∀ r ∈ rows, r.length = s.nSteps := by
      intro r hr
      obtain ⟨⟨a, hl⟩, rfl⟩ := List.mem_iff_get.1 hr
      exact hlen' ω f _ _ _ h3 ((List.forall₂_iff_get.1 h4).2 a (h4.length_eq ▸ hl) hl)
    obtain ⟨ys, h', e, he, -, -⟩ := C19_success (env ω) s (w ω).key (w ω).xs data (w ω).heap cap Pn L A (bP ω) (bL ω) (bA ω) (hpt ω) (by rw [hw]; exact hrec ω)
      (by rw [hcur]; exact hfit) kr lr (hc.keeps ω _ _ hkr hkr') (hc.keeps ω _ _ hlr hlr') f h3 rows h4 hlens ht hn
    rw [hr ω, Prod.mk.injEq] at e
    obtain ⟨b, hb, hcell⟩ := he.pos
    rw [← e.2] at hb
    have hz : ((splitN (.child (w ω).key 1) (w ω).xs.length).zip (w ω).xs)[i]? = some (.child (.child k 1) i, X ω) := by
      rw [zip_splitN_getElem?, show (w ω).xs[i]? = some (X ω) from hX ω, hc.key]; rfl
    have hi := (List.getElem?_eq_some_iff.1 hz).1
    have hi' : i < rows.length := h4.length_eq ▸ hi
    have e1 := (List.forall₂_iff_get.1 h4).2 i hi hi'
    have e0 : ((splitN (.child (w ω).key 1) (w ω).xs.length).zip (w ω).xs).get ⟨i, hi⟩ = (.child (.child k 1) i, X ω) := (List.getElem?_eq_some_iff.1 hz).2
    rw [e0] at e1
    refine ⟨rows[i], ⟨f, h3, e1⟩, b, hb, fun v hv a => ?_⟩
    have := hcell.inside i j v (List.getElem?_eq_some_iff.1 (hX ω)).1 hj (by
      beta_reduce
      rw [cell_everyNth _ ht, cellOf, List.getElem?_eq_getElem hi', Option.bind_some]; exact hv) a
    rwa [hcur] at this
  choose r hf b hb hcell using hrow
  obtain ⟨Y, hY, hYm, hYl⟩ := hs _ (fun b hb => desc_trans hd hb) S (hc.fresh.mono_right (descSet_mono (.child i (.child 1 .refl)))) ν X hXm hXl r hf (j * s.thinning) (lt_of_lt_ceil ht hn hj)
  exact ⟨Y, hYm, hYl, fun ω => ⟨b ω, hb ω, hcell ω _ (hY ω)⟩⟩

theorem passive_chain {r0 : String → Option (Resource ℝ D d M O)} {i : ℕ} {k0 k : Key} {S : Set (Option Key)} {ν : Measure (Pos ℝ d)} {w : Ω → World ℝ D d M O} {data : Data D}
    (hc : ChainKnown past sig P r0 i k0 k S ν w) (s : Strategy ℝ D d M O) (hs : MovesNothing r0 data s)
    (w1 : Ω → World ℝ D d M O) (hr : ∀ ω, s.run (env ω) (w ω).key (w ω).xs data (w ω).heap = (.ok ((w1 ω).key, (w1 ω).xs), (w1 ω).heap)) :
    ChainKnown past sig P r0 i k0 (passiveKey s k) S ν w1 := by
  have h := fun ω => passive_run (env ω) data s hs _ _ _ _ _ _ (hc.keeps ω) (hr ω)
  refine ⟨desc_trans hc.desc (desc_passiveKey s k), hc.fresh.mono_right (descSet_mono (desc_passiveKey s k)), fun ω => by rw [(h ω).1, hc.key], fun ω => (h ω).2.2,
    hc.law.congr fun ω => by rw [(h ω).2.1]⟩

/-- How the distribution of a chain's position changes in a call of the strategy `name`: a stepper acts by its law, everything else moves nothing. -/
def ActsBy (T : Key → Prop) (past : MeasurableSpace Ω) (sig : Key → MeasurableSpace Ω) [mΩ : MeasurableSpace Ω] (P : Measure Ω) (env : Ω → Env ℝ D d M O)
    (r0 : String → Option (Resource ℝ D d M O)) (data : Data D) (s : Strategy ℝ D d M O) (Ψ : Measure (Pos ℝ d) → Measure (Pos ℝ d)) : Prop :=
  (MovesNothing r0 data s ∧ Ψ = id) ∨ ∃ ts Φ, s = .takeSteps ts ∧ StepperLaw T past sig P env r0 data ts Φ ∧ Ψ = Φ^[lastRow ts + 1]

theorem compose_chain {r0 : String → Option (Resource ℝ D d M O)} {i : ℕ} {k0 : Key} {data : Data D} {strats : String → Option (Strategy ℝ D d M O)}
    (Ψ : String → Measure (Pos ℝ d) → Measure (Pos ℝ d)) (names : List String) (hs : ∀ name ∈ names, ∀ s, strats name = some s → ActsBy (Desc k0) past sig P env r0 data s (Ψ name))
    {k : Key} {S : Set (Option Key)} {ν : Measure (Pos ℝ d)} {w w' : Ω → World ℝ D d M O} (hc : ChainKnown past sig P r0 i k0 k S ν w)
    (hr : ∀ ω, Completes (env ω) strats data names (w ω) (w' ω)) :
    ∃ k' S', ChainKnown past sig P r0 i k0 k' S' (names.foldl (fun ν n => Ψ n ν) ν) w' := by
  induction names generalizing k S ν w with
  | nil =>
    obtain rfl : w = w' := funext fun ω => by have := hr ω; rw [completes_nil] at this; exact this.symm ▸ rfl
    exact ⟨k, S, hc⟩
  | cons name names ih =>
    obtain ⟨ω0⟩ : Nonempty Ω := P.nonempty_of_neZero
    have hr' := fun ω => completes_cons.1 (hr ω)
    choose s k1 x1 h1 e r rest using hr'
    have hss : ∀ ω, s ω = s ω0 := fun ω => by have := (e ω).symm.trans (e ω0); exact Option.some.inj this
    have hs0 := hs name List.mem_cons_self (s ω0) (e ω0)
    have hstep : ∃ k' S', ChainKnown past sig P r0 i k0 k' S' (Ψ name ν) (fun ω => ⟨k1 ω, x1 ω, h1 ω⟩) := by
      rcases hs0 with ⟨hp, hΨ⟩ | ⟨ts, Φ, hts, hl, hΨ⟩
      · rw [hΨ]
        exact ⟨_, _, passive_chain hc (s ω0) hp _ fun ω => by rw [← hss ω]; exact r ω⟩
      · rw [hΨ]
        refine ⟨_, _, stepper_chain hc ts Φ hl _ fun ω => ?_⟩
        have := r ω
        rw [hss ω, hts] at this
        exact this
    obtain ⟨k', S', hc'⟩ := hstep
    exact ih (fun n hn => hs n (List.mem_cons_of_mem _ hn)) hc' rest

/-! ### C94 -/

/-- A stepper that is exact for the distribution `μ`: it takes at least one step per call of one of flowMC's kernels — a local kernel with settings for which it is reversible, or flow proposals from a flow
whose `log_prob` is the log-density of its samples up to a constant — with a log-density that is that of `μ` up to a constant. -/
def Spec.ExactStepper (T : Key → Prop) (P : Measure Ω) (sig : Key → MeasurableSpace Ω) (env : Ω → Env ℝ D d M O) (r0 : String → Option (Resource ℝ D d M O)) (data : Data D)
    (μ : Measure (Pos ℝ d)) (s : TakeSteps) : Prop :=
  ∃ lr t, r0 s.logpdfName = some lr ∧ lr.target? = some t ∧ Measurable (fun x => t.val x data) ∧ Measurable (fun x => t.grad x data) ∧ SamplesFrom μ (fun x => t.val x data) ∧
    ((s.kind = .serial ∧ ∃ kr, r0 s.kernelName = some (.kernel kr) ∧ ExactSettings kr) ∨
     (s.kind = .group ∧ IgnoresNSteps t ∧ ∃ m b q lnf, 0 < b ∧ r0 s.kernelName = some (.kernel (.nf m b)) ∧ IsProbabilityMeasure q ∧ Measurable lnf ∧ IdealFlowOn T P sig env m q lnf))

theorem exactStepper_law {k : Key} (h : IdealOn (Desc k) past sig P env) {r0 : String → Option (Resource ℝ D d M O)} {data : Data D} {μ : Measure (Pos ℝ d)} [IsProbabilityMeasure μ] {s : TakeSteps}
    (hs : ExactStepper (Desc k) P sig env r0 data μ s) : ∃ Φ, StepperLaw (Desc k) past sig P env r0 data s Φ ∧ Φ μ = μ ∧
      ∀ ν ε, IsProbabilityMeasure ν → IsProbabilityMeasure (Φ ν) ∧ (Near ν μ ε → Near (Φ ν) μ ε) := by
  obtain ⟨lr, t, hlr, ht, hm, hg, hμ, ⟨hk, kr, hkr, hx⟩ | ⟨hk, hn, m, b, q, lnf, hb, hkr, hq, hl, hf⟩⟩ := hs
  · obtain ⟨hfin, rfl⟩ := samplesFrom_normalised μ _ hm hμ
    haveI : IsProbabilityMeasure (noise d) := by unfold noise; infer_instance
    haveI : SFinite (targetMeasure fun x => t.val x data) := by unfold targetMeasure; infer_instance
    have hr := (localStep_reversible kr hx t data hm hg).smul (targetMeasure (fun x => t.val x data) Set.univ)⁻¹
    exact ⟨_, serial_stepperLaw h r0 data s hk kr hx hkr lr hlr t ht hm hg, hr.invariant (localStep_measurable kr t data hm hg), fun ν ε hν => local_nonexpand kr hx t data hm hg hfin ν ε hν⟩
  · obtain ⟨hfin, rfl⟩ := samplesFrom_normalised μ _ hm hμ
    have hd := flow_mhData t data hm lnf hl q hf.density
    have hinv := hd.reversible.invariant hd.meas
    exact ⟨_, group_stepperLaw h r0 data s hk m b hb hkr lr hlr t ht hn hm q lnf hl hf, hinv, fun ν ε hν =>
      ⟨Measure.isProbabilityMeasure_map hd.meas.aemeasurable, fun hn => near_step hn hd.meas hinv⟩⟩

/-- The strategies a composed sampler may call: exact steppers and strategies that move no chain. -/
def Spec.ExactStrategy (T : Key → Prop) (P : Measure Ω) (sig : Key → MeasurableSpace Ω) (env : Ω → Env ℝ D d M O) (r0 : String → Option (Resource ℝ D d M O)) (data : Data D)
    (μ : Measure (Pos ℝ d)) (s : Strategy ℝ D d M O) : Prop :=
  MovesNothing r0 data s ∨ ∃ ts, s = .takeSteps ts ∧ ExactStepper T P sig env r0 data μ ts

theorem iterate_fix {α : Type} {f : α → α} {x : α} (h : f x = x) (n : ℕ) : f^[n] x = x := Function.iterate_fixed h n

/-- Chain `i` after any composition of exact strategies. -/
theorem exact_chain (k : Key) (h : IdealOn (Desc k) past sig P env) (r0 : String → Option (Resource ℝ D d M O)) (data : Data D) (μ : Measure (Pos ℝ d)) [IsProbabilityMeasure μ]
    (strats : String → Option (Strategy ℝ D d M O)) (names : List String) (hs : ∀ name ∈ names, ∀ s, strats name = some s → ExactStrategy (Desc k) P sig env r0 data μ s)
    (w w' : Ω → World ℝ D d M O) (hkey : ∀ ω, (w ω).key = k) (hres : ∀ ω, KeepsSamplers r0 (w ω).heap) (i : ℕ) (X : Ω → Pos ℝ d) (hX : ∀ ω, (w ω).xs[i]? = some (X ω))
    (hXm : Measurable[past] X) (hXl : P.map X = μ) (hr : ∀ ω, Completes (env ω) strats data names (w ω) (w' ω)) :
    ∃ k' S', ChainKnown past sig P r0 i k k' S' μ w' := by
  have hc : ChainKnown past sig P r0 i k k {none} μ w := ⟨.refl, by rw [Set.disjoint_left]; rintro o ho ⟨a, rfl, _⟩; simp at ho, hkey, hres,
    X, hX, hXm.mono (past_le_info (by simp)) le_rfl, hXl⟩
  have hΨ : ∀ name, ∃ Ψ : Measure (Pos ℝ d) → Measure (Pos ℝ d), Ψ μ = μ ∧ (name ∈ names → ∀ s, strats name = some s → ActsBy (Desc k) past sig P env r0 data s Ψ) := by
    intro name
    by_cases hm : name ∈ names
    · cases e : strats name with
      | none => exact ⟨id, rfl, fun _ s hs => by simp at hs⟩
      | some s =>
        rcases hs name hm s e with hp | ⟨ts, rfl, hts⟩
        · exact ⟨id, rfl, fun _ s' hs' => by rw [Option.some.injEq] at hs'; subst hs'; exact .inl ⟨hp, rfl⟩⟩
        · obtain ⟨Φ, h1, h2, -⟩ := exactStepper_law h hts
          exact ⟨Φ^[lastRow ts + 1], iterate_fix h2 _, fun _ s' hs' => by rw [Option.some.injEq] at hs'; subst hs'; exact .inr ⟨ts, Φ, rfl, h1, rfl⟩⟩
    · exact ⟨id, rfl, fun h => absurd h hm⟩
  choose Ψ h1 h2 using hΨ
  obtain ⟨k', S', hc'⟩ := compose_chain Ψ names h2 hc hr
  refine ⟨k', S', ?_⟩
  have : names.foldl (fun ν n => Ψ n ν) μ = μ := by
    clear hr h2 hs hc'
    induction names with
    | nil => rfl
    | cons a as ih => rw [List.foldl_cons, h1, ih]
  rwa [this] at hc'

/-- **C94.** A sampler composed by the user: any dictionary of strategies, called in any order and any number of times, where every strategy called is either an exact stepper for `μ` (random walk, MALA, HMC with a
diagonal mass matrix, or flow proposals; any step counts, thinning, chain batches, buffers) or moves no chain (`UpdateState`, `TrainModel`, callables of the user that replace no
kernel and no log-density).  If the position of chain `i` has distribution `μ` at the start, it has distribution `μ` at the end — hence also between any two calls. -/
theorem C94_composition (k : Key) (h : IdealOn (Desc k) past sig P env) (r0 : String → Option (Resource ℝ D d M O)) (data : Data D) (μ : Measure (Pos ℝ d)) [IsProbabilityMeasure μ]
    (strats : String → Option (Strategy ℝ D d M O)) (names : List String) (hs : ∀ name ∈ names, ∀ s, strats name = some s → ExactStrategy (Desc k) P sig env r0 data μ s)
    (w w' : Ω → World ℝ D d M O) (hkey : ∀ ω, (w ω).key = k) (hres : ∀ ω, KeepsSamplers r0 (w ω).heap) (i : ℕ) (X : Ω → Pos ℝ d) (hX : ∀ ω, (w ω).xs[i]? = some (X ω))
    (hXm : Measurable[past] X) (hXl : P.map X = μ) (hr : ∀ ω, Completes (env ω) strats data names (w ω) (w' ω)) :
    ∃ Y : Ω → Pos ℝ d, (∀ ω, (w' ω).xs[i]? = some (Y ω)) ∧ Measurable Y ∧ P.map Y = μ := by
  obtain ⟨k', S', hc⟩ := exact_chain k h r0 data μ strats names hs w w' hkey hres i X hX hXm hXl hr
  obtain ⟨Y, h1, h2, h3⟩ := hc.law
  exact ⟨Y, h1, h2.mono (h.info_le _) le_rfl, h3⟩

/-- **C94 (recorded).** In such a sampler, every row that an exact stepper records after any number of other calls has distribution `μ`. -/
theorem C94_recorded (k : Key) (h : IdealOn (Desc k) past sig P env) (r0 : String → Option (Resource ℝ D d M O)) (data : Data D) (μ : Measure (Pos ℝ d)) [IsProbabilityMeasure μ]
    (strats : String → Option (Strategy ℝ D d M O)) (names : List String) (hs : ∀ name ∈ names, ∀ s, strats name = some s → ExactStrategy (Desc k) P sig env r0 data μ s)
    (w w' w'' : Ω → World ℝ D d M O) (hkey : ∀ ω, (w ω).key = k) (hres : ∀ ω, KeepsSamplers r0 (w ω).heap) (i : ℕ) (X : Ω → Pos ℝ d) (hX : ∀ ω, (w ω).xs[i]? = some (X ω))
    (hXm : Measurable[past] X) (hXl : P.map X = μ) (hr : ∀ ω, Completes (env ω) strats data names (w ω) (w' ω))
    (name : String) (s : TakeSteps) (hname : strats name = some (.takeSteps s)) (hstep : ExactStepper (Desc k) P sig env r0 data μ s) (hn : 0 < s.nSteps)
    (hcall : ∀ ω, Completes (env ω) strats data [name] (w' ω) (w'' ω)) (n cap cur : ℕ) (hw : ∀ ω, (w' ω).xs.length = n) (Pn L A : String) (bP bL bA : Ω → Buffer ℝ)
    (hpt : ∀ ω, PointsAt (w' ω).heap s Pn L A) (hrec : ∀ ω, Recorders (w' ω).heap n cap Pn L A (bP ω) (bL ω) (bA ω)) (hcur : ∀ ω, (w' ω).heap.pos s.ident = cur)
    (hfit : cur + ceilDiv' s.nSteps s.thinning ≤ cap) (j : ℕ) (hj : j < ceilDiv' s.nSteps s.thinning) :
    ∃ Y : Ω → Pos ℝ d, Measurable Y ∧ P.map Y = μ ∧ ∀ ω, ∃ b, (w'' ω).heap.res Pn = some (.buffer b) ∧ ∀ a : Fin d, b.data.get [i, cur + j, a] = Y ω a := by
  obtain ⟨k', S', hc⟩ := exact_chain k h r0 data μ strats names hs w w' hkey hres i X hX hXm hXl hr
  obtain ⟨Φ, h1, h2, -⟩ := exactStepper_law h hstep
  have hrun : ∀ ω, s.run (env ω) (w' ω).key (w' ω).xs data (w' ω).heap = (.ok ((w'' ω).key, (w'' ω).xs), (w'' ω).heap) := by
    intro ω
    obtain ⟨s', k1, x1, hp1, e, r, rest⟩ := completes_cons.1 (hcall ω)
    rw [hname, Option.some.injEq] at e
    subst e
    rw [completes_nil] at rest
    rw [rest]
    exact r
  obtain ⟨Y, hY, hYl, hcell⟩ := stepper_records hc s Φ h1 w'' hrun n cap cur hn hw Pn L A bP bL bA hpt hrec hcur hfit j hj
  exact ⟨Y, hY.mono (h.info_le _) le_rfl, by rw [hYl, iterate_fix h2], hcell⟩

/-! ### convergence of composed samplers -/

/-- A flow stepper whose flow covers the target up to the factor `C`, counted with the flow proposals behind the position it hands on. -/
def Spec.CoveringStepper (env : Ω → Env ℝ D d M O) (r0 : String → Option (Resource ℝ D d M O)) (data : Data D) (C : ℝ) (s : TakeSteps) : Prop :=
  s.kind = .group ∧ ∀ lr t m b, r0 s.logpdfName = some lr → lr.target? = some t → r0 s.kernelName = some (.kernel (.nf m b)) →
    ∀ ω x, density (fun x => t.val x data) x ≤ C * density ((env ω).ops.logProb m) x

theorem coveringStepper_law {k : Key} (h : IdealOn (Desc k) past sig P env) {r0 : String → Option (Resource ℝ D d M O)} {data : Data D} {μ : Measure (Pos ℝ d)} [IsProbabilityMeasure μ] {s : TakeSteps}
    (hs : ExactStepper (Desc k) P sig env r0 data μ s) {C : ℝ} (hC : 1 ≤ C) (hcov : CoveringStepper env r0 data C s) : ∃ Φ, StepperLaw (Desc k) past sig P env r0 data s Φ ∧
      ∀ ν ε, IsProbabilityMeasure ν → IsProbabilityMeasure (Φ ν) ∧ (Near ν μ ε → Near (Φ ν) μ ((1 - 1 / C) * ε)) := by
  obtain ⟨lr, t, hlr, ht, hm, hg, hμ, ⟨hk, kr, hkr, hx⟩ | ⟨hk, hn, m, b, q, lnf, hb, hkr, hq, hl, hf⟩⟩ := hs
  · rw [hcov.1] at hk; cases hk
  · obtain ⟨hfin, rfl⟩ := samplesFrom_normalised μ _ hm hμ
    obtain ⟨ω0⟩ : Nonempty Ω := P.nonempty_of_neZero
    have hc := hcov.2 lr t m b hlr ht hkr ω0
    rw [hf.logProb ω0] at hc
    exact ⟨_, group_stepperLaw h r0 data s hk m b hb hkr lr hlr t ht hn hm q lnf hl hf, fun ν ε hν => flow_contract t data hm lnf hl q hf.density hfin C hC hc ν ε hν⟩

theorem iterate_contract {Φ : Measure (Pos ℝ d) → Measure (Pos ℝ d)} {μ : Measure (Pos ℝ d)} {ρ : ℝ} (hΦ : ∀ ν ε, IsProbabilityMeasure ν → IsProbabilityMeasure (Φ ν) ∧ (Near ν μ ε → Near (Φ ν) μ (ρ * ε)))
    (n : ℕ) (ν : Measure (Pos ℝ d)) (ε : ℝ) (hν : IsProbabilityMeasure ν) : IsProbabilityMeasure (Φ^[n] ν) ∧ (Near ν μ ε → Near (Φ^[n] ν) μ (ρ ^ n * ε)) := by
  induction n generalizing ν ε with
  | zero => exact ⟨hν, fun h => by simpa using h⟩
  | succ n ih =>
    rw [Function.iterate_succ_apply]
    obtain ⟨h1, h2⟩ := hΦ ν ε hν
    obtain ⟨h3, h4⟩ := ih (Φ ν) (ρ * ε) h1
    exact ⟨h3, fun h => by have := h4 (h2 h); rwa [← mul_assoc, ← pow_succ] at this⟩

/-- **C94 (convergence).** The same sampler started anywhere (any random start of chain `i` that is independent of the draws).  Let `flow name` be at most the number of flow proposals behind the position that the
strategy `name` hands on, and `0` unless it is a stepper whose flow covers the target up to the factor `C`.  Then, whatever the order of the calls and whatever the other exact steppers are, the position of
chain `i` at the end has distribution `μ` up to `(1 - 1/C)` to the total number of those proposals. -/
theorem C94_converges (k : Key) (h : IdealOn (Desc k) past sig P env) (r0 : String → Option (Resource ℝ D d M O)) (data : Data D) (μ : Measure (Pos ℝ d)) [IsProbabilityMeasure μ]
    (strats : String → Option (Strategy ℝ D d M O)) (names : List String) (hs : ∀ name ∈ names, ∀ s, strats name = some s → ExactStrategy (Desc k) P sig env r0 data μ s)
    (C : ℝ) (hC : 1 ≤ C) (flow : String → ℕ)
    (hflow : ∀ name ∈ names, ∀ s, strats name = some s → flow name = 0 ∨ ∃ ts, s = .takeSteps ts ∧ CoveringStepper env r0 data C ts ∧ flow name ≤ (ts.nSteps - 1) / ts.thinning * ts.thinning + 1)
    (w w' : Ω → World ℝ D d M O) (hkey : ∀ ω, (w ω).key = k) (hres : ∀ ω, KeepsSamplers r0 (w ω).heap) (i : ℕ) (X : Ω → Pos ℝ d) (hX : ∀ ω, (w ω).xs[i]? = some (X ω))
    (hXm : Measurable[past] X) (hr : ∀ ω, Completes (env ω) strats data names (w ω) (w' ω)) :
    ∃ Y : Ω → Pos ℝ d, (∀ ω, (w' ω).xs[i]? = some (Y ω)) ∧ Measurable Y ∧ CloseInLaw P Y μ ((1 - 1 / C) ^ (names.map flow).sum) := by
  have hρ0 : 0 ≤ 1 - 1 / C := by
    have : 1 / C ≤ 1 := by rw [div_le_one (by linarith)]; exact hC
    linarith
  have hρ1 : 1 - 1 / C ≤ 1 := by have : 0 ≤ 1 / C := by positivity
                                 linarith
  have hXm' : Measurable[mΩ] X := hXm.mono (le_trans (past_le_info (past := past) (sig := sig) (S := {none}) (by simp)) (h.info_le _)) le_rfl
  haveI : IsProbabilityMeasure (P.map X) := Measure.isProbabilityMeasure_map hXm'.aemeasurable
  have hc : ChainKnown past sig P r0 i k k {none} (P.map X) w := ⟨.refl, by rw [Set.disjoint_left]; rintro o ho ⟨a, rfl, _⟩; simp at ho, hkey, hres,
    X, hX, hXm.mono (past_le_info (by simp)) le_rfl, rfl⟩
  have hΨ : ∀ name, ∃ Ψ : Measure (Pos ℝ d) → Measure (Pos ℝ d), (name ∈ names → (∀ ν ε, IsProbabilityMeasure ν → IsProbabilityMeasure (Ψ ν) ∧ (0 ≤ ε → Near ν μ ε → Near (Ψ ν) μ ((1 - 1 / C) ^ flow name * ε))) ∨ strats name = none) ∧
      (name ∈ names → ∀ s, strats name = some s → ActsBy (Desc k) past sig P env r0 data s Ψ) := by
    intro name
    by_cases hm : name ∈ names
    · cases e : strats name with
      | none => exact ⟨id, fun _ => .inr rfl, fun _ s hs => by simp at hs⟩
      | some s =>
        rcases hs name hm s e with hp | ⟨ts, rfl, hts⟩
        · refine ⟨id, fun _ => .inl fun ν ε hν => ⟨hν, fun _ hn => ?_⟩, fun _ s' hs' => by rw [Option.some.injEq] at hs'; subst hs'; exact .inl ⟨hp, rfl⟩⟩
          rcases hflow name hm s e with h0 | ⟨ts, rfl, -⟩
          · rw [h0]; simpa using hn
          · exact hp.elim
        · rcases hflow name hm _ e with h0 | ⟨ts', ets, hcv, hle⟩
          · obtain ⟨Φ, h1, -, h2⟩ := exactStepper_law h hts
            refine ⟨Φ^[lastRow ts + 1], fun _ => .inl fun ν ε hν => ?_, fun _ s' hs' => by rw [Option.some.injEq] at hs'; subst hs'; exact .inr ⟨ts, Φ, rfl, h1, rfl⟩⟩
            have := iterate_contract (ρ := 1) (fun ν ε hν => by rw [one_mul]; exact h2 ν ε hν) (lastRow ts + 1) ν ε hν
            rw [h0]
            refine ⟨this.1, fun _ hn => ?_⟩
            simpa using this.2 hn
          · cases ets
            obtain ⟨Φ, h1, h2⟩ := coveringStepper_law h hts hC hcv
            refine ⟨Φ^[lastRow ts + 1], fun _ => .inl fun ν ε hν => ?_, fun _ s' hs' => by rw [Option.some.injEq] at hs'; subst hs'; exact .inr ⟨ts, Φ, rfl, h1, rfl⟩⟩
            have := iterate_contract h2 (lastRow ts + 1) ν ε hν
            refine ⟨this.1, fun hε hn => (this.2 hn).mono (mul_le_mul_of_nonneg_right (pow_le_pow_of_le_one hρ0 hρ1 ?_) hε)⟩
            refine hle.trans ?_
            unfold lastRow ceilDiv'
            refine Nat.add_le_add_right (Nat.mul_le_mul_right _ ?_) 1
            rcases Nat.eq_zero_or_pos ts.thinning with ht | ht
            · simp [ht]
            · rcases Nat.eq_zero_or_pos ts.nSteps with hn0 | hn0
              · simp [hn0]
              · rw [show ts.nSteps + ts.thinning - 1 = ts.nSteps - 1 + ts.thinning by omega, Nat.add_div_right _ ht]; omega
    · exact ⟨id, fun h => absurd h hm, fun h => absurd h hm⟩
  choose Ψ h1 h2 using hΨ
  obtain ⟨k', S', hc'⟩ := compose_chain Ψ names h2 hc hr
  obtain ⟨Y, hY, hYm, hYl⟩ := hc'.law
  refine ⟨Y, hY, hYm.mono (h.info_le _) le_rfl, closeInLaw_of_near (hYm.mono (h.info_le _) le_rfl) ?_⟩
  rw [hYl]
  have hnn : ∀ name ∈ names, strats name ≠ none := by
    obtain ⟨ω0⟩ : Nonempty Ω := P.nonempty_of_neZero
    have := hr ω0
    clear hr h2 h1 hs hflow hc' hYl
    generalize w ω0 = a at this
    induction names generalizing a with
    | nil => simp
    | cons b bs ih =>
      obtain ⟨s', k1, x1, hp1, e, r, rest⟩ := completes_cons.1 this
      intro n hn
      rcases List.mem_cons.1 hn with rfl | hn
      · rw [e]; simp
      · exact ih _ rest n hn
  have h3 : ∀ name ∈ names, ∀ ν ε, IsProbabilityMeasure ν → IsProbabilityMeasure (Ψ name ν) ∧ (0 ≤ ε → Near ν μ ε → Near (Ψ name ν) μ ((1 - 1 / C) ^ flow name * ε)) :=
    fun name hn => (h1 name hn).resolve_right (hnn name hn)
  have h4 : ∀ (names : List String), (∀ name ∈ names, ∀ ν ε, IsProbabilityMeasure ν → IsProbabilityMeasure (Ψ name ν) ∧ (0 ≤ ε → Near ν μ ε → Near (Ψ name ν) μ ((1 - 1 / C) ^ flow name * ε))) →
      ∀ ν ε, IsProbabilityMeasure ν → 0 ≤ ε → Near ν μ ε → Near (names.foldl (fun ν n => Ψ n ν) ν) μ ((1 - 1 / C) ^ (names.map flow).sum * ε) := by
    intro names
    induction names with
    | nil => intro _ ν ε _ _ hn; simpa using hn
    | cons a as ih =>
      intro hall ν ε hν hε hn
      obtain ⟨g1, g2⟩ := hall a List.mem_cons_self ν ε hν
      have := ih (fun n hn => hall n (List.mem_cons_of_mem _ hn)) (Ψ a ν) _ g1 (by positivity) (g2 hε hn)
      rw [List.foldl_cons, List.map_cons, List.sum_cons, pow_add, mul_comm ((1 - 1 / C) ^ flow a), mul_assoc]
      exact this
  have := h4 names h3 (P.map X) 1 inferInstance zero_le_one (near_one _ _)
  rwa [mul_one] at this

end FlowMC
