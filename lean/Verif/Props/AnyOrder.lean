import Verif.Lemmas.AnyOrder
import Verif.Props.Compose
/-
C97: whatever the order of the calls, a sampler that keeps using a mixing stepper reaches the target.
-/
open MeasureTheory ProbabilityTheory Filter
open scoped ENNReal Topology
set_option linter.unusedSectionVars false
namespace FlowMC
open Spec

section
variable {d : ℕ} {lp : (Fin d → ℝ) → ℝ} {N : Type} [MeasurableSpace N] {ν₀ : Measure N} [IsProbabilityMeasure ν₀] {step : N × ℝ → (Fin d → ℝ) → (Fin d → ℝ)} {g : (Fin d → ℝ) × N → (Fin d → ℝ)}
  {r : (Fin d → ℝ) × N → ℝ}

/-- A Metropolis–Hastings step whose proposals can reach everything forgets where it started. -/
theorem MHData.overlaps (h : MHData lp ν₀ step g r) (hm : Measurable lp) (hfin : targetMeasure lp Set.univ ≠ ∞) : Overlaps (normalised (targetMeasure lp)) (stepLaw (ν₀.prod unif) step) := by
  haveI := normalised_isProb lp hm hfin
  refine stepLaw_overlaps (ν₀.prod unif) step h.meas ?_
  have := mh_pairs h.gm h.acc h.alpha (fun z => C21_accept_probability (r z)) (ae_of_all _ fun x => (h.equiv hm hfin x).2)
  rwa [← h.step_eq] at this

theorem MHData.stay_lt (h : MHData lp ν₀ step g r) (hm : Measurable lp) (hfin : targetMeasure lp Set.univ ≠ ∞) :
    ∃ s : (Fin d → ℝ) → ℝ≥0∞, Measurable s ∧ (∀ x, s x < 1) ∧ StayOrMove (normalised (targetMeasure lp)) (stepLaw (ν₀.prod unif) step) s := by
  haveI := normalised_isProb lp hm hfin
  have h3 := mh_stayOrMove h.gm h.acc h.alpha (fun z => C21_accept_probability (r z)) (fun x => (h.equiv hm hfin x).1)
  rw [← h.step_eq] at h3
  refine ⟨_, mhReject_measurable (ν₀ := ν₀) h.acc, fun x => mhReject_lt h.acc h.alpha (fun z => C21_accept_probability (r z)) x fun h0 => ?_, h3⟩
  have hgm := h.gm
  have hgx : Measurable fun n => g (x, n) := by fun_prop
  have : normalised (targetMeasure lp) Set.univ = 0 := (h.equiv hm hfin x).2 (by
    rw [Measure.map_apply hgx MeasurableSet.univ, Set.preimage_univ, withDensity_apply _ MeasurableSet.univ, setLIntegral_univ]; exact h0)
  simp at this

end

variable {Ω D M O : Type} {d : ℕ}
variable {past : MeasurableSpace Ω} {sig : Key → MeasurableSpace Ω} [mΩ : MeasurableSpace Ω] {P : Measure Ω} [IsProbabilityMeasure P] {env : Ω → Env ℝ D d M O} [BufNum ℝ]

/-- The steppers whose steps can move from anywhere to anywhere: a random walk or MALA with a non-zero step size, HMC with short trajectories, or flow proposals. -/
def Spec.MixingStepper (r0 : String → Option (Resource ℝ D d M O)) (data : Data D) (s : TakeSteps) : Prop :=
  s.kind = .group ∨ ∃ kr lr t, r0 s.kernelName = some (.kernel kr) ∧ r0 s.logpdfName = some lr ∧ lr.target? = some t ∧ MixingSettings (fun x => t.grad x data) kr

theorem local_mix (kr : KernelRes ℝ d M) (t : Target ℝ D d) (data : Data D) (hk : MixingSettings (fun x => t.grad x data) kr) (ht : Measurable (fun x => t.val x data)) (hg : Measurable (fun x => t.grad x data))
    (hfin : targetMeasure (fun x => t.val x data) Set.univ ≠ ∞) : Overlaps (normalised (targetMeasure fun x => t.val x data)) (stepLaw (noise d) (localStep kr t data)) ∧
      ∃ s : Pos ℝ d → ℝ≥0∞, Measurable s ∧ (∀ x, s x < 1) ∧ StayOrMove (normalised (targetMeasure fun x => t.val x data)) (stepLaw (noise d) (localStep kr t data)) s := by
  cases kr with
  | grw s => exact ⟨(grw_mhData s hk t data ht).overlaps ht hfin, (grw_mhData s hk t data ht).stay_lt ht hfin⟩
  | mala s => exact ⟨(mala_mhData s hk t data ht hg).overlaps ht hfin, (mala_mhData s hk t data ht hg).stay_lt ht hfin⟩
  | hmc s n m L => exact ⟨(hmc_mhData s n m L hk.1 hk.2.1 t data hk.2.2 ht hg).overlaps ht hfin, (hmc_mhData s n m L hk.1 hk.2.1 t data hk.2.2 ht hg).stay_lt ht hfin⟩
  | nf _ _ => exact hk.elim

/-- Everything that is needed about one exact stepper. -/
theorem exactStepper_full {k : Key} (h : IdealOn (Desc k) past sig P env) {r0 : String → Option (Resource ℝ D d M O)} {data : Data D} {μ : Measure (Pos ℝ d)} [IsProbabilityMeasure μ] {s : TakeSteps}
    (hs : ExactStepper (Desc k) P sig env r0 data μ s) : ∃ Φ, StepperLaw (Desc k) past sig P env r0 data s Φ ∧ ExactMap μ Φ ∧ (volume : Measure (Pos ℝ d)) ≪ μ ∧
      (∀ ν ε, IsProbabilityMeasure ν → IsProbabilityMeasure (Φ ν) ∧ (Near ν μ ε → Near (Φ ν) μ ε)) ∧
      (MixingStepper r0 data s → Overlaps μ Φ ∧ ∃ r : Pos ℝ d → ℝ≥0∞, Measurable r ∧ (∀ x, r x < 1) ∧ StayOrMove μ Φ r) := by
  obtain ⟨lr, t, hlr, ht, hm, hg, hμ, ⟨hk, kr, hkr, hx⟩ | ⟨hk, hn, m, b, q, lnf, hb, hkr, hq, hl, hf⟩⟩ := hs
  · obtain ⟨hfin, rfl⟩ := samplesFrom_normalised μ _ hm hμ
    haveI : IsProbabilityMeasure (noise d) := by unfold noise; infer_instance
    haveI : SFinite (targetMeasure fun x => t.val x data) := by unfold targetMeasure; infer_instance
    have hr := (localStep_reversible kr hx t data hm hg).smul (targetMeasure (fun x => t.val x data) Set.univ)⁻¹
    have hmeas := localStep_measurable kr t data hm hg
    have hinv : stepLaw (noise d) (localStep kr t data) (normalised (targetMeasure fun x => t.val x data)) = normalised (targetMeasure fun x => t.val x data) := hr.invariant hmeas
    refine ⟨_, serial_stepperLaw h r0 data s hk kr hx hkr lr hlr t ht hm hg, stepLaw_exact _ _ hmeas hinv, volume_ac_normalised _ hm hfin,
      fun ν ε hν => local_nonexpand kr hx t data hm hg hfin ν ε hν, fun hmix => ?_⟩
    rcases hmix with h0 | ⟨kr', lr', t', e, e1, e2, hmx⟩
    · rw [hk] at h0; cases h0
    · rw [hkr] at e
      simp only [Option.some.injEq, Resource.kernel.injEq] at e
      subst e
      obtain rfl : lr = lr' := Option.some.inj (hlr.symm.trans e1)
      obtain rfl : t = t' := Option.some.inj (ht.symm.trans e2)
      exact local_mix kr t data hmx hm hg hfin
  · obtain ⟨hfin, rfl⟩ := samplesFrom_normalised μ _ hm hμ
    have hd := flow_mhData t data hm lnf hl q hf.density
    have hinv : stepLaw (q.prod unif) (flowStep t data lnf) (normalised (targetMeasure fun x => t.val x data)) = normalised (targetMeasure fun x => t.val x data) := hd.reversible.invariant hd.meas
    exact ⟨_, group_stepperLaw h r0 data s hk m b hb hkr lr hlr t ht hn hm q lnf hl hf, stepLaw_exact _ _ hd.meas hinv, volume_ac_normalised _ hm hfin, fun ν ε hν =>
      ⟨Measure.isProbabilityMeasure_map hd.meas.aemeasurable, fun hn => near_step hn hd.meas hinv⟩, fun _ => ⟨hd.overlaps hm hfin, hd.stay_lt hm hfin⟩⟩

theorem ExactMap.ac {X : Type} [MeasurableSpace X] {π : Measure X} [IsProbabilityMeasure π] {Q : Measure X → Measure X} (h : ExactMap π Q) (u : Measure X) (hu : IsFiniteMeasure u) (hac : u ≪ π) : Q u ≪ π := by
  refine Measure.absolutelyContinuous_of_le_smul (h.bound ∞ u hu (Measure.le_iff.2 fun A _ => ?_))
  rw [Measure.smul_apply, smul_eq_mul]
  by_cases hA : π A = 0
  · rw [hac hA]; exact zero_le
  · rw [ENNReal.top_mul hA]; exact le_top

/-- The dictionary of a composed sampler, as transformations of the distribution of a chain. -/
theorem dictionary_maps {k : Key} (h : IdealOn (Desc k) past sig P env) (r0 : String → Option (Resource ℝ D d M O)) (data : Data D) (μ : Measure (Pos ℝ d)) [IsProbabilityMeasure μ]
    (strats : String → Option (Strategy ℝ D d M O)) (dict : List String) (hs : ∀ name ∈ dict, ∀ s, strats name = some s → ExactStrategy (Desc k) P sig env r0 data μ s) :
    ∃ Ψ : String → Measure (Pos ℝ d) → Measure (Pos ℝ d), ∀ name ∈ dict, ExactMap μ (Ψ name) ∧ (∀ s, strats name = some s → ActsBy (Desc k) past sig P env r0 data s (Ψ name)) ∧
      ((∀ ts, strats name ≠ some (.takeSteps ts)) → Ψ name = fun ν => ν) ∧
      ∀ ts, strats name = some (.takeSteps ts) → (volume : Measure (Pos ℝ d)) ≪ μ ∧
        (MixingStepper r0 data ts → Overlaps μ (Ψ name) ∧ ∃ r : Pos ℝ d → ℝ≥0∞, Measurable r ∧ (∀ x, r x < 1) ∧ StayOrMove μ (Ψ name) r) := by
  have each : ∀ name, ∃ Ψ : Measure (Pos ℝ d) → Measure (Pos ℝ d), name ∈ dict → ExactMap μ Ψ ∧ (∀ s, strats name = some s → ActsBy (Desc k) past sig P env r0 data s Ψ) ∧
      ((∀ ts, strats name ≠ some (.takeSteps ts)) → Ψ = fun ν => ν) ∧
      ∀ ts, strats name = some (.takeSteps ts) → (volume : Measure (Pos ℝ d)) ≪ μ ∧
        (MixingStepper r0 data ts → Overlaps μ Ψ ∧ ∃ r : Pos ℝ d → ℝ≥0∞, Measurable r ∧ (∀ x, r x < 1) ∧ StayOrMove μ Ψ r) := by
    intro name
    by_cases hn : name ∈ dict
    swap
    · exact ⟨fun ν => ν, fun h => absurd h hn⟩
    cases e : strats name with
    | none => exact ⟨fun ν => ν, fun _ => ⟨ExactMap.id, fun s hs => by simp at hs, fun _ => rfl, fun ts hts => by simp at hts⟩⟩
    | some s =>
      rcases hs name hn s e with hp | ⟨ts, rfl, hts⟩
      · refine ⟨fun ν => ν, fun _ => ⟨ExactMap.id, fun s' hs' => by rw [Option.some.injEq] at hs'; subst hs'; exact .inl ⟨hp, rfl⟩, fun _ => rfl, fun ts hts => ?_⟩⟩
        rw [Option.some.injEq] at hts
        subst hts
        exact hp.elim
      · obtain ⟨Φ, h1, h2, h3, -, h4⟩ := exactStepper_full h hts
        refine ⟨Φ^[lastRow ts + 1], fun _ => ⟨h2.iterate _, fun s' hs' => by rw [Option.some.injEq] at hs'; subst hs'; exact .inr ⟨ts, Φ, rfl, h1, rfl⟩, fun hne => absurd rfl (hne ts), fun ts' hts' => ?_⟩⟩
        simp only [Option.some.injEq, Strategy.takeSteps.injEq] at hts'
        subst hts'
        refine ⟨h3, fun hmix => ?_⟩
        obtain ⟨g1, r, g2, g3, g4⟩ := h4 hmix
        exact ⟨g1.iterate h2 _, fun x => r x ^ (lastRow ts + 1), g2.pow_const _, fun x => pow_lt_one₀ zero_le (g3 x) (by omega), stay_iterate g2 (fun x => (g3 x).le) h2.mass h2.ac g4 _⟩
  choose Ψ hΨ using each
  exact ⟨Ψ, fun name hn => hΨ name hn⟩

/-- The position of chain `i` at the end of a composed run. -/
theorem order_close {k : Key} (h : IdealOn (Desc k) past sig P env) {r0 : String → Option (Resource ℝ D d M O)} {data : Data D}
    {strats : String → Option (Strategy ℝ D d M O)} {names : List String} {Ψ : String → Measure (Pos ℝ d) → Measure (Pos ℝ d)}
    (hΨ : ∀ name ∈ names, ∀ s, strats name = some s → ActsBy (Desc k) past sig P env r0 data s (Ψ name)) {X : Ω → Pos ℝ d} (hXm : Measurable[past] X)
    {w w' : Ω → World ℝ D d M O} (hkey : ∀ ω, (w ω).key = k) (hres : ∀ ω, KeepsSamplers r0 (w ω).heap) {i : ℕ} (hX : ∀ ω, (w ω).xs[i]? = some (X ω))
    (hr : ∀ ω, Completes (env ω) strats data names (w ω) (w' ω)) :
    ∃ k' S', ChainKnown past sig P r0 i k k' S' (names.foldl (fun ν n => Ψ n ν) (P.map X)) w' := by
  have hc : ChainKnown past sig P r0 i k k {none} (P.map X) w := ⟨.refl, by rw [Set.disjoint_left]; rintro o ho ⟨a, rfl, _⟩; simp at ho, hkey, hres, X, hX, hXm.mono (past_le_info (by simp)) le_rfl, rfl⟩
  exact compose_chain Ψ names hΨ hc hr

/-- What a composed sampler has to achieve: with at least `N` calls of mixing steppers, in whatever order and between whatever other calls of the dictionary, the position of a chain has distribution `μ` up to
`ε`, and so has every row recorded afterwards. -/
def Spec.ReachesIn (env : Ω → Env ℝ D d M O) (P : Measure Ω) (r0 : String → Option (Resource ℝ D d M O)) (data : Data D) (μ : Measure (Pos ℝ d)) (strats : String → Option (Strategy ℝ D d M O))
    (dict : List String) (mix : String → Bool) (k : Key) (X : Ω → Pos ℝ d) (ε : ℝ) (N : ℕ) : Prop :=
  ∀ names : List String, (∀ n ∈ names, n ∈ dict) → N ≤ names.countP mix → ∀ (w w' : Ω → World ℝ D d M O) (i : ℕ), (∀ ω, (w ω).key = k) → (∀ ω, KeepsSamplers r0 (w ω).heap) →
    (∀ ω, (w ω).xs[i]? = some (X ω)) → (∀ ω, Completes (env ω) strats data names (w ω) (w' ω)) →
    (∃ Y : Ω → Pos ℝ d, (∀ ω, (w' ω).xs[i]? = some (Y ω)) ∧ Measurable Y ∧ CloseInLaw P Y μ ε) ∧
    ∀ name ∈ dict, ∀ s, strats name = some (.takeSteps s) → 0 < s.nSteps → ∀ (w'' : Ω → World ℝ D d M O), (∀ ω, Completes (env ω) strats data [name] (w' ω) (w'' ω)) →
      ∀ (n cap cur : ℕ), (∀ ω, (w' ω).xs.length = n) → ∀ (Pn L A : String) (bP bL bA : Ω → Buffer ℝ), (∀ ω, PointsAt (w' ω).heap s Pn L A) →
      (∀ ω, Recorders (w' ω).heap n cap Pn L A (bP ω) (bL ω) (bA ω)) → (∀ ω, (w' ω).heap.pos s.ident = cur) → cur + ceilDiv' s.nSteps s.thinning ≤ cap →
      ∀ j < ceilDiv' s.nSteps s.thinning, ∃ Y : Ω → Pos ℝ d, Measurable Y ∧ CloseInLaw P Y μ ε ∧ ∀ ω, ∃ b, (w'' ω).heap.res Pn = some (.buffer b) ∧ ∀ a : Fin d, b.data.get [i, cur + j, a] = Y ω a

theorem reaches_of_maps {k : Key} (h : IdealOn (Desc k) past sig P env) {r0 : String → Option (Resource ℝ D d M O)} {data : Data D} {μ : Measure (Pos ℝ d)} [IsProbabilityMeasure μ]
    {strats : String → Option (Strategy ℝ D d M O)} {dict : List String} (hs : ∀ name ∈ dict, ∀ s, strats name = some s → ExactStrategy (Desc k) P sig env r0 data μ s)
    {Ψ : String → Measure (Pos ℝ d) → Measure (Pos ℝ d)} (hE : ∀ name ∈ dict, ExactMap μ (Ψ name)) (hΨ : ∀ name ∈ dict, ∀ s, strats name = some s → ActsBy (Desc k) past sig P env r0 data s (Ψ name))
    {X : Ω → Pos ℝ d} (hXm : Measurable[past] X) {mix : String → Bool} {ε : ℝ} {N : ℕ}
    (hN : ∀ names : List String, (∀ n ∈ names, n ∈ dict) → N ≤ names.countP mix → ∀ A, |(names.foldl (fun ν n => Ψ n ν) (P.map X)).real A - μ.real A| ≤ ε) :
    ReachesIn env P r0 data μ strats dict mix k X ε N := by
  intro names hsub hcount w w' i hkey hres hX hr
  obtain ⟨k', S', hc⟩ := order_close h (fun name hn => hΨ name (hsub name hn)) hXm hkey hres hX hr
  have near : Near (names.foldl (fun ν n => Ψ n ν) (P.map X)) μ ε := fun A _ => hN names hsub hcount A
  obtain ⟨Y, hY, hYm, hYl⟩ := hc.law
  have hYm' : Measurable[mΩ] Y := hYm.mono (h.info_le _) le_rfl
  refine ⟨⟨Y, hY, hYm', closeInLaw_of_near hYm' (by rw [hYl]; exact near)⟩, ?_⟩
  intro name hname s hsn hn w'' hcall n cap cur hw Pn L A bP bL bA hpt hrec hcur hfit j hj
  obtain ⟨ts, e, hts⟩ : ∃ ts, Strategy.takeSteps s = .takeSteps ts ∧ ExactStepper (Desc k) P sig env r0 data μ ts := by
    rcases hs name hname _ hsn with hp | hts
    · exact hp.elim
    · exact hts
  cases e
  obtain ⟨Φ, h1, -, -, h2, -⟩ := exactStepper_full h hts
  have hrun : ∀ ω, s.run (env ω) (w' ω).key (w' ω).xs data (w' ω).heap = (.ok ((w'' ω).key, (w'' ω).xs), (w'' ω).heap) := by
    intro ω
    obtain ⟨s', k1, x1, hp1, e, r, rest⟩ := completes_cons.1 (hcall ω)
    rw [hsn, Option.some.injEq] at e
    subst e
    rw [completes_nil] at rest
    rw [rest]
    exact r
  obtain ⟨Z, hZ, hZl, hcell⟩ := stepper_records hc s Φ h1 w'' hrun n cap cur hn hw Pn L A bP bL bA hpt hrec hcur hfit j hj
  have hZm : Measurable[mΩ] Z := hZ.mono (h.info_le _) le_rfl
  haveI : IsProbabilityMeasure (names.foldl (fun ν n => Ψ n ν) (P.map X)) := by rw [← hYl]; exact Measure.isProbabilityMeasure_map hYm'.aemeasurable
  have := (iterate_contract (ρ := 1) (fun ν ε hν => by rw [one_mul]; exact h2 ν ε hν) (j * s.thinning + 1) _ ε inferInstance).2 near
  rw [one_pow, one_mul] at this
  exact ⟨Z, hZm, closeInLaw_of_near hZm (by rw [hZl]; exact this), hcell⟩

/-- **C97 (any order).** A sampler composed by the user of exact steppers for `μ` — random walks, MALA, HMC with a diagonal mass matrix, flow proposals — and strategies that move no chain.  `mix` marks steppers
with a random walk, MALA, HMC with short trajectories or flow proposals.  If the start of chain `i` has a density, then for every `ε` there is `N` such that in whatever order the strategies of the dictionary are called, once the marked ones have been
called `N` times altogether, the position of the chain and all rows recorded afterwards have distribution `μ` up to `ε`. -/
theorem C97_any_order (k : Key) (h : IdealOn (Desc k) past sig P env) (r0 : String → Option (Resource ℝ D d M O)) (data : Data D) (μ : Measure (Pos ℝ d)) [IsProbabilityMeasure μ]
    (strats : String → Option (Strategy ℝ D d M O)) (dict : List String) (hs : ∀ name ∈ dict, ∀ s, strats name = some s → ExactStrategy (Desc k) P sig env r0 data μ s)
    (mix : String → Bool) (hmix : ∀ name ∈ dict, mix name = true → ∃ ts, strats name = some (.takeSteps ts) ∧ MixingStepper r0 data ts)
    (X : Ω → Pos ℝ d) (hXm : Measurable[past] X) (hXd : P.map X ≪ volume) (ε : ℝ) (hε : 0 < ε) :
    ∃ N, ReachesIn env P r0 data μ strats dict mix k X ε N := by
  by_cases hne : ∃ name ∈ dict, mix name = true
  swap
  · refine ⟨1, fun names hsub hcount => ?_⟩
    have : names.countP mix = 0 := List.countP_eq_zero.2 fun n hn hmn => hne ⟨n, hsub n hn, hmn⟩
    omega
  obtain ⟨name0, hn0, hm0⟩ := hne
  obtain ⟨ts0, ht0, -⟩ := hmix name0 hn0 hm0
  have hXm' : Measurable[mΩ] X := hXm.mono (le_trans (past_le_info (past := past) (sig := sig) (S := {none}) (by simp)) (h.info_le _)) le_rfl
  haveI : IsProbabilityMeasure (P.map X) := Measure.isProbabilityMeasure_map hXm'.aemeasurable
  obtain ⟨Ψ, hΨ⟩ := dictionary_maps h r0 data μ strats dict hs
  have hac : P.map X ≪ μ := hXd.trans ((hΨ name0 hn0).2.2.2 ts0 ht0).1
  obtain ⟨N, hN⟩ := order_splits dict Ψ mix (fun n hn => (hΨ n hn).1) (fun n hn hm => by
    obtain ⟨ts, ht, hmx⟩ := hmix n hn hm
    exact (((hΨ n hn).2.2.2 ts ht).2 hmx).1) (P.map X) (P.map X) 0 inferInstance inferInstance (by simp) hac ε hε (by simp)
  exact ⟨N, reaches_of_maps h hs (fun n hn => (hΨ n hn).1) (fun n hn => (hΨ n hn).2.1) hXm hN⟩

/-- **C97 (any start).** If all steppers of the dictionary are random walks, MALA, HMC with short trajectories or flow proposals (the marked ones), the same holds from every start. -/
theorem C97_any_start (k : Key) (h : IdealOn (Desc k) past sig P env) (r0 : String → Option (Resource ℝ D d M O)) (data : Data D) (μ : Measure (Pos ℝ d)) [IsProbabilityMeasure μ]
    (strats : String → Option (Strategy ℝ D d M O)) (dict : List String) (hs : ∀ name ∈ dict, ∀ s, strats name = some s → ExactStrategy (Desc k) P sig env r0 data μ s)
    (mix : String → Bool) (hmix : ∀ name ∈ dict, mix name = true → ∃ ts, strats name = some (.takeSteps ts) ∧ MixingStepper r0 data ts)
    (hrest : ∀ name ∈ dict, mix name = false → ∀ ts, strats name ≠ some (.takeSteps ts))
    (X : Ω → Pos ℝ d) (hXm : Measurable[past] X) (ε : ℝ) (hε : 0 < ε) :
    ∃ N, ReachesIn env P r0 data μ strats dict mix k X ε N := by
  have hXm' : Measurable[mΩ] X := hXm.mono (le_trans (past_le_info (past := past) (sig := sig) (S := {none}) (by simp)) (h.info_le _)) le_rfl
  haveI : IsProbabilityMeasure (P.map X) := Measure.isProbabilityMeasure_map hXm'.aemeasurable
  obtain ⟨Ψ, hΨ⟩ := dictionary_maps h r0 data μ strats dict hs
  have hrr : ∀ name, ∃ r : Pos ℝ d → ℝ≥0∞, Measurable r ∧ (∀ x, r x < 1) ∧ (name ∈ dict → mix name = true → StayOrMove μ (Ψ name) r) := by
    intro name
    by_cases hn : name ∈ dict
    · by_cases hm : mix name = true
      · obtain ⟨ts, ht, hmx⟩ := hmix name hn hm
        obtain ⟨-, r, h1, h2, h3⟩ := ((hΨ name hn).2.2.2 ts ht).2 hmx
        exact ⟨r, h1, h2, fun _ _ => h3⟩
      · exact ⟨fun _ => 0, measurable_const, fun _ => one_pos, fun _ h => absurd h hm⟩
    · exact ⟨fun _ => 0, measurable_const, fun _ => one_pos, fun h => absurd h hn⟩
  choose r r1 r2 r3 using hrr
  obtain ⟨N, hN⟩ := order_all dict Ψ mix (fun n hn => (hΨ n hn).1) (fun n hn hm => by
    obtain ⟨ts, ht, hmx⟩ := hmix n hn hm
    exact (((hΨ n hn).2.2.2 ts ht).2 hmx).1) (fun n hn hm => (hΨ n hn).2.2.1 (hrest n hn hm)) r r1 r2 r3 (fun n hn => (hΨ n hn).1.ac) (P.map X) ε hε
  exact ⟨N, reaches_of_maps h hs (fun n hn => (hΨ n hn).1) (fun n hn => (hΨ n hn).2.1) hXm hN⟩

end FlowMC
