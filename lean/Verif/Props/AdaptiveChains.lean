import Verif.Lemmas.Fresh
import Verif.Props.Learning
/-
C89: the chains of an adaptive run give jointly independent samples.
-/
open MeasureTheory ProbabilityTheory Filter
open scoped ENNReal Topology
set_option linter.unusedSectionVars false
namespace FlowMC
open Spec

/-- The keys used by chain `i` in the step strategies called from key `k` on. -/
def chainKeys (k : Key) (i : ℕ) (a : Key) : Prop := ∃ l, Desc (.child (.child (carryKey k l) 1) i) a

theorem chainKeys_desc {k : Key} {i : ℕ} {a : Key} (h : chainKeys k i a) : Desc k a := by
  obtain ⟨l, hl⟩ := h
  exact desc_trans (.child i (.child 1 (desc_carryKey k l))) hl

theorem chainKeys_closed (k : Key) (i : ℕ) (a : Key) (h : chainKeys k i a) (b : Key) (hb : Desc a b) : chainKeys k i b := by
  obtain ⟨l, hl⟩ := h
  exact ⟨l, desc_trans hl hb⟩

theorem chainKeys_disjoint (k : Key) {i j : ℕ} (hij : i ≠ j) (a : Key) : ¬ (chainKeys k i a ∧ chainKeys k j a) := by
  have apart : ∀ {l l' : ℕ} {i j : ℕ}, l < l' → ¬ (Desc (.child (.child (carryKey k l) 1) i) a ∧ Desc (.child (.child (carryKey k l') 1) j) a) := by
    rintro l l' i j hl ⟨h1, h2⟩
    have hd : Desc (.child (carryKey k l) 0) (carryKey k l') := by rw [← carryKey_succ]; exact desc_carryKey_le k hl
    exact children_disjoint (k := carryKey k l) (i := 1) (j := 0) (by decide) ⟨desc_trans (.child i .refl) h1, desc_trans hd (desc_trans (.child j (.child 1 .refl)) h2)⟩
  rintro ⟨⟨l, h1⟩, ⟨l', h2⟩⟩
  rcases Nat.lt_trichotomy l l' with h | rfl | h
  · exact apart h ⟨h1, h2⟩
  · exact children_disjoint hij ⟨h1, h2⟩
  · exact apart h ⟨h2, h1⟩

variable {Ω D M O V Z : Type} {d : ℕ}
variable {past : MeasurableSpace Ω} {sig : Key → MeasurableSpace Ω} [mΩ : MeasurableSpace Ω] {P : Measure Ω} [IsProbabilityMeasure P] {env : Ω → Env ℝ D d M O} {T : Key → Prop}
  [MeasurableSpace M] [MeasurableSpace Z] {ν : Measure Z} {push : M → Z → Pos ℝ d} {lnf : M → Pos ℝ d → ℝ} {G : Set M} [BufNum ℝ]

omit [BufNum ℝ] in
theorem past_le_outside (past : MeasurableSpace Ω) (sig : Key → MeasurableSpace Ω) (U : Key → Prop) : past ≤ outside past sig U := past_le_info (by simp)

omit [BufNum ℝ] in
theorem info_inside_le (past : MeasurableSpace Ω) (sig : Key → MeasurableSpace Ω) {U V : Key → Prop} (h : ∀ a, ¬ (U a ∧ V a)) (S : Set (Option Key)) : info past (inside sig V) S ≤ outside past sig U := by
  refine iSup₂_le fun o _ => ?_
  cases o with
  | none => exact past_le_outside past sig U
  | some a =>
    show inside sig V a ≤ _
    unfold inside
    split
    · exact sig_le_info (by rintro ⟨b, e, hb⟩; rw [Option.some.injEq] at e; subst e; exact h a ⟨hb, ‹_›⟩)
    · exact bot_le

theorem Spec.AdaptiveBundle.inside {c : BundleCfg ℝ D d M O} {data : Data D} (hE : AdaptiveBundle T P sig env c data ν push lnf G) (U : Key → Prop) (hU : ∀ a, U a → T a) :
    AdaptiveBundle U P (inside sig U) env c data ν push lnf G :=
  ⟨hE.good, hE.step, hE.meas, hE.gradMeas, hE.ignores, hE.finite, flowFamily_inside U hU hE.flows⟩

/-- **C89 (production phase).** The setting of C83: the flow `m ω` and the positions `X i ω` of the chains when production starts are any functions of what happened before, and all chains use the same flow.
For every `ε` there is an `N`, which does not depend on the number of production loops, such that for any choice of one production row `j i ≥ N` from each chain `i`, the chosen rows are jointly, in total variation
and up to `ε`, independent draws from the normalised target, independent of everything that happened before production. -/
theorem C89_production (k : Key) (h : IdealOn (Desc k) past sig P env) (c : BundleCfg ℝ D d M O) (data : Data D) (hE : AdaptiveBundle (Desc k) P sig env c data ν push lnf G)
    (m : Ω → M) (hm : Measurable[past] m) (hG : ∀ ω, m ω ∈ G) (X : ℕ → Ω → Pos ℝ d) (hX : ∀ i < c.nChains, Measurable[past] (X i)) (ε : ℝ) (hε : 0 < ε) :
    ∃ N, ∀ (n : ℕ) (key : Ω → Key) (xs : Ω → List (Pos ℝ d)) (w w' : Ω → World ℝ D d M O), (∀ ω, (xs ω).length = c.nChains) →
      (∀ ω, Completes (env ω) (malaBundle (c.withProd n)).strategies.lookup data (repeatPhase c.nTrainLoops trainingPhase ++ ["reset_steppers", "update_state"])
        ⟨key ω, xs ω, ⟨(malaBundle (c.withProd n)).resources, fun _ => 0⟩⟩ (w ω)) →
      (∀ ω, (w ω).key = k) → (∀ ω, (w ω).heap.res "global_sampler" = some (.kernel (.nf (m ω) c.nfBatch))) → (∀ ω, ∀ i < c.nChains, (w ω).xs[i]? = some (X i ω)) →
      (∀ ω, Completes (env ω) (malaBundle (c.withProd n)).strategies.lookup data (repeatPhase n productionPhase) (w ω) (w' ω)) →
      ∀ j : Fin c.nChains → ℕ, (∀ i, N ≤ j i ∧ j i < (c.withProd n).nProdSteps) → ∃ Y : Fin c.nChains → Ω → Pos ℝ d, (∀ i, Measurable (Y i)) ∧
        FreshInLaw past P (fun ω i => Y i ω) (Measure.pi fun _ => normalised (targetMeasure fun x => c.logpdf.val x data)) ε ∧
        ∀ ω, ∃ b, (w' ω).heap.res "positions_production" = some (.buffer b) ∧ ∀ (i : Fin c.nChains) (a : Fin d), b.data.get [i, j i, a] = Y i ω a := by
  haveI := normalised_isProb _ hE.meas hE.finite
  have hδ : 0 < ε / (c.nChains + 1) := by positivity
  obtain ⟨Nω, N0, hN0, hNω⟩ := loops_needed (P := P) c data hE m hG X (ε / (c.nChains + 1)) hδ
  refine ⟨N0 * (rowsPerCall c true + rowsPerCall c false), fun n key xs w w' hx htrain hkey hflow hstart hprod j hj => ?_⟩
  have hc' := goodCfg_withProd hE.good n
  obtain ⟨logs, v, zs, b1, b2, e0, en, R⟩ := production_run hc' hE.flows.lawful w w' (fun ω => production_start (env ω) (hE.flows.lawful ω) (c.withProd n) hc' data (key ω) (xs ω) (hx ω) (w ω) (htrain ω)) hkey hflow hprod
  have hcap : (c.withProd n).nProdSteps = n * (rowsPerCall c true + rowsPerCall c false) := capacity_eq (c.withProd n) true
  have hpos := rowsPerCall_pos hE.good true
  have hl : ∀ i, j i / (rowsPerCall c true + rowsPerCall c false) < n := fun i => Nat.div_lt_of_lt_mul (by rw [mul_comm, ← hcap]; exact (hj i).2)
  have hr : ∀ i, j i % (rowsPerCall c true + rowsPerCall c false) < rowsPerCall (c.withProd n) true + rowsPerCall (c.withProd n) false := fun i =>
    Nat.mod_lt _ (by show 0 < rowsPerCall c true + rowsPerCall c false; omega)
  have hkeys : ∀ (i : Fin c.nChains) l, chainKeys k i (.child (.child (carryKey k l) 1) i) := fun i l => ⟨l, .refl⟩
  have hs : ∀ (i : Fin c.nChains) ω, (v 0 ω).xs[i.1]? = some (X i ω) := fun i ω => by rw [e0]; exact hstart ω i i.2
  -- every chain's row is determined by the past and that chain's draws
  choose Y hY hYm _ using fun i : Fin c.nChains => row_fresh (chainKeys_closed k i) (idealOn_inside h (chainKeys k i) fun _ => chainKeys_desc) (c.withProd n) data
    ((hE.withProd n).inside (chainKeys k i) fun _ => chainKeys_desc) m hm hG (X i) (hX i i.2) _ Nω N0 hN0 (hNω n i i.2) R i (hkeys i) (hs i) _ (hl i) _ (hr i)
  -- and fresh with respect to the past and everybody else's draws
  have hfresh : ∀ i : Fin c.nChains, FreshInLaw (outside past sig (chainKeys k i)) P (Y i) (normalised (targetMeasure fun x => c.logpdf.val x data)) (ε / (c.nChains + 1)) := by
    intro i
    have hp := past_le_outside past sig (chainKeys k i)
    obtain ⟨Y', hY', -, hF⟩ := row_fresh (chainKeys_closed k i) (idealOn_outside h (chainKeys k i) fun _ => chainKeys_desc) (c.withProd n) data
      ((hE.withProd n).inside (chainKeys k i) fun _ => chainKeys_desc) m (hm.mono hp le_rfl) hG (X i) ((hX i i.2).mono hp le_rfl) _ Nω N0 hN0 (hNω n i i.2) R i (hkeys i) (hs i) _ (hl i) _ (hr i)
    have e : Y' = Y i := funext fun ω => by have := (hY' ω).symm.trans (hY i ω); rwa [Option.some.injEq] at this
    rw [← e]
    exact hF ((Nat.le_div_iff_mul_le (by omega)).2 (hj i).1)
  have hYm' : ∀ i, Measurable (Y i) := fun i => (hYm i).mono ((idealOn_inside h (chainKeys k i) fun _ => chainKeys_desc).info_le _) le_rfl
  have hall := fresh_family h.past_le c.nChains Y (fun i => outside past sig (chainKeys k i)) (fun i => past_le_outside _ _ _) (fun i => h.info_le _) hYm'
    (fun i i' hii => (hYm i').mono (info_inside_le past sig (chainKeys_disjoint k (fun e => hii (Fin.ext e))) _) le_rfl) hfresh
  refine ⟨Y, hYm', fun E hEm => (hall E hEm).trans ?_, fun ω => ?_⟩
  · rw [mul_div_assoc', div_le_iff₀ (by positivity)]
    nlinarith
  · obtain ⟨b, hb, hcell⟩ := R.buffer ω
    exact ⟨b, by rw [← en]; exact hb, fun i a => hcell i i.2 (j i) (hj i).2 (Y i ω) (hY i ω) a⟩

/-- **C89 (the whole run).** A call of `sample` with the MALA bundle, flow and positions at the end of training being random in any way (as in C83). -/
theorem C89_sample (h : IdealDraws past sig P env) (c : BundleCfg ℝ D d M O) (hn : 0 < c.nChains) (hb : 0 < c.batchSize) (hfin : ∀ x : ℝ, BufNum.isFinite x = true) (data : Data D)
    (hB : AdaptiveBundle (fun _ => True) P sig env c data ν push lnf G) (key : Key) (init : Ω → InitPos ℝ d) (hx : ∀ ω, (init ω).atleast2d.length = c.nChains) (w : Ω → World ℝ D d M O)
    (hw : ∀ ω, Completes (env ω) (malaBundle c).strategies.lookup data (repeatPhase c.nTrainLoops trainingPhase ++ ["reset_steppers", "update_state"])
      ⟨key, (init ω).atleast2d, ⟨(malaBundle c).resources, fun _ => 0⟩⟩ (w ω))
    (m : Ω → M) (hm : Measurable[before past sig (trainedKey c.nTrainLoops c.nEpochs key)] m) (hG : ∀ ω, m ω ∈ G) (hflow : ∀ ω, (w ω).heap.res "global_sampler" = some (.kernel (.nf (m ω) c.nfBatch)))
    (X : ℕ → Ω → Pos ℝ d) (hX : ∀ i < c.nChains, Measurable[before past sig (trainedKey c.nTrainLoops c.nEpochs key)] (X i)) (hstart : ∀ ω, ∀ i < c.nChains, (w ω).xs[i]? = some (X i ω))
    (ε : ℝ) (hε : 0 < ε) :
    ∃ N, ∀ (n nd nc : ℕ) (kw : List (String × V)) (s : Sampler ℝ D d M O V), Sampler.new nd nc key none none none (some (malaBundle (c.withProd n))) kw = .ok s →
      ∃ s' : Ω → Sampler ℝ D d M O V, (∀ ω, s.sample (env ω) (init ω) data = (.ok (), s' ω)) ∧
        ∀ j : Fin c.nChains → ℕ, (∀ i, N ≤ j i ∧ j i < (c.withProd n).nProdSteps) → ∃ Y : Fin c.nChains → Ω → Pos ℝ d, (∀ i, Measurable (Y i)) ∧
          FreshInLaw (before past sig (trainedKey c.nTrainLoops c.nEpochs key)) P (fun ω i => Y i ω) (Measure.pi fun _ => normalised (targetMeasure fun x => c.logpdf.val x data)) ε ∧
          ∀ ω, ∃ b, (s' ω).heap.res "positions_production" = some (.buffer b) ∧ ∀ (i : Fin c.nChains) (a : Fin d), b.data.get [i, j i, a] = Y i ω a := by
  set k := trainedKey c.nTrainLoops c.nEpochs key with hk
  have hI := idealOn_before h k (fun _ _ => trivial)
  have hE : AdaptiveBundle (Desc k) P (after sig k) env c data ν push lnf G :=
    ⟨hB.good, hB.step, hB.meas, hB.gradMeas, hB.ignores, hB.finite, flowFamily_before k (fun _ _ => trivial) hB.flows⟩
  obtain ⟨N, hN⟩ := C89_production k hI c data hE m hm hG X hX ε hε
  refine ⟨N, fun n nd nc kw s hs => ?_⟩
  simp only [Sampler.new, Except.ok.injEq] at hs
  subst hs
  have hl : ∀ ω, (env ω).ops.Lawful := hB.flows.lawful
  have hSt : ∀ ω, StaysIn (env ω) (c.withProd n) data (fun _ => True) := fun ω => ⟨fun _ _ _ _ _ => trivial, fun _ _ _ _ _ _ _ _ => trivial, fun x _ i => hfin _⟩
  choose v w' h1 h2 using fun ω => bundle_total (env ω) (hl ω) (c.withProd n) (goodCfg_withProd hB.good n) data hn hb _ (hSt ω) key (init ω).atleast2d (hx ω) (fun _ _ => trivial)
  have h3 : ∀ ω, Completes (env ω) (bundleStrategies (c.withProd n)).lookup data (bundleOrder (c.withProd n)) ⟨key, (init ω).atleast2d, ⟨bundleResources (c.withProd n), fun _ => 0⟩⟩ (w' ω) := fun ω => by
    rw [bundleOrder, completes_append]; exact ⟨v ω, h1 ω, h2 ω⟩
  have h4 := fun ω => completes_sample (h3 ω)
  have hsample : ∀ ω, Sampler.sample (V := V) (env ω) ⟨nd, nc, key, ⟨bundleResources (c.withProd n), fun _ => 0⟩, (bundleStrategies (c.withProd n)).lookup, some (bundleOrder (c.withProd n)),
      setAttrs kw (fun _ => none)⟩ (init ω) data =
      (.ok (), ⟨nd, nc, key, (w' ω).heap, (bundleStrategies (c.withProd n)).lookup, some (bundleOrder (c.withProd n)), setAttrs kw (fun _ => none)⟩) := by
    intro ω
    simp only [Sampler.sample]
    rw [h4 ω]
  have hsame : ∀ ω, (v ω).heap.res "global_sampler" = (w ω).heap.res "global_sampler" ∧ (v ω).xs = (w ω).xs := by
    intro ω
    have := C85_training (env ω) none c n data key (init ω).atleast2d
    simp only [libraryBundle, trainingOrder] at this
    rw [completes_sample (hw ω)] at this
    have e : runOrder (env ω) (malaBundle (c.withProd n)).strategies.lookup (repeatPhase c.nTrainLoops trainingPhase ++ ["reset_steppers", "update_state"]) key (init ω).atleast2d data
        ⟨(malaBundle (c.withProd n)).resources, fun _ => 0⟩ = (.ok ((v ω).key, (v ω).xs), (v ω).heap) := completes_sample (h1 ω)
    have this2 : SameOutcome notProduction (Except.ok ((w ω).key, (w ω).xs), (w ω).heap) (runOrder (env ω) (malaBundle (c.withProd n)).strategies.lookup
      (repeatPhase c.nTrainLoops trainingPhase ++ ["reset_steppers", "update_state"]) key (init ω).atleast2d data ⟨(malaBundle (c.withProd n)).resources, fun _ => 0⟩) := this
    rw [e] at this2
    obtain ⟨a, b⟩ := this2
    simp only [Except.ok.injEq, Prod.mk.injEq] at a
    exact ⟨(b.1 _ (by simp [notProduction])).symm, a.2.symm⟩
  refine ⟨_, hsample, ?_⟩
  exact hN n (fun _ => key) (fun ω => (init ω).atleast2d) v w' hx h1 (fun ω => switch_key (env ω) (c.withProd n) data _ _ _ (h1 ω)) (fun ω => by rw [(hsame ω).1]; exact hflow ω)
    (fun ω i hi => by rw [(hsame ω).2]; exact hstart ω i hi) h2

variable [MeasurableSpace O]

/-- **C89 (end to end).** A call of `sample` with the MALA bundle, with training modelled (as in C83): rows taken from different chains late enough in production are jointly, up to `ε` in total variation, independent
draws from the target, and independent of everything that happened before production — although all chains propose from the same flow, which was trained on the samples of all of them. -/
theorem C89_adaptive (h : IdealDraws past sig P env) (c : BundleCfg ℝ D d M O) (hn : 0 < c.nChains) (hb : 0 < c.batchSize) (hfin : ∀ x : ℝ, BufNum.isFinite x = true) (data : Data D)
    (hB : AdaptiveBundle (fun _ => True) P sig env c data ν push lnf G) (hT : OrdinaryTraining sig env G) (hflow : c.flow ∈ G) (key : Key) (init : Ω → InitPos ℝ d)
    (hx : ∀ ω, (init ω).atleast2d.length = c.nChains) (hX : ∀ i < c.nChains, ∃ X : Ω → Pos ℝ d, Measurable[past] X ∧ ∀ ω, (init ω).atleast2d[i]? = some (X ω)) (ε : ℝ) (hε : 0 < ε) :
    ∃ N, ∀ (n nd nc : ℕ) (kw : List (String × V)) (s : Sampler ℝ D d M O V), Sampler.new nd nc key none none none (some (malaBundle (c.withProd n))) kw = .ok s →
      ∃ s' : Ω → Sampler ℝ D d M O V, (∀ ω, s.sample (env ω) (init ω) data = (.ok (), s' ω)) ∧
        ∀ j : Fin c.nChains → ℕ, (∀ i, N ≤ j i ∧ j i < (c.withProd n).nProdSteps) → ∃ Y : Fin c.nChains → Ω → Pos ℝ d, (∀ i, Measurable (Y i)) ∧
          FreshInLaw (before past sig (trainedKey c.nTrainLoops c.nEpochs key)) P (fun ω i => Y i ω) (Measure.pi fun _ => normalised (targetMeasure fun x => c.logpdf.val x data)) ε ∧
          ∀ ω, ∃ b, (s' ω).heap.res "positions_production" = some (.buffer b) ∧ ∀ (i : Fin c.nChains) (a : Fin d), b.data.get [i, j i, a] = Y i ω a := by
  have hSt : ∀ ω, StaysIn (env ω) c data (fun _ => True) := fun ω => ⟨fun _ _ _ _ _ => trivial, fun _ _ _ _ _ _ _ _ => trivial, fun x _ i => hfin _⟩
  choose w w' h1 h2 using fun ω => bundle_total (env ω) (hB.flows.lawful ω) c hB.good data hn hb _ (hSt ω) key (init ω).atleast2d (hx ω) (fun _ _ => trivial)
  have hfin' : MeasurableSet {x : ℝ | BufNum.isFinite x = true} := by simp [hfin]
  obtain ⟨m, hm, hG, hmg, hX'⟩ := trained_before h c hB.good hfin' data hB.ignores hB.meas hB.gradMeas hB.flows hT hflow key (fun ω => (init ω).atleast2d) hx hX w h1
  choose! X hXm hXe using hX'
  exact C89_sample h c hn hb hfin data hB key init hx w h1 m hm hG hmg X hXm (fun ω i hi => hXe i hi ω) ε hε

end FlowMC
