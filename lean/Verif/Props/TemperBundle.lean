import Verif.Props.Schedule
import Mathlib.Data.Real.Basic
import Mathlib.Tactic.FieldSimp
/-
C61 (accounting and cold temperature of `RQSpline_MALA_PT_Bundle`), C65 (what production tempering does to the replicas).
-/
set_option linter.unusedSectionVars false
namespace FlowMC
open Spec

variable {F D : Type} {d : Nat} {M O V : Type}
variable [Zero F] [One F] [Add F] [Mul F] [Div F] [Sub F] [Neg F] [NatCast F] [Transc F] [FCmp F] [BufNum F]

/-- `ys` is what some successful call of the bundle's tempering strategy returns when given `xs`. -/
def Spec.TemperingCall (env : Env F D d M O) (c : BundleCfg F D d M O) (p : PTCfg F D d) (data : Data D) (xs ys : List (Pos F d)) : Prop :=
  ∃ k k' h h', (ptStrat c p).run env k xs data h = (.ok (k', ys), h')

theorem filterMap_head_length {α : Type} (ls : List (List α)) (h : ∀ l ∈ ls, l ≠ []) : (ls.filterMap (·.head?)).length = ls.length := by
  induction ls with
  | nil => rfl
  | cons l ls ih =>
    cases l with
    | nil => exact absurd rfl (h [] List.mem_cons_self)
    | cons a l => simp [ih (fun l hl => h l (List.mem_cons_of_mem _ hl))]

/-- A successful tempering call returns as many positions as it was given. -/
theorem tempering_length (env : Env F D d M O) (s : ParallelTempering) (k k' : Key) (xs ys : List (Pos F d)) (data : Data D) (h h' : Heap F D d M O)
    (hr : s.run env k xs data h = (.ok (k', ys), h')) : ys.length = xs.length := by
  have hp : ∀ p, s.plan env k xs data h = .ok p → (coldRow p.positions).length = xs.length := by
    intro p hp
    simp only [ParallelTempering.plan, bind, Except.bind] at hp
    repeat' split at hp <;> try (cases hp; done)
    simp only [Except.ok.injEq] at hp
    subst hp
    rename_i hc _ _ _
    obtain ⟨-, -, hT⟩ := hc
    unfold coldRow
    rw [filterMap_head_length]
    · simp [splitN_length, withReplicas]
    · intro l hl
      simp only [List.mem_map, Prod.exists] at hl
      obtain ⟨e1, e2, ⟨kk, m, hm, he⟩, rfl⟩ := hl
      have hm2 := (List.of_mem_zip hm).2
      simp only [List.mem_map, Prod.exists] at hm2
      obtain ⟨k2, r, hr2, rfl⟩ := hm2
      have hr3 := (List.of_mem_zip hr2).2
      simp only [withReplicas, List.mem_map, Prod.exists] at hr3
      obtain ⟨x, i, -, rfl⟩ := hr3
      have hlen : e1.positions.length ≠ 0 := by
        have := congrArg (fun e => e.1.positions.length) he
        simp only at this
        rw [← this, (C30_exchange_permutes env.rng _ data _ _ _).1.length_eq, ensembleStep_length]
        · simp
        · simp [hT]
      exact fun h0 => hlen (by rw [h0]; rfl)
  unfold ParallelTempering.run at hr
  split at hr
  · simp at hr
  · rename_i p e
    have := hp p e
    split at hr
    · split at hr <;> [(simp at hr; done); skip]
      split at hr <;> [(simp at hr; done); skip]
      simp only [Prod.mk.injEq, Except.ok.injEq] at hr
      rw [← hr.1.2]; exact this
    · simp only [Prod.mk.injEq, Except.ok.injEq] at hr
      rw [← hr.1.2]; exact this

theorem quietPre_tempering (env : Env F D d M O) (c : BundleCfg F D d M O) (p : PTCfg F D d) (data : Data D) :
    QuietPre env c (ptStrategies c p).lookup data ["parallel_tempering"] (TemperingCall env c p data) := by
  intro w w' h hx
  rw [completes_cons] at h
  obtain ⟨s, k1, xs1, h1, e1, r1, h⟩ := h
  rw [completes_nil] at h
  subst h
  have : s = .parallelTempering (ptStrat c p) := by
    have e : (ptStrategies c p).lookup "parallel_tempering" = some (.parallelTempering (ptStrat c p)) := rfl
    rw [e] at e1; simpa using e1.symm
  subst this
  simp only [Strategy.run] at r1
  have hf := C35_frame env (ptStrat c p) w.key w.xs data w.heap
  rw [r1] at hf
  refine ⟨⟨_, _, _, _, r1⟩, by rw [tempering_length env _ _ _ _ _ _ _ _ r1, hx], hf.2, fun n hn => hf.1 n ?_⟩
  simp only [ptStrat, List.take_succ_cons, List.take_zero, List.mem_cons, List.not_mem_nil, or_false]
  rintro (rfl | rfl) <;> revert hn <;> decide

/-- **C61, accounting.** A successful `sample` on a fresh sampler made from `RQSpline_MALA_PT_Bundle` fills the sample buffers exactly as the plain
bundle does (see `Accounted`); the only difference is that a tempering call moves the positions before every local block. -/
theorem C61_accounting (env : Env F D d M O) (hl : env.ops.Lawful) (c : BundleCfg F D d M O) (hc : GoodCfg c) (p : PTCfg F D d) (data : Data D)
    (n nc : Nat) (key : Key) (kw : List (String × V)) (s s' : Sampler F D d M O V) (hs : Sampler.new n nc key none none none (some (ptBundle c p)) kw = .ok s)
    (init : InitPos F d) (hx : init.atleast2d.length = c.nChains) (hrun : s.sample env init data = (.ok (), s')) :
    ∃ logT logP xsT xsP, Accounted env c data (TemperingCall env c p data) init.atleast2d s'.heap logT logP xsT xsP := by
  simp only [Sampler.new, Except.ok.injEq] at hs
  subst hs
  obtain ⟨k, xs, hcomp, -⟩ := sample_completes env _ s' _ rfl init data hrun
  have horder : (ptBundle c p).strategyOrder = "initialize_tempered_positions" :: loopOrder c ["parallel_tempering"] := rfl
  rw [horder, completes_cons] at hcomp
  obtain ⟨s0, k1, xs1, h1, e1, r1, hcomp⟩ := hcomp
  have : s0 = .lambda (initTempered p) := by
    have e : (ptBundle c p).strategies.lookup "initialize_tempered_positions" = some (.lambda (initTempered p)) := rfl
    have e' : (ptBundle c p).strategies.lookup "initialize_tempered_positions" = some s0 := e1
    rw [e] at e'; simpa using e'.symm
  subst this
  have hfr := strat_frame env c (ptStrategies c p).lookup (.pt p) false "initialize_tempered_positions" _ rfl key init.atleast2d data
    ⟨ptResources c p, fun _ => 0⟩ ⟨initialState, rfl, rfl, rfl, rfl, rfl⟩
  have hr1 : (Strategy.lambda (initTempered p)).run env key init.atleast2d data (⟨ptResources c p, fun _ => 0⟩ : Heap F D d M O) = (.ok (k1, xs1), h1) := r1
  rw [hr1] at hfr
  have hxs : xs1 = init.atleast2d ∧ h1.pos = fun _ => 0 := by
    have hu := (Heap.updateBuffer_frame (⟨ptResources c p, fun _ => 0⟩ : Heap F D d M O) "tempered_positions" (arr3 BufNum.negInf init.atleast2d.length
      (p.nTemps - 1) (init.atleast2d.map (fun x => List.replicate (p.nTemps - 1) x))) 0).2
    simp only [Strategy.run, runLambda, initTempered] at hr1
    split at hr1
    · simp at hr1
    · rename_i e
      rw [e] at hu
      simp only [Prod.mk.injEq, Except.ok.injEq] at hr1
      obtain ⟨⟨-, rfl⟩, rfl⟩ := hr1
      exact ⟨rfl, hu⟩
  obtain ⟨rfl, hpos⟩ := hxs
  obtain ⟨logT, logP, wT, hA, -⟩ := bundle_run env hl c hc _ (pt_hasCore c p) data ["parallel_tempering"] _ (quietPre_tempering env c p data) _ _ hcomp
    (bundleInv_fresh c _ (fun n hn => by
      rw [hfr n (by simp only [writes]; rintro hm; revert hn; simp at hm; subst hm; decide)]
      simp only [coreNames, List.mem_cons, List.not_mem_nil, or_false] at hn
      rcases hn with rfl | rfl | rfl | rfl | rfl | rfl | rfl | rfl | rfl | rfl | rfl | rfl <;> rfl)) hx (by simp only [hpos])
  exact ⟨logT, logP, _, _, hA⟩

/-! ### the temperature ladder -/

/-- What a tempering call of the bundle needs, with the first temperature equal to one. -/
structure PTInv (c : BundleCfg F D d M O) (p : PTCfg F D d) (w : World F D d M O) : Prop where
  chains : w.xs.length = c.nChains
  phase : ∃ q, InPhase w.heap q
  kernel : w.heap.res "local_sampler" = some (.kernel (.mala c.stepSize))
  density : ∃ vs, w.heap.res "tempered_logpdf" = some (.tempered ⟨⟨c.logpdf, vs⟩, p.logprior⟩)
  reps : ∃ pb, w.heap.res "tempered_positions" = some (.buffer pb) ∧ pb.data.shape = [c.nChains, p.nTemps - 1, d] ∧ pb.cursorDim = 2
  temps : ∃ tb, w.heap.res "temperatures" = some (.buffer tb) ∧ tb.data.shape = [p.nTemps] ∧ tb.cursorDim = 0 ∧ tb.data.get [0] = 1

theorem PTInv.site {c : BundleCfg F D d M O} {p : PTCfg F D d} {w : World F D d M O} (hi : PTInv c p w) (hT : 1 ≤ p.nTemps) (env : Env F D d M O) :
    ∃ pb tb q vs, TemperSite (ptStrat c p) w.heap env.rng w.xs.length (p.nTemps - 1) "tempered_positions" "temperatures" pb tb
      (fun k x lp t data => malaKernel env.rng c.stepSize k x lp t data) ⟨⟨c.logpdf, vs⟩, p.logprior⟩ (.bool !q) ∧ InPhase w.heap q ∧
      tb.data.get [0] = 1 ∧ pb.cursorDim = 2 := by
  obtain ⟨pb, hp1, hp2, hp3⟩ := hi.reps
  obtain ⟨tb, ht1, ht2, ht3, ht4⟩ := hi.temps
  obtain ⟨q, hq⟩ := hi.phase
  obtain ⟨vs, hv⟩ := hi.density
  refine ⟨pb, tb, q, vs, ?_, hq, ht4, hp3⟩
  obtain ⟨st, hst, -, htr⟩ := hq
  exact {
    names := ⟨[], rfl⟩
    ne := by decide
    kernel := ⟨_, hi.kernel, rfl⟩
    density := hv
    posBuf := hp1
    tempBuf := ht1
    state := ⟨st, hst, htr⟩
    posShape := by rw [hi.chains]; exact hp2
    tempShape := by rw [Nat.sub_add_cancel hT]; exact ht2
    posDim := by omega
    tempDim := ht3 }

theorem adaptTemperature_head (Ts : List F) (accs : List (List Bool)) : (adaptTemperature Ts accs).head? = Ts.head? := by
  cases Ts <;> rfl

theorem ptInv_step (env : Env F D d M O) (c : BundleCfg F D d M O) (p : PTCfg F D d) (hT : 1 ≤ p.nTemps) (data : Data D) (name : String)
    (s : Strategy F D d M O) (w : World F D d M O) (k' : Key) (xs' : List (Pos F d)) (h' : Heap F D d M O) (hs : (ptStrategies c p).lookup name = some s)
    (hi : PTInv c p w) (hr : s.run env w.key w.xs data w.heap = (.ok (k', xs'), h')) : PTInv c p ⟨k', xs', h'⟩ := by
  have hph := inPhase_any env c _ (.pt p) name s hs w.key w.xs data w.heap hi.phase
  rw [hr] at hph
  obtain ⟨q, hq⟩ := hi.phase
  have frame : ∀ n, n ∉ writes q name → h'.res n = w.heap.res n := by
    intro n hn
    obtain ⟨st, hst, hp, -⟩ := hq
    have := strat_frame env c _ (.pt p) q name s hs w.key w.xs data w.heap ⟨st, hst, hp⟩ n hn
    rw [hr] at this; exact this
  have hxs : xs'.length = w.xs.length := by
    rcases (IsBundle.pt p).cases' name s hs with ⟨-, rfl⟩ | ⟨-, rfl⟩ | ⟨-, ww, rfl⟩ | ⟨-, rfl⟩ | ⟨-, rfl⟩ | ⟨-, rfl⟩ | ⟨-, rfl⟩ | ⟨-, rfl⟩ | ⟨-, p', -, rfl⟩ | ⟨-, p', -, rfl⟩
    · exact takeSteps_length env _ _ _ _ _ _ _ _ hr
    · exact takeSteps_length env _ _ _ _ _ _ _ _ hr
    · rw [((trainModel_frame env (modelTrainer c ww) w.key w.xs w.heap).2.2 _ _ _ hr).1]
    · simp only [Strategy.run, UpdateState.run] at hr
      split at hr
      · simp at hr
      · simp only [Prod.mk.injEq, Except.ok.injEq] at hr; rw [hr.1.2]
    all_goals try (simp only [Strategy.run, runLambda] at hr
                   split at hr
                   · simp at hr
                   · simp only [Prod.mk.injEq, Except.ok.injEq] at hr; rw [hr.1.2])
    · exact tempering_length env _ _ _ _ _ _ _ _ hr
  by_cases h1 : name = "parallel_tempering"
  · subst h1
    have hs' : s = .parallelTempering (ptStrat c p) := by
      have e : (ptStrategies c p).lookup "parallel_tempering" = some (.parallelTempering (ptStrat c p)) := rfl
      rw [e] at hs; simpa using hs.symm
    subst hs'
    obtain ⟨pb, tb, q', vs, site, hq', hone, hdim⟩ := hi.site hT env
    simp only [Strategy.run] at hr
    cases q' with
    | true =>
      rw [C35_frozen env _ _ _ data _ _ _ _ pb tb _ _ _ site rfl] at hr
      simp only [Prod.mk.injEq, Except.ok.injEq] at hr
      obtain ⟨⟨-, rfl⟩, rfl⟩ := hr
      exact ⟨hxs.trans hi.chains, hph, hi.kernel, hi.density, hi.reps, hi.temps⟩
    | false =>
      obtain ⟨h2, pb', tb', r2, fr, -, hpb, -, -, hd, hsh, -, htb, -, -, htd, hts, hlad⟩ :=
        C35_training env _ w.key w.xs data _ _ _ _ pb tb _ _ _ site rfl
      rw [r2] at hr
      simp only [Prod.mk.injEq, Except.ok.injEq] at hr
      obtain ⟨⟨-, rfl⟩, rfl⟩ := hr
      refine ⟨hxs.trans hi.chains, hph, ?_, ?_, ⟨pb', hpb, ?_, hd.trans hdim⟩, ⟨tb', htb, ?_, htd.trans site.tempDim, ?_⟩⟩
      · rw [frame _ (by cases q <;> decide)]; exact hi.kernel
      · rw [frame _ (by cases q <;> decide)]; exact hi.density
      · rw [hsh, site.posShape, hi.chains]
      · rw [hts, site.tempShape, Nat.sub_add_cancel hT]
      · have := congrArg List.head? hlad
        rw [adaptTemperature_head] at this
        simp only [ladder, List.range_succ_eq_map, List.map_cons, List.head?_cons, Option.some.injEq] at this
        rw [this]; exact hone
  · by_cases h2 : name = "initialize_tempered_positions"
    · subst h2
      have hs' : s = .lambda (initTempered p) := by
        have e : (ptStrategies c p).lookup "initialize_tempered_positions" = some (.lambda (initTempered p)) := rfl
        rw [e] at hs; simpa using hs.symm
      subst hs'
      obtain ⟨pb, hp1, hp2, hp3⟩ := hi.reps
      obtain ⟨b', hb, -, -, hbd, hbs, -⟩ := replaceAll w.heap "tempered_positions" pb hp1
        (arr3 BufNum.negInf w.xs.length (p.nTemps - 1) (w.xs.map (fun x => List.replicate (p.nTemps - 1) x)))
        (by simp [arr3, hp2, hi.chains]) (by rw [hp2, hp3]; simp)
      simp only [Strategy.run, runLambda, initTempered, hb, Prod.mk.injEq, Except.ok.injEq] at hr
      refine ⟨hxs.trans hi.chains, hph, ?_, ?_, ⟨b', ?_, hbs.trans hp2, hbd.trans hp3⟩, ?_⟩
      · rw [frame _ (by cases q <;> decide)]; exact hi.kernel
      · rw [frame _ (by cases q <;> decide)]; exact hi.density
      · rw [← hr.2]; simp [Heap.setRes, dictSet]
      · rw [frame _ (by cases q <;> decide)]; exact hi.temps
    · have hw : ∀ n ∈ ["local_sampler", "tempered_logpdf", "tempered_positions", "temperatures"], n ∉ writes q name := by
        intro n hn
        simp only [writes, h1, h2, if_false]
        simp only [List.mem_cons, List.not_mem_nil, or_false] at hn
        repeat' split
        all_goals (rcases hn with rfl | rfl | rfl | rfl <;> cases q <;> decide)
      refine ⟨hxs.trans hi.chains, hph, ?_, ?_, ?_, ?_⟩
      · rw [frame _ (hw _ (by decide))]; exact hi.kernel
      · rw [frame _ (hw _ (by decide))]; exact hi.density
      · rw [frame _ (hw _ (by decide))]; exact hi.reps
      · rw [frame _ (hw _ (by decide))]; exact hi.temps

theorem ptInv_fresh (c : BundleCfg F D d M O) (p : PTCfg F D d) (hT : 1 ≤ p.nTemps) (k : Key) (xs : List (Pos F d)) (hx : xs.length = c.nChains) (pos : String → Nat) :
    PTInv c p ⟨k, xs, ⟨ptResources c p, pos⟩⟩ where
  chains := hx
  phase := ⟨false, initialState, rfl, ⟨rfl, rfl, rfl, rfl⟩, rfl⟩
  kernel := rfl
  density := ⟨_, rfl⟩
  reps := ⟨_, rfl, rfl, rfl⟩
  temps := by
    refine ⟨_, rfl, by simp [arr1], rfl, ?_⟩
    simp only [arr1]
    cases hn : p.nTemps with
    | zero => omega
    | succ n => simp [List.range_succ_eq_map, linspace1]

/-- **C61, cold temperature.** After any prefix of the order of `RQSpline_MALA_PT_Bundle` that completed from the fresh resources, the ladder has
`n_temperatures` entries and the first one is 1. -/
theorem C61_cold_temperature (env : Env F D d M O) (c : BundleCfg F D d M O) (p : PTCfg F D d) (hT : 1 ≤ p.nTemps) (data : Data D) (k : Key)
    (xs : List (Pos F d)) (hx : xs.length = c.nChains) (pre post : List String) (_ho : (ptBundle c p).strategyOrder = pre ++ post) (w : World F D d M O)
    (hrun : Completes env (ptBundle c p).strategies.lookup data pre ⟨k, xs, ⟨(ptBundle c p).resources, (ptBundle c p).strategies.cursors⟩⟩ w) :
    ∃ tb, w.heap.res "temperatures" = some (.buffer tb) ∧ tb.data.shape = [p.nTemps] ∧ tb.data.get [0] = 1 := by
  have := completes_keeps (I := PTInv c p) pre (fun name _ s w k' xs' h' hs hi hr => ptInv_step env c p hT data name s w k' xs' h' hs hi hr) _ _ hrun
    (ptInv_fresh c p hT k xs hx _)
  obtain ⟨tb, h1, h2, -, h4⟩ := this.temps
  exact ⟨tb, h1, h2, h4⟩

/-- **C61, call sites.** Wherever the tempering strategy occurs in the order, everything its call needs is in place (so C30–C35 apply): replicas and
temperatures of matching sizes, the bundle's MALA kernel, the tempered density made of the user's density and prior, first temperature 1, and the
adaptation flag is on exactly while the state points at the training buffers. -/
theorem C61_call_sites (env : Env F D d M O) (c : BundleCfg F D d M O) (p : PTCfg F D d) (hT : 1 ≤ p.nTemps) (data : Data D) (k : Key)
    (xs : List (Pos F d)) (hx : xs.length = c.nChains) (pre post : List String)
    (_ho : (ptBundle c p).strategyOrder = pre ++ "parallel_tempering" :: post) (w : World F D d M O)
    (hrun : Completes env (ptBundle c p).strategies.lookup data pre ⟨k, xs, ⟨(ptBundle c p).resources, (ptBundle c p).strategies.cursors⟩⟩ w) :
    ∃ pb tb prod vs, TemperSite (ptStrat c p) w.heap env.rng w.xs.length (p.nTemps - 1) "tempered_positions" "temperatures" pb tb
      (fun k x lp t data => malaKernel env.rng c.stepSize k x lp t data) ⟨⟨c.logpdf, vs⟩, p.logprior⟩ (.bool !prod) ∧ InPhase w.heap prod ∧
      tb.data.get [0] = 1 := by
  have := completes_keeps (I := PTInv c p) pre (fun name _ s w k' xs' h' hs hi hr => ptInv_step env c p hT data name s w k' xs' h' hs hi hr) _ _ hrun
    (ptInv_fresh c p hT k xs hx _)
  obtain ⟨pb, tb, q, vs, h1, h2, h3, -⟩ := this.site hT env
  exact ⟨pb, tb, q, vs, h1, h2, h3⟩

/-- **C61, initial ladder.** `n_temperatures` equally spaced values from 1 to `max_temperature`. -/
theorem C61_initial_ladder [BufNum ℝ] (c : BundleCfg ℝ D d M O) (p : PTCfg ℝ D d) (hT : 2 ≤ p.nTemps) :
    ∃ tb, (ptBundle c p).resources "temperatures" = some (.buffer tb) ∧ tb.data.shape = [p.nTemps] ∧
      ∀ i < p.nTemps, tb.data.get [i] = 1 + (i : ℝ) * ((p.maxTemp - 1) / ((p.nTemps : ℝ) - 1)) := by
  refine ⟨_, rfl, by simp [arr1], ?_⟩
  intro i hi
  have hne : ((p.nTemps : ℝ) - 1) ≠ 0 := by
    have : (2 : ℝ) ≤ p.nTemps := by exact_mod_cast hT
    linarith
  have hc : ((p.nTemps - 1 : ℕ) : ℝ) = (p.nTemps : ℝ) - 1 := by
    rw [Nat.cast_sub (by omega)]; simp
  simp only [arr1, List.getElem?_map, List.getElem?_range hi, Option.map_some, Option.getD_some, linspace1]
  split
  · subst_vars; simp
  · split
    · rename_i h
      have : (i : ℝ) = (p.nTemps : ℝ) - 1 := by rw [← h]; simp
      rw [this]; field_simp; ring
    · rw [hc]; ring

end FlowMC
