import Verif.Props.Noninterference
import Verif.Props.Schedule
import Verif.Props.TemperBundle
import Verif.Props.Totality
/-
C84 for the bundles, C85: a run with more production loops extends the shorter run.
-/
set_option linter.unusedSectionVars false
namespace FlowMC
open Spec

variable {F D M O V : Type} {d : ℕ} {S : Set String}
variable [Zero F] [One F] [Add F] [Mul F] [Div F] [Sub F] [Neg F] [NatCast F] [Transc F] [FCmp F] [BufNum F]

/-- Every resource that is not one of the four production buffers. -/
def Spec.notProduction : Set String := {n | n ∉ ["positions_production", "log_prob_production", "local_accs_production", "global_accs_production"]}

theorem runLambda_agree (f : LambdaFn F D d M O) (k : Key) (xs : List (Pos F d)) (data : Data D) (h h' : Heap F D d M O) (hf : SameOutcome S (f k xs data h) (f k xs data h')) :
    SameOutcome S (runLambda f k xs data h) (runLambda f k xs data h') := by
  unfold runLambda
  rcases sameOutcome_cases hf with ⟨er, h1, h1', e1, e1', hA1⟩ | ⟨_, h1, h1', e1, e1', hA1⟩
  · simp only [e1, e1']; exact ⟨rfl, hA1⟩
  · simp only [e1, e1']; exact ⟨rfl, hA1⟩

/-- **C84 (sequences).** If every strategy of a list, in states satisfying an invariant, behaves the same on resources that agree on `S`, then so does the whole list: same key and positions
or same exception at the end, and resources that agree on `S`. -/
theorem C84_sequence (env : Env F D d M O) (strats : String → Option (Strategy F D d M O)) (data : Data D) (I : Heap F D d M O → Prop) (names : List String)
    (hI : ∀ name ∈ names, ∀ s, strats name = some s → ∀ k xs h h', I h → ResAgree S h h' →
      SameOutcome S (s.run env k xs data h) (s.run env k xs data h') ∧ I (s.run env k xs data h).2)
    (k : Key) (xs : List (Pos F d)) (h h' : Heap F D d M O) (hi : I h) (hA : ResAgree S h h') :
    SameOutcome S (runOrder env strats names k xs data h) (runOrder env strats names k xs data h') := by
  induction names generalizing k xs h h' with
  | nil => exact ⟨rfl, hA⟩
  | cons a as ih =>
    unfold runOrder
    cases hs : strats a with
    | none => exact ⟨rfl, hA⟩
    | some s =>
      obtain ⟨h1, h2⟩ := hI a List.mem_cons_self s hs k xs h h' hi hA
      simp only
      rcases sameOutcome_cases h1 with ⟨er, g, g', e1, e1', hA1⟩ | ⟨⟨k1, xs1⟩, g, g', e1, e1', hA1⟩
      · simp only [e1, e1']; exact ⟨rfl, hA1⟩
      · simp only [e1, e1']
        rw [e1] at h2
        exact ih (fun n hn => hI n (List.mem_cons_of_mem _ hn)) k1 xs1 g g' h2 hA1

/-- During training no strategy of a library bundle depends on the production buffers. -/
theorem training_respects (env : Env F D d M O) (c : BundleCfg F D d M O) (strats : String → Option (Strategy F D d M O)) (hb : IsBundle c strats) (name : String)
    (s : Strategy F D d M O) (hs : strats name = some s) (k : Key) (xs : List (Pos F d)) (data : Data D) (h h' : Heap F D d M O) (hq : InPhase h false) (hA : ResAgree notProduction h h') :
    SameOutcome notProduction (s.run env k xs data h) (s.run env k xs data h') := by
  have hstep : ∀ s : TakeSteps, s.stateName = "sampler_state" → s.logpdfName = "logpdf" → s.kernelName ∈ notProduction →
      (∀ n ∈ s.bufferNames, n ∈ ["target_positions", "target_log_prob", "target_local_accs", "target_global_accs"]) → UsesOnly s h notProduction := by
    intro s e1 e2 e3 e4
    refine ⟨e3, by rw [e2]; simp [notProduction], by rw [e1]; simp [notProduction], ?_⟩
    intro st hst key hk n hn
    obtain ⟨st', h1, ⟨p1, p2, p3, p4⟩, -⟩ := hq
    rw [e1, h1] at hst
    simp only [Option.some.injEq, Resource.state.injEq] at hst
    subst hst
    have := e4 key hk
    simp only [List.mem_cons, List.not_mem_nil, or_false] at this
    rcases this with rfl | rfl | rfl | rfl
    · rw [p1] at hn; simp only [Option.some.injEq, SVal.str.injEq] at hn; subst hn; simp [notProduction, posName]
    · rw [p2] at hn; simp only [Option.some.injEq, SVal.str.injEq] at hn; subst hn; simp [notProduction, logpName]
    · rw [p3] at hn; simp only [Option.some.injEq, SVal.str.injEq] at hn; subst hn; simp [notProduction, accName]
    · rw [p4] at hn; simp only [Option.some.injEq, SVal.str.injEq] at hn; subst hn; simp [notProduction, accName]
  rcases hb.cases' name s hs with ⟨rfl, rfl⟩ | ⟨rfl, rfl⟩ | ⟨rfl, w, rfl⟩ | ⟨rfl, rfl⟩ | ⟨rfl, rfl⟩ | ⟨rfl, rfl⟩ | ⟨rfl, rfl⟩ | ⟨rfl, rfl⟩ | ⟨rfl, p, -, rfl⟩ | ⟨rfl, p, -, rfl⟩
  · exact C84_take_steps env _ k xs data h h' hA (hstep _ rfl rfl (by simp [notProduction, localStepper]) (by simp [localStepper]))
  · exact C84_take_steps env _ k xs data h h' hA (hstep _ rfl rfl (by simp [notProduction, globalStepper]) (by simp [globalStepper]))
  · exact C84_train_model env _ k xs h h' hA (by simp [notProduction, modelTrainer]) (by simp [notProduction, modelTrainer]) (by simp [notProduction, modelTrainer]) (by simp [notProduction, modelTrainer])
  · exact C84_update_state _ k xs h h' hA (by simp [notProduction, updateStateStrat])
  · refine runLambda_agree _ k xs data h h' ⟨rfl, ?_⟩
    simp only [updateGlobalStep, hA.2]; exact hA.setPos _ _
  · refine runLambda_agree _ k xs data h h' ⟨rfl, ?_⟩
    simp only [updateLocalStep, hA.2]; exact hA.setPos _ _
  · exact runLambda_agree _ k xs data h h' ⟨rfl, (hA.setPos _ _).setPos _ _⟩
  · refine runLambda_agree _ k xs data h h' ?_
    simp only [updateModel, hA.1 "model" (by simp [notProduction]), hA.1 "global_sampler" (by simp [notProduction])]
    split
    · exact ⟨rfl, hA⟩
    · exact ⟨rfl, hA⟩
    · exact ⟨rfl, hA.setRes _ _⟩
    · exact ⟨rfl, hA⟩
  · exact C84_tempering env _ k xs data h h' hA (by simp [notProduction, ptStrat]) (by simp [notProduction, ptStrat]) (by simp [notProduction, ptStrat]) (by simp [notProduction, ptStrat])
  · exact runLambda_agree _ k xs data h h' (hA.updateBuffer (by simp [notProduction]) _ _)

/-- A sequence of training strategies. -/
theorem training_agree (env : Env F D d M O) (c : BundleCfg F D d M O) (strats : String → Option (Strategy F D d M O)) (hb : IsBundle c strats) (names : List String)
    (hn : "update_state" ∉ names) (k : Key) (xs : List (Pos F d)) (data : Data D) (h h' : Heap F D d M O) (hq : InPhase h false) (hA : ResAgree notProduction h h') :
    SameOutcome notProduction (runOrder env strats names k xs data h) (runOrder env strats names k xs data h') :=
  C84_sequence env strats data (fun h => InPhase h false) names
    (fun name hname s hs k xs h h' hi hA => ⟨training_respects env c strats hb name s hs k xs data h h' hi hA,
      inPhase_step env c strats hb false name (fun e => hn (e ▸ hname)) s hs k xs data h hi⟩) k xs h h' hq hA

theorem runOrder_append (env : Env F D d M O) (strats : String → Option (Strategy F D d M O)) (data : Data D) (as bs : List String) (k : Key) (xs : List (Pos F d)) (h : Heap F D d M O) :
    runOrder env strats (as ++ bs) k xs data h = match runOrder env strats as k xs data h with
      | (.error e, h) => (.error e, h)
      | (.ok (k, xs), h) => runOrder env strats bs k xs data h := by
  induction as generalizing k xs h with
  | nil => rfl
  | cons a as ih =>
    simp only [List.cons_append, runOrder]
    cases strats a with
    | none => rfl
    | some s =>
      simp only
      rcases s.run env k xs data h with ⟨e | ⟨k1, x1⟩, h1⟩
      · rfl
      · simp only; exact ih k1 x1 h1

/-- Training followed by the switch to production. -/
theorem trained_agree (env : Env F D d M O) (c : BundleCfg F D d M O) (strats : String → Option (Strategy F D d M O)) (hb : IsBundle c strats) (names : List String)
    (hn : "update_state" ∉ names) (k : Key) (xs : List (Pos F d)) (data : Data D) (h h' : Heap F D d M O) (hq : InPhase h false) (hA : ResAgree notProduction h h') :
    SameOutcome notProduction (runOrder env strats (names ++ ["update_state"]) k xs data h) (runOrder env strats (names ++ ["update_state"]) k xs data h') := by
  rw [runOrder_append, runOrder_append]
  rcases sameOutcome_cases (training_agree env c strats hb names hn k xs data h h' hq hA) with ⟨er, g, g', e1, e1', hA1⟩ | ⟨⟨k1, xs1⟩, g, g', e1, e1', hA1⟩
  · simp only [e1, e1']; exact ⟨rfl, hA1⟩
  · simp only [e1, e1', runOrder, hb.hasCore.update, Strategy.run]
    rcases sameOutcome_cases (C84_update_state (F := F) (D := D) (M := M) (O := O) updateStateStrat k1 xs1 g g' hA1 (by simp [notProduction, updateStateStrat])) with
      ⟨er, u, u', e2, e2', hA2⟩ | ⟨⟨k2, xs2⟩, u, u', e2, e2', hA2⟩
    · simp only [e2, e2']; exact ⟨rfl, hA2⟩
    · simp only [e2, e2']; exact ⟨rfl, hA2⟩

/-- The library bundle with (`some p`) or without (`none`) tempering. -/
def Spec.libraryBundle (p : Option (PTCfg F D d)) (c : BundleCfg F D d M O) : Bundle F D d M O :=
  match p with
  | none => malaBundle c
  | some p => ptBundle c p

/-- What happens before production starts, in either bundle. -/
def Spec.trainingOrder (p : Option (PTCfg F D d)) (c : BundleCfg F D d M O) : List String :=
  match p with
  | none => repeatPhase c.nTrainLoops trainingPhase ++ ["reset_steppers", "update_state"]
  | some _ => "initialize_tempered_positions" :: (repeatPhase c.nTrainLoops ("parallel_tempering" :: trainingPhase) ++ ["reset_steppers", "update_state"])


theorem fresh_agree (p : Option (PTCfg F D d)) (c : BundleCfg F D d M O) (n : ℕ) (pos : String → ℕ) :
    ResAgree notProduction (⟨(libraryBundle p c).resources, pos⟩ : Heap F D d M O) ⟨(libraryBundle p { c with nProdLoops := n }).resources, pos⟩ := by
  have key : ∀ x ∈ notProduction, bundleResources c x = bundleResources { c with nProdLoops := n } x := by
    intro x hx
    simp only [notProduction, Set.mem_setOf_eq, List.mem_cons, List.not_mem_nil, or_false, not_or] at hx
    unfold bundleResources
    split <;> first | rfl | simp_all
  refine ⟨fun x hx => ?_, fun _ => rfl⟩
  cases p with
  | none => exact key x hx
  | some p =>
    simp only [libraryBundle, ptBundle]
    unfold ptResources
    split
    · rfl
    · rfl
    · rfl
    · exact key x hx

theorem not_mem_repeatPhase {x : String} {ph : List String} (h : x ∉ ph) (n : ℕ) : x ∉ repeatPhase n ph := by
  simp only [repeatPhase, List.mem_flatten, List.mem_replicate, not_exists, not_and]
  rintro l ⟨-, rfl⟩
  exact h

theorem libraryBundle_isBundle (p : Option (PTCfg F D d)) (c : BundleCfg F D d M O) : IsBundle c (libraryBundle p c).strategies.lookup := by
  cases p with
  | none => exact .plain
  | some p => exact .pt p

theorem libraryBundle_strategies (p : Option (PTCfg F D d)) (c : BundleCfg F D d M O) (n : ℕ) : (libraryBundle p { c with nProdLoops := n }).strategies = (libraryBundle p c).strategies := by
  cases p <;> rfl

/-- **C85 (training).** Whatever happens before production — every training loop, and the switch — does not depend on the number of production loops asked for: with the same seed and initial
positions the two runs return the same key and positions, or raise the same exception, and all resources except the production buffers are the same. -/
theorem C85_training (env : Env F D d M O) (p : Option (PTCfg F D d)) (c : BundleCfg F D d M O) (n : ℕ) (data : Data D) (k : Key) (xs : List (Pos F d)) :
    SameOutcome notProduction
      (runOrder env (libraryBundle p c).strategies.lookup (trainingOrder p c) k xs data ⟨(libraryBundle p c).resources, fun _ => 0⟩)
      (runOrder env (libraryBundle p { c with nProdLoops := n }).strategies.lookup (trainingOrder p c) k xs data ⟨(libraryBundle p { c with nProdLoops := n }).resources, fun _ => 0⟩) := by
  have hph : InPhase (⟨(libraryBundle p c).resources, fun _ => 0⟩ : Heap F D d M O) false := by
    cases p with
    | none => exact inPhase_fresh c _ .mala _
    | some p => exact inPhase_fresh c _ (.pt p) _
  obtain ⟨as, e, h⟩ : ∃ as, trainingOrder p c = as ++ ["update_state"] ∧ "update_state" ∉ as := by
    cases p with
    | none =>
      refine ⟨repeatPhase c.nTrainLoops trainingPhase ++ ["reset_steppers"], by simp [trainingOrder], ?_⟩
      simp only [List.mem_append, not_or]
      exact ⟨not_mem_repeatPhase (by decide) _, by decide⟩
    | some p =>
      refine ⟨"initialize_tempered_positions" :: (repeatPhase c.nTrainLoops ("parallel_tempering" :: trainingPhase) ++ ["reset_steppers"]), by simp [trainingOrder], ?_⟩
      simp only [List.mem_cons, List.mem_append, not_or]
      exact ⟨by decide, not_mem_repeatPhase (by decide) _, by decide⟩
  rw [e, libraryBundle_strategies p c n]
  exact trained_agree env c _ (libraryBundle_isBundle p c) as h k xs data _ _ hph (fresh_agree p c n _)

/-! ### production -/

/-- No strategy of the bundles moves the cursor of anything but the two steppers. -/
theorem strat_pos (env : Env F D d M O) (c : BundleCfg F D d M O) (strats : String → Option (Strategy F D d M O)) (hb : IsBundle c strats)
    (name : String) (s : Strategy F D d M O) (hs : strats name = some s) (k : Key) (xs : List (Pos F d)) (data : Data D) (h : Heap F D d M O)
    (id : String) (h1 : id ≠ "local_stepper") (h2 : id ≠ "global_stepper") : (s.run env k xs data h).2.pos id = h.pos id := by
  rcases hb.cases' name s hs with ⟨rfl, rfl⟩ | ⟨rfl, rfl⟩ | ⟨rfl, w, rfl⟩ | ⟨rfl, rfl⟩ | ⟨rfl, rfl⟩ | ⟨rfl, rfl⟩ | ⟨rfl, rfl⟩ | ⟨rfl, rfl⟩ | ⟨rfl, p, -, rfl⟩ | ⟨rfl, p, -, rfl⟩
  · exact (C19_frame env (localStepper c) k xs data h).1 id h1
  · exact (C19_frame env (globalStepper c) k xs data h).1 id h2
  · exact congrFun (trainModel_frame env (modelTrainer c w) k xs h).2.1 id
  · simp only [Strategy.run, UpdateState.run]
    split <;> rfl
  · simp [Strategy.run, runLambda, updateGlobalStep, Heap.setPos, h2]
  · simp [Strategy.run, runLambda, updateLocalStep, Heap.setPos, h1]
  · simp [Strategy.run, runLambda, resetSteppers, Heap.setPos, h1, h2]
  · simp only [Strategy.run, runLambda, updateModel]
    split
    · rename_i e
      split at e <;> simp only [Prod.mk.injEq, reduceCtorEq, false_and] at e <;> rw [← e.2]
    · rename_i e
      split at e <;> simp only [Prod.mk.injEq, reduceCtorEq, false_and] at e
      rw [← e.2]
      rfl
  · exact congrFun (C35_frame env (ptStrat c p) k xs data h).2 id
  · have := (Heap.updateBuffer_frame h "tempered_positions"
      (arr3 BufNum.negInf xs.length (p.nTemps - 1) (xs.map (fun x => List.replicate (p.nTemps - 1) x))) 0).2
    simp only [Strategy.run, runLambda, initTempered]
    split <;> rename_i e <;> rw [e] at this <;> exact congrFun this id

/-- A recorded local block is determined by where it starts. -/
theorem localBlock_unique {env : Env F D d M O} {c : BundleCfg F D d M O} {data : Data D} {k : Key} {xs ys ys' : List (Pos F d)} {b b' : Block F d}
    (h : LocalBlock env c data k xs b ys) (h' : LocalBlock env c data k xs b' ys') : b = b' ∧ ys = ys' := by
  obtain ⟨t, l, n, r⟩ := h
  obtain ⟨t', l', n', r'⟩ := h'
  have hr : b.rows = b'.rows := by
    refine List.ext_getElem? fun i => ?_
    rcases Nat.lt_or_ge i xs.length with hi | hi
    · rw [r i _ (List.getElem?_eq_getElem hi), r' i _ (List.getElem?_eq_getElem hi)]
    · rw [List.getElem?_eq_none (by omega), List.getElem?_eq_none (by omega)]
  have hb : b = b' := by cases b; cases b'; simp_all
  refine ⟨hb, List.ext_getElem? fun i => ?_⟩
  rw [l.2 i, l'.2 i, hb]

/-- A recorded global block is determined by where it starts and by the flow. -/
theorem globalBlock_unique {env : Env F D d M O} {c : BundleCfg F D d M O} {data : Data D} {k : Key} {m : M} {xs ys ys' : List (Pos F d)} {b b' : Block F d}
    (h : GlobalBlock env c data k m xs b ys) (h' : GlobalBlock env c data k m xs b' ys') : b = b' ∧ ys = ys' := by
  obtain ⟨t, l, n, r⟩ := h
  obtain ⟨t', l', n', r'⟩ := h'
  have hr : b.rows = b'.rows := by
    refine List.ext_getElem? fun i => ?_
    rcases Nat.lt_or_ge i xs.length with hi | hi
    · obtain ⟨q, e1, e2⟩ := r i _ (List.getElem?_eq_getElem hi)
      obtain ⟨q', e1', e2'⟩ := r' i _ (List.getElem?_eq_getElem hi)
      rw [e1] at e1'
      simp only [Except.ok.injEq] at e1'
      rw [e2, e2', e1']
    · rw [List.getElem?_eq_none (by omega), List.getElem?_eq_none (by omega)]
  have hb : b = b' := by cases b; cases b'; simp_all
  refine ⟨hb, List.ext_getElem? fun i => ?_⟩
  rw [l.2 i, l'.2 i, hb]

/-- Two runs of production, with different capacities, that have done the same so far. -/
structure InStep (c c' : BundleCfg F D d M O) (w w' : World F D d M O) (logs logs' : Bool → List (Block F d)) : Prop where
  key : w.key = w'.key
  xs : w.xs = w'.xs
  len : w.xs.length = c.nChains
  agree : ResAgree notProduction w.heap w'.heap
  phase : InPhase w.heap true
  inv : BundleInv c true w.heap logs
  inv' : BundleInv c' true w'.heap logs'
  cur : w.heap.pos "local_stepper" = blocksLen (rowsPerCall c) (logs true)
  log : logs true = logs' true


/-- The strategies of a production loop. -/
def inProduction : List String := ["parallel_tempering", "local_stepper", "update_global_step", "global_stepper", "update_local_step"]

theorem production_keeps (env : Env F D d M O) (p : Option (PTCfg F D d)) (c : BundleCfg F D d M O) (data : Data D) (names : List String) (hn : ∀ n ∈ names, n ∈ inProduction)
    (w w' : World F D d M O) (hrun : Completes env (libraryBundle p c).strategies.lookup data names w w') (hq : InPhase w.heap true) :
    InPhase w'.heap true ∧ (∀ n ∈ notProduction, w'.heap.res n = w.heap.res n) ∧ ∀ id, id ≠ "local_stepper" → id ≠ "global_stepper" → w'.heap.pos id = w.heap.pos id := by
  have hb : LibraryBundle c (libraryBundle p c) := by
    cases p with
    | none => exact .mala
    | some p => exact .pt p
  have hr := completes_sample hrun
  refine ⟨?_, fun n hnp => ?_, fun id h1 h2 => ?_⟩
  · have := runOrder_keeps (env := env) (strats := (libraryBundle p c).strategies.lookup) (data := data) (I := fun h' => InPhase h' true) names
      (fun name hname s k xs h' hs hq' => inPhase_step env c _ hb.isBundle true name (by rintro rfl; exact absurd (hn _ hname) (by decide)) s hs k xs data h' hq') w.key w.xs w.heap hq
    rw [hr] at this; exact this
  · have := C58_production_frozen env c _ hb data names hn w.key w.xs w.heap hq n hnp
    rw [hr] at this; exact this
  · have := runOrder_keeps (env := env) (strats := (libraryBundle p c).strategies.lookup) (data := data) (I := fun h' => h'.pos id = w.heap.pos id) names
      (fun name hname s k xs h' hs hq' => by rw [strat_pos env c _ hb.isBundle name s hs k xs data h' id h1 h2]; exact hq') w.key w.xs w.heap rfl
    rw [hr] at this; exact this

/-- What precedes the steppers in a production loop. -/
def preOf (p : Option (PTCfg F D d)) : List String := match p with
  | none => []
  | some _ => ["parallel_tempering"]

/-- How the positions move between two loops. -/
def gapOf (env : Env F D d M O) (c : BundleCfg F D d M O) (data : Data D) (p : Option (PTCfg F D d)) : List (Pos F d) → List (Pos F d) → Prop := match p with
  | none => Eq
  | some p => TemperingCall env c p data

theorem quietPre_library (env : Env F D d M O) (p : Option (PTCfg F D d)) (c : BundleCfg F D d M O) (data : Data D) :
    QuietPre env c (libraryBundle p c).strategies.lookup data (preOf p) (gapOf env c data p) := by
  cases p with
  | none => exact quietPre_nil env c _ data
  | some p => exact quietPre_tempering env c p data

/-- The call that precedes the steppers does the same in both runs. -/
theorem pre_same (env : Env F D d M O) (p : Option (PTCfg F D d)) (c c' : BundleCfg F D d M O) (hst : (libraryBundle p c').strategies = (libraryBundle p c).strategies) (data : Data D)
    (w w' w1 w1' : World F D d M O) (hk : w.key = w'.key) (hx : w.xs = w'.xs) (hA : ResAgree notProduction w.heap w'.heap)
    (h : Completes env (libraryBundle p c).strategies.lookup data (preOf p) w w1) (h' : Completes env (libraryBundle p c').strategies.lookup data (preOf p) w' w1') :
    w1.key = w1'.key ∧ w1.xs = w1'.xs ∧ ResAgree notProduction w1.heap w1'.heap := by
  rw [hst] at h'
  cases p with
  | none =>
    rw [preOf, completes_nil] at h h'
    subst h; subst h'
    exact ⟨hk, hx, hA⟩
  | some p =>
    rw [preOf, completes_cons] at h h'
    obtain ⟨s, k1, xs1, h1, e, r, h⟩ := h
    obtain ⟨s', k1', xs1', h1', e', r', h'⟩ := h'
    rw [completes_nil] at h h'
    subst h; subst h'
    rw [e] at e'
    simp only [Option.some.injEq] at e'
    subst e'
    have es : s = .parallelTempering (ptStrat c p) := by
      simp only [libraryBundle, ptBundle, ptStrategies, Option.some.injEq] at e
      exact e.symm
    subst es
    have := C84_tempering env (ptStrat c p) w.key w.xs data w.heap w'.heap hA (by simp [notProduction, ptStrat]) (by simp [notProduction, ptStrat]) (by simp [notProduction, ptStrat]) (by simp [notProduction, ptStrat])
    rw [hk, hx] at this
    simp only [Strategy.run] at r r'
    rw [hk, hx] at r
    rw [r, r'] at this
    obtain ⟨a, b⟩ := this
    simp only [Except.ok.injEq, Prod.mk.injEq] at a
    exact ⟨a.1, a.2, b⟩

/-- One production loop keeps two runs in step. -/
theorem inStep_loop (env : Env F D d M O) (hl : env.ops.Lawful) (p : Option (PTCfg F D d)) (c : BundleCfg F D d M O) (hc : GoodCfg c) (n' : ℕ) (data : Data D)
    (w w' v v' : World F D d M O) (logs logs' : Bool → List (Block F d)) (hi : InStep c { c with nProdLoops := n' } w w' logs logs')
    (hrun : Completes env (libraryBundle p c).strategies.lookup data (preOf p ++ productionPhase) w v)
    (hrun' : Completes env (libraryBundle p { c with nProdLoops := n' }).strategies.lookup data (preOf p ++ productionPhase) w' v')
    (hfit : blocksLen (rowsPerCall c) (logs true) + (rowsPerCall c true + rowsPerCall c false) ≤ c.nProdSteps) (hn : c.nProdLoops ≤ n') :
    ∃ b1 b2, InStep c { c with nProdLoops := n' } v v' (Function.update logs true (logs true ++ [b1, b2])) (Function.update logs' true (logs' true ++ [b1, b2])) ∧
      b1.isLocal = true ∧ b2.isLocal = false := by
  set c' : BundleCfg F D d M O := { c with nProdLoops := n' } with hc'
  have hgood : GoodCfg c' := ⟨hc.nLocal, hc.nGlobal, hc.localThin, hc.globalThin, hc.localDvd, hc.globalDvd, hc.nfBatch⟩
  have hst : (libraryBundle p c').strategies = (libraryBundle p c).strategies := libraryBundle_strategies p c n'
  have hcap : c.nProdSteps ≤ c'.nProdSteps := by
    simp only [BundleCfg.nProdSteps, hc']
    exact Nat.add_le_add (Nat.mul_le_mul_left _ hn) (Nat.mul_le_mul_left _ hn)
  have hcur' : w'.heap.pos "local_stepper" = blocksLen (rowsPerCall c') (logs' true) := by
    rw [← hi.agree.2, hi.cur, hi.log]; rfl
  obtain ⟨b1, b2, w1, w2, w4, m, hg, hb1, hb2, hx, inv, hlen, ht1, ht2, hp, hpg⟩ := one_loop env hl c hc _ (libraryBundle_isBundle p c).hasCore data true (preOf p) [] (gapOf env c data p)
    (quietPre_library env p c data) (quietMid_nil env c _ data) w v hrun logs hi.inv hi.len hi.cur hfit
  obtain ⟨b1', b2', w1', w2', w4', m', hg', hb1', hb2', hx', inv', hlen', ht1', ht2', hp', hpg'⟩ := one_loop env hl c' hgood _ (libraryBundle_isBundle p c').hasCore data true (preOf p) []
    (gapOf env c' data p) (quietPre_library env p c' data) (quietMid_nil env c' _ data) w' v' hrun' logs' hi.inv' (by rw [← hi.xs]; exact hi.len) hcur'
    (by rw [← hi.log]; exact le_trans hfit hcap)
  obtain ⟨x1, x2, x3, x4, x5, x6, x7, x8⟩ := hx
  obtain ⟨x1', x2', x3', x4', x5', x6', x7', x8'⟩ := hx'
  obtain ⟨k1, e1, A1⟩ := pre_same env p c c' hst data w w' w1 w1' hi.key hi.xs hi.agree x1 x1'
  rw [completes_nil] at x4 x4'
  subst x4; subst x4'
  have gs : ∀ n : String, n = "global_sampler" → ¬ IsSampleBuffer n := by rintro n rfl; exact not_isSampleBuffer (by decide)
  have hm : m = m' := by
    rw [x3 _ (gs _ rfl), A1.1 _ (by simp [notProduction]), ← x3' _ (gs _ rfl), x5'] at x5
    simp only [Option.some.injEq, Resource.kernel.injEq, KernelRes.nf.injEq] at x5
    exact x5.1.symm
  subst hm
  rw [← k1, ← e1] at hb1'
  obtain ⟨eb1, e2⟩ := localBlock_unique hb1 (c := c) hb1'
  rw [x2] at hb2
  rw [x2', ← k1, ← e2] at hb2'
  obtain ⟨eb2, e3⟩ := globalBlock_unique hb2 (c := c) hb2'
  subst eb1; subst eb2
  have hpm : ∀ n ∈ preOf p ++ productionPhase, n ∈ inProduction := by
    intro n hn
    cases p <;> simp only [preOf, List.nil_append, List.cons_append, productionPhase, inProduction, List.mem_cons, List.not_mem_nil, or_false] at hn ⊢ <;> tauto
  have hq' : InPhase w'.heap true := by
    obtain ⟨st, h1, h2⟩ := hi.phase
    exact ⟨st, by rw [← hi.agree.1 _ (by simp [notProduction])]; exact h1, h2⟩
  obtain ⟨q1, q2, q3⟩ := production_keeps env p c data _ hpm w v hrun hi.phase
  obtain ⟨q1', q2', q3'⟩ := production_keeps env p c' data _ hpm w' v' hrun' hq'
  refine ⟨b1, b2, ⟨?_, e3, hlen, ⟨?_, ?_⟩, q1, inv, inv', ?_, ?_⟩, ht1, ht2⟩
  · rw [x6, x6', x2, x2', k1]
  · intro n hn
    rw [q2 n hn, q2' n hn, hi.agree.1 n hn]
  · intro id
    by_cases h1 : id = "local_stepper"
    · rw [h1, hp, hp', hi.log]; rfl
    by_cases h2 : id = "global_stepper"
    · rw [h2, hpg, hpg', hi.log]; rfl
    rw [q3 id h1 h2, q3' id h1 h2, hi.agree.2]
  · rw [Function.update_self]; exact hp
  · rw [Function.update_self, Function.update_self, hi.log]


/-- Any number of production loops keeps two runs in step. -/
theorem inStep_loops (env : Env F D d M O) (hl : env.ops.Lawful) (p : Option (PTCfg F D d)) (c : BundleCfg F D d M O) (hc : GoodCfg c) (n' : ℕ) (hn : c.nProdLoops ≤ n') (data : Data D)
    (w w' : World F D d M O) (logs logs' : Bool → List (Block F d)) (hi : InStep c { c with nProdLoops := n' } w w' logs logs') (h0 : logs true = []) (l : ℕ) (hlt : l ≤ c.nProdLoops) :
    ∀ v v', Completes env (libraryBundle p c).strategies.lookup data (repeatPhase l (preOf p ++ productionPhase)) w v →
    Completes env (libraryBundle p { c with nProdLoops := n' }).strategies.lookup data (repeatPhase l (preOf p ++ productionPhase)) w' v' →
    ∃ log, blocksLen (rowsPerCall c) log = l * (rowsPerCall c true + rowsPerCall c false) ∧
      InStep c { c with nProdLoops := n' } v v' (Function.update logs true log) (Function.update logs' true log) := by
  induction l with
  | zero =>
    intro v v' h h'
    simp only [repeatPhase, List.replicate_zero, List.flatten_nil, completes_nil] at h h'
    subst h; subst h'
    refine ⟨[], by simp [blocksLen], ?_⟩
    have e : Function.update logs' true [] = logs' := by rw [← h0, hi.log, Function.update_eq_self]
    rw [e, ← h0, Function.update_eq_self]
    exact hi
  | succ l ih =>
    intro v v' h h'
    rw [repeatPhase_succ, completes_append] at h h'
    obtain ⟨u, h1, h2⟩ := h
    obtain ⟨u', h1', h2'⟩ := h'
    obtain ⟨log, hb, hs⟩ := ih (by omega) u u' h1 h1'
    obtain ⟨b1, b2, hs', t1, t2⟩ := inStep_loop env hl p c hc n' data u u' v v' _ _ hs h2 h2' (by
      rw [Function.update_self, hb]
      have := capacity_eq c true
      simp only [capacity, nLoops, if_true] at this
      rw [this]
      calc _ = (l + 1) * (rowsPerCall c true + rowsPerCall c false) := by ring
        _ ≤ _ := Nat.mul_le_mul_right _ hlt) hn
    rw [Function.update_idem, Function.update_idem, Function.update_self, Function.update_self] at hs'
    refine ⟨log ++ [b1, b2], ?_, hs'⟩
    rw [blocksLen_append, hb]
    simp [blocksLen, t1, t2]
    ring

/-- Further production loops only add to the log. -/
theorem more_loops (env : Env F D d M O) (hl : env.ops.Lawful) (p : Option (PTCfg F D d)) (c : BundleCfg F D d M O) (hc : GoodCfg c) (data : Data D)
    (w : World F D d M O) (logs : Bool → List (Block F d)) (l0 : ℕ) (hb : blocksLen (rowsPerCall c) (logs true) = l0 * (rowsPerCall c true + rowsPerCall c false))
    (inv : BundleInv c true w.heap logs) (hx : w.xs.length = c.nChains) (hcur : w.heap.pos "local_stepper" = blocksLen (rowsPerCall c) (logs true)) (l : ℕ) (hlt : l0 + l ≤ c.nProdLoops) :
    ∀ v, Completes env (libraryBundle p c).strategies.lookup data (repeatPhase l (preOf p ++ productionPhase)) w v →
    ∃ rest, blocksLen (rowsPerCall c) (logs true ++ rest) = (l0 + l) * (rowsPerCall c true + rowsPerCall c false) ∧ BundleInv c true v.heap (Function.update logs true (logs true ++ rest)) ∧
      v.xs.length = c.nChains ∧ v.heap.pos "local_stepper" = blocksLen (rowsPerCall c) (logs true ++ rest) := by
  induction l with
  | zero =>
    intro v h
    simp only [repeatPhase, List.replicate_zero, List.flatten_nil, completes_nil] at h
    subst h
    exact ⟨[], by simpa using hb, by rw [List.append_nil, Function.update_eq_self]; exact inv, hx, by simpa using hcur⟩
  | succ l ih =>
    intro v h
    rw [repeatPhase_succ, completes_append] at h
    obtain ⟨u, h1, h2⟩ := h
    obtain ⟨rest, hb', inv', hx', hcur'⟩ := ih (by omega) u h1
    obtain ⟨b1, b2, w1, w2, w4, m, -, -, -, -, inv2, hlen, ht1, ht2, hp, -⟩ := one_loop env hl c hc _ (libraryBundle_isBundle p c).hasCore data true (preOf p) [] (gapOf env c data p)
      (quietPre_library env p c data) (quietMid_nil env c _ data) u v h2 _ inv' hx' (by rw [Function.update_self]; exact hcur') (by
        rw [Function.update_self, hb', capacity_eq]
        calc _ = (l0 + (l + 1)) * (rowsPerCall c true + rowsPerCall c false) := by ring
          _ ≤ _ := Nat.mul_le_mul_right _ hlt)
    rw [Function.update_idem, Function.update_self, List.append_assoc] at inv2
    rw [Function.update_self, List.append_assoc] at hp
    refine ⟨rest ++ [b1, b2], ?_, inv2, hlen, hp⟩
    rw [← List.append_assoc, blocksLen_append, hb']
    simp [blocksLen, ht1, ht2]
    ring

/-- The state in which production starts. -/
theorem trained_inv (env : Env F D d M O) (hl : env.ops.Lawful) (p : Option (PTCfg F D d)) (c : BundleCfg F D d M O) (hc : GoodCfg c) (data : Data D) (key : Key) (xs : List (Pos F d))
    (hx : xs.length = c.nChains) (w : World F D d M O)
    (hrun : Completes env (libraryBundle p c).strategies.lookup data (trainingOrder p c) ⟨key, xs, ⟨(libraryBundle p c).resources, fun _ => 0⟩⟩ w) :
    (∃ logT, BundleInv c true w.heap (Function.update (fun _ => []) false logT)) ∧ w.xs.length = c.nChains ∧ w.heap.pos "local_stepper" = 0 ∧ InPhase w.heap true := by
  have main : ∀ w0 : World F D d M O, Completes env (libraryBundle p c).strategies.lookup data (repeatPhase c.nTrainLoops (preOf p ++ trainingPhase) ++ ["reset_steppers", "update_state"]) w0 w →
      BundleInv c false w0.heap (fun _ => []) → w0.xs.length = c.nChains → w0.heap.pos "local_stepper" = 0 →
      (∃ logT, BundleInv c true w.heap (Function.update (fun _ => []) false logT)) ∧ w.xs.length = c.nChains ∧ w.heap.pos "local_stepper" = 0 ∧ InPhase w.heap true := by
    intro w0 h inv hx0 hp0
    rw [completes_append] at h
    obtain ⟨wT, h1, h2⟩ := h
    have hs := (libraryBundle_isBundle p c).hasCore
    obtain ⟨logT, lo1, ll1, bl1, inv1, hx1, -, -⟩ := many_loops env hl c hc _ hs data false (preOf p) ["model_trainer", "update_model"] (gapOf env c data p)
      (quietPre_library env p c data) (quietMid_train env c _ hs data) w0 (fun _ => []) rfl inv hx0 hp0 c.nTrainLoops (le_refl _) wT h1
    obtain ⟨hx2, -, inv2, hp2, -, -, st, hst, htr⟩ := switch_step env c _ hs data wT w h2 _ inv1
    refine ⟨⟨logT, inv2⟩, by rw [hx2]; exact hx1, hp2, ?_⟩
    obtain ⟨st', hst', hpt⟩ := inv2.state
    rw [hst] at hst'
    simp only [Option.some.injEq, Resource.state.injEq] at hst'
    subst hst'
    exact ⟨st, hst, hpt, htr⟩
  cases p with
  | none => exact main _ hrun (bundleInv_fresh c _ (fun _ _ => rfl)) hx rfl
  | some p =>
    rw [trainingOrder, completes_cons] at hrun
    obtain ⟨s0, k1, xs1, h1, e1, r1, hcomp⟩ := hrun
    have : s0 = .lambda (initTempered p) := by
      have e : (ptBundle c p).strategies.lookup "initialize_tempered_positions" = some (.lambda (initTempered p)) := rfl
      have e' : (ptBundle c p).strategies.lookup "initialize_tempered_positions" = some s0 := e1
      rw [e] at e'; simpa using e'.symm
    subst this
    have hfr := strat_frame env c (ptStrategies c p).lookup (.pt p) false "initialize_tempered_positions" _ rfl key xs data
      ⟨ptResources c p, fun _ => 0⟩ ⟨initialState, rfl, rfl, rfl, rfl, rfl⟩
    have hr1 : (Strategy.lambda (initTempered p)).run env key xs data (⟨ptResources c p, fun _ => 0⟩ : Heap F D d M O) = (.ok (k1, xs1), h1) := r1
    rw [hr1] at hfr
    have hxs : xs1 = xs ∧ h1.pos = fun _ => 0 := by
      have hu := (Heap.updateBuffer_frame (⟨ptResources c p, fun _ => 0⟩ : Heap F D d M O) "tempered_positions" (arr3 BufNum.negInf xs.length
        (p.nTemps - 1) (xs.map (fun x => List.replicate (p.nTemps - 1) x))) 0).2
      simp only [Strategy.run, runLambda, initTempered] at hr1
      split at hr1
      · simp at hr1
      · rename_i e
        rw [e] at hu
        simp only [Prod.mk.injEq, Except.ok.injEq] at hr1
        obtain ⟨⟨-, rfl⟩, rfl⟩ := hr1
        exact ⟨rfl, hu⟩
    obtain ⟨rfl, hpos⟩ := hxs
    refine main _ hcomp (bundleInv_fresh c _ (fun n hn => by
      rw [hfr n (by simp only [writes]; rintro hm; revert hn; simp at hm; subst hm; decide)]
      simp only [coreNames, List.mem_cons, List.not_mem_nil, or_false] at hn
      rcases hn with rfl | rfl | rfl | rfl | rfl | rfl | rfl | rfl | rfl | rfl | rfl | rfl <;> rfl)) hx (by simp only [hpos])

theorem strategyOrder_split (p : Option (PTCfg F D d)) (c : BundleCfg F D d M O) : (libraryBundle p c).strategyOrder = trainingOrder p c ++ repeatPhase c.nProdLoops (preOf p ++ productionPhase) := by
  cases p <;> rfl

theorem completes_of_runOrder {env : Env F D d M O} {strats : String → Option (Strategy F D d M O)} {data : Data D} {names : List String} {k k' : Key} {xs xs' : List (Pos F d)}
    {h h' : Heap F D d M O} (hr : runOrder env strats names k xs data h = (.ok (k', xs'), h')) : Completes env strats data names ⟨k, xs, h⟩ ⟨k', xs', h'⟩ := by
  induction names generalizing k xs h with
  | nil =>
    simp only [runOrder, Prod.mk.injEq, Except.ok.injEq] at hr
    obtain ⟨⟨rfl, rfl⟩, rfl⟩ := hr
    exact .done _
  | cons a as ih =>
    unfold runOrder at hr
    cases hs : strats a with
    | none => rw [hs] at hr; simp at hr
    | some s =>
      rw [hs] at hr
      simp only at hr
      rcases e : s.run env k xs data h with ⟨_ | ⟨k1, x1⟩, h1⟩
      · rw [e] at hr; simp at hr
      · rw [e] at hr
        exact .next hs e (ih hr)

/-- Two sets of resources hold the same samples in the first `T` rows of the production buffers of `n` chains. -/
structure Spec.SameRows (n T : ℕ) (h h' : Heap F D d M O) : Prop where
  positions : ∃ b b', h.res "positions_production" = some (.buffer b) ∧ h'.res "positions_production" = some (.buffer b') ∧
    ∀ i < n, ∀ j < T, ∀ a : Fin d, b.data.get [i, j, a] = b'.data.get [i, j, a]
  scalars : ∀ name ∈ ["log_prob_production", "local_accs_production", "global_accs_production"], ∃ b b', h.res name = some (.buffer b) ∧ h'.res name = some (.buffer b') ∧
    ∀ i < n, ∀ j < T, b.data.get [i, j] = b'.data.get [i, j]

/-- **C85.** A run with more production loops extends the run with fewer: with the same seed, initial positions and settings, after both runs have finished, everything but the production buffers
(trained flow, optimizer, training samples, losses, state, temperatures, …) is identical, and the production buffers of the short run are the first rows of those of the long run. -/
theorem C85_extends (env : Env F D d M O) (hl : env.ops.Lawful) (p : Option (PTCfg F D d)) (c : BundleCfg F D d M O) (hc : GoodCfg c) (n' : ℕ) (hn : c.nProdLoops ≤ n') (data : Data D)
    (nd nc : ℕ) (key : Key) (kw : List (String × V)) (s s1 t t1 : Sampler F D d M O V) (hs : Sampler.new nd nc key none none none (some (libraryBundle p c)) kw = .ok s)
    (ht : Sampler.new nd nc key none none none (some (libraryBundle p { c with nProdLoops := n' })) kw = .ok t) (init : InitPos F d) (hx : init.atleast2d.length = c.nChains)
    (hrun : s.sample env init data = (.ok (), s1)) (hrun' : t.sample env init data = (.ok (), t1)) :
    (∀ name ∈ notProduction, s1.heap.res name = t1.heap.res name) ∧ SameRows c.nChains c.nProdSteps s1.heap t1.heap := by
  set c' : BundleCfg F D d M O := { c with nProdLoops := n' } with hc'
  have hgood : GoodCfg c' := ⟨hc.nLocal, hc.nGlobal, hc.localThin, hc.globalThin, hc.localDvd, hc.globalDvd, hc.nfBatch⟩
  have cur0 : ∀ c : BundleCfg F D d M O, (libraryBundle p c).strategies.cursors = fun _ => 0 := by intro c; cases p <;> rfl
  simp only [Sampler.new, Except.ok.injEq] at hs ht
  subst hs; subst ht
  obtain ⟨k1, xs1, h1, -⟩ := sample_completes env _ s1 _ rfl init data hrun
  obtain ⟨k2, xs2, h2, -⟩ := sample_completes env _ t1 _ rfl init data hrun'
  simp only [strategyOrder_split, cur0] at h1 h2
  rw [completes_append] at h1 h2
  obtain ⟨w, hT, hP⟩ := h1
  obtain ⟨w', hT', hP'⟩ := h2
  have htr : trainingOrder p c' = trainingOrder p c := by cases p <;> rfl
  have hsame := C85_training env p c n' data key init.atleast2d
  rw [completes_sample hT, ← htr, completes_sample hT'] at hsame
  obtain ⟨hkx, hA⟩ := hsame
  simp only [Except.ok.injEq, Prod.mk.injEq] at hkx
  obtain ⟨⟨logT, inv⟩, hlen, hcur, hph⟩ := trained_inv env hl p c hc data key _ hx w hT
  obtain ⟨⟨logT', inv'⟩, -, -, -⟩ := trained_inv env hl p c' hgood data key _ hx w' hT'
  have hi : InStep c c' w w' (Function.update (fun _ => []) false logT) (Function.update (fun _ => []) false logT') :=
    ⟨hkx.1, hkx.2, hlen, hA, hph, inv, inv', by simp [hcur, blocksLen], rfl⟩
  obtain ⟨e, he⟩ : ∃ e, n' = c.nProdLoops + e := ⟨n' - c.nProdLoops, by omega⟩
  have hP2 : Completes env (libraryBundle p c').strategies.lookup data (repeatPhase c.nProdLoops (preOf p ++ productionPhase) ++ repeatPhase e (preOf p ++ productionPhase)) w' ⟨k2, xs2, t1.heap⟩ := by
    have : repeatPhase c'.nProdLoops (preOf p ++ productionPhase) = repeatPhase c.nProdLoops (preOf p ++ productionPhase) ++ repeatPhase e (preOf p ++ productionPhase) := by
      simp only [repeatPhase, hc', he, List.replicate_add, List.flatten_append]
    rw [← this]; exact hP'
  rw [completes_append] at hP2
  obtain ⟨u, hU, hV⟩ := hP2
  obtain ⟨log, hb, hs⟩ := inStep_loops env hl p c hc n' hn data w w' _ _ hi rfl c.nProdLoops le_rfl _ u hP hU
  obtain ⟨rest, hb2, inv2, -, -⟩ := more_loops env hl p c' hgood data u _ c.nProdLoops (by rw [Function.update_self]; exact hb) hs.inv' (by rw [← hs.xs]; exact hs.len)
    (by rw [← hs.agree.2, hs.cur, Function.update_self, Function.update_self]; rfl) e (by simp [hc', he]) _ hV
  have hpm : ∀ n ∈ repeatPhase e (preOf p ++ productionPhase), n ∈ inProduction := by
    intro n hn
    simp only [repeatPhase, List.mem_flatten, List.mem_replicate] at hn
    obtain ⟨l, ⟨-, rfl⟩, hn⟩ := hn
    cases p <;> simp only [preOf, List.nil_append, List.cons_append, productionPhase, inProduction, List.mem_cons, List.not_mem_nil, or_false] at hn ⊢ <;> tauto
  have hqu : InPhase u.heap true := by
    obtain ⟨st, a1, a2⟩ := hs.phase
    exact ⟨st, by rw [← hs.agree.1 _ (by simp [notProduction])]; exact a1, a2⟩
  obtain ⟨-, q2, -⟩ := production_keeps env p c' data _ hpm u _ hV hqu
  have hcap : c.nProdSteps ≤ c'.nProdSteps := by
    simp only [BundleCfg.nProdSteps, hc']
    exact Nat.add_le_add (Nat.mul_le_mul_left _ hn) (Nat.mul_le_mul_left _ hn)
  have hlenlog : ∀ i < c.nChains, (tagged log i).length = c.nProdSteps := by
    intro i hi'
    have hsz := hs.inv.sized true
    rw [Function.update_self] at hsz
    rw [tagged_length c.nChains (rowsPerCall c) log hsz i hi', hb]
    exact (capacity_eq c true).symm
  have htag : ∀ i < c.nChains, ∀ j < c.nProdSteps, (tagged (log ++ rest) i)[j]? = (tagged log i)[j]? := by
    intro i hi' j hj
    rw [tagged_append, List.getElem?_append_left (by rw [hlenlog i hi']; exact hj)]
  have r1 := hs.inv.recs true
  have r2 := inv2.recs true
  rw [Function.update_self] at r1 r2
  rw [Function.update_self] at r2
  refine ⟨fun n hn => ?_, ⟨?_, ?_⟩⟩
  · have := q2 n hn
    simp only at this ⊢
    rw [this]; exact hs.agree.1 n hn
  · obtain ⟨b, e1, -, -, f1⟩ := r1.pos
    obtain ⟨b', e2, -, -, f2⟩ := r2.pos
    refine ⟨b, b', e1, e2, fun i hi' j hj a => ?_⟩
    rw [f1 i j a hi' hj, f2 i j a hi' (lt_of_lt_of_le hj hcap), htag i hi' j hj]
  · intro name hname
    have acc : ∀ tag, ∃ b b', s1.heap.res (accName true tag) = some (.buffer b) ∧ t1.heap.res (accName true tag) = some (.buffer b') ∧
        ∀ i < c.nChains, ∀ j < c.nProdSteps, b.data.get [i, j] = b'.data.get [i, j] := by
      intro tag
      obtain ⟨b, e1, -, -, f1⟩ := r1.acc tag
      obtain ⟨b', e2, -, -, f2⟩ := r2.acc tag
      refine ⟨b, b', e1, e2, fun i hi' j hj => ?_⟩
      rw [f1 i j hi' hj, f2 i j hi' (lt_of_lt_of_le hj hcap), htag i hi' j hj]
    simp only [List.mem_cons, List.not_mem_nil, or_false] at hname
    rcases hname with rfl | rfl | rfl
    · obtain ⟨b, e1, -, -, f1⟩ := r1.logp
      obtain ⟨b', e2, -, -, f2⟩ := r2.logp
      refine ⟨b, b', e1, e2, fun i hi' j hj => ?_⟩
      rw [f1 i j hi' hj, f2 i j hi' (lt_of_lt_of_le hj hcap), htag i hi' j hj]
    · exact acc true
    · exact acc false

end FlowMC
