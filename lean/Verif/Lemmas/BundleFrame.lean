import Verif.Props.Bundles
/-
Which resources each strategy of the two bundles can change.
-/
set_option linter.unusedSectionVars false
namespace FlowMC
open Spec

variable {F D : Type} {d : Nat} {M O V : Type}
variable [Zero F] [One F] [Add F] [Mul F] [Div F] [Sub F] [Neg F] [NatCast F] [Transc F] [FCmp F] [BufNum F]

/-- Resources a strategy of the bundles may change while the state points at phase `q`. -/
def writes (q : Bool) (name : String) : List String :=
  if name = "local_stepper" then [posName q, logpName q, accName q true]
  else if name = "global_stepper" then [posName q, logpName q, accName q false]
  else if name = "model_trainer" then ["loss_buffer", "model", "optimizer"]
  else if name = "update_model" then ["global_sampler"]
  else if name = "update_state" then ["sampler_state"]
  else if name = "parallel_tempering" then ["tempered_positions", "temperatures"]
  else if name = "initialize_tempered_positions" then ["tempered_positions"]
  else []

/-- One of the two bundles' strategy dictionaries. -/
inductive IsBundle (c : BundleCfg F D d M O) : (String → Option (Strategy F D d M O)) → Prop
  | plain : IsBundle c (bundleStrategies c).lookup
  | pt (p : PTCfg F D d) : IsBundle c (ptStrategies c p).lookup

theorem IsBundle.hasCore {c : BundleCfg F D d M O} {strats : String → Option (Strategy F D d M O)} (h : IsBundle c strats) : HasCore c strats := by
  cases h with
  | plain => exact bundle_hasCore c
  | pt p => exact pt_hasCore c p

/-- All entries of the dictionaries. -/
theorem IsBundle.cases' {c : BundleCfg F D d M O} {strats : String → Option (Strategy F D d M O)} (h : IsBundle c strats) (name : String)
    (s : Strategy F D d M O) (hs : strats name = some s) :
    (name = "local_stepper" ∧ s = .takeSteps (localStepper c)) ∨ (name = "global_stepper" ∧ s = .takeSteps (globalStepper c)) ∨
    (name = "model_trainer" ∧ ∃ w, s = .trainModel (modelTrainer c w)) ∨ (name = "update_state" ∧ s = .updateState updateStateStrat) ∨
    (name = "update_global_step" ∧ s = .lambda updateGlobalStep) ∨ (name = "update_local_step" ∧ s = .lambda updateLocalStep) ∨
    (name = "reset_steppers" ∧ s = .lambda resetSteppers) ∨ (name = "update_model" ∧ s = .lambda updateModel) ∨
    (name = "parallel_tempering" ∧ ∃ p, strats = (ptStrategies c p).lookup ∧ s = .parallelTempering (ptStrat c p)) ∨
    (name = "initialize_tempered_positions" ∧ ∃ p, strats = (ptStrategies c p).lookup ∧ s = .lambda (initTempered p)) := by
  cases h with
  | plain =>
    simp only [bundleStrategies] at hs
    split at hs <;> simp only [Option.some.injEq, reduceCtorEq] at hs <;> subst hs <;> simp
  | pt p =>
    simp only [ptStrategies, bundleStrategies] at hs
    repeat' split at hs
    all_goals simp only [Option.some.injEq, reduceCtorEq] at hs <;> subst hs
    all_goals simp
    all_goals exact ⟨p, rfl, rfl⟩

/-- A stepper of the bundle changes at most the three buffers the state points it to. -/
theorem stepper_frame (env : Env F D d M O) (s : TakeSteps) (k : Key) (xs : List (Pos F d)) (data : Data D) (h : Heap F D d M O) (q tag : Bool)
    (hn : s.bufferNames = ["target_positions", "target_log_prob", if tag then "target_local_accs" else "target_global_accs"])
    (hsn : s.stateName = "sampler_state") (hst : ∃ st, h.res "sampler_state" = some (.state st) ∧ PointsTo st q)
    (n : String) (h1 : n ≠ posName q) (h2 : n ≠ logpName q) (h3 : n ≠ accName q tag) : (s.run env k xs data h).2.res n = h.res n := by
  obtain ⟨st, hst, p1, p2, p3, p4⟩ := hst
  obtain ⟨-, he | ⟨st', p, l, a, P, L, A, hs', ⟨e1, e2, e3⟩, ⟨d1, d2, d3⟩, hf⟩⟩ := C19_frame env s k xs data h
  · rw [he]
  · rw [hsn, hst] at hs'
    simp only [Option.some.injEq, Resource.state.injEq] at hs'
    subst hs'
    rw [hn] at e1 e2 e3
    simp only [List.getElem?_cons_zero, List.getElem?_cons_succ, Option.some.injEq] at e1 e2 e3
    subst e1; subst e2; subst e3
    rw [p1] at d1; rw [p2] at d2
    have d3' : some (SVal.str (accName q tag)) = some (.str A) := by
      rw [← d3]; cases tag
      · exact p4.symm
      · exact p3.symm
    simp only [Option.some.injEq, SVal.str.injEq] at d1 d2 d3'
    exact hf n (by rw [← d1]; exact h1) (by rw [← d2]; exact h2) (by rw [← d3']; exact h3)

/-- Footprint of every strategy of the bundles, whether or not it raises. -/
theorem strat_frame (env : Env F D d M O) (c : BundleCfg F D d M O) (strats : String → Option (Strategy F D d M O)) (hb : IsBundle c strats)
    (q : Bool) (name : String) (s : Strategy F D d M O) (hs : strats name = some s) (k : Key) (xs : List (Pos F d)) (data : Data D)
    (h : Heap F D d M O) (hst : ∃ st, h.res "sampler_state" = some (.state st) ∧ PointsTo st q)
    (n : String) (hn : n ∉ writes q name) : (s.run env k xs data h).2.res n = h.res n := by
  rcases hb.cases' name s hs with ⟨rfl, rfl⟩ | ⟨rfl, rfl⟩ | ⟨rfl, w, rfl⟩ | ⟨rfl, rfl⟩ | ⟨rfl, rfl⟩ | ⟨rfl, rfl⟩ | ⟨rfl, rfl⟩ | ⟨rfl, rfl⟩ | ⟨rfl, p, -, rfl⟩ | ⟨rfl, p, -, rfl⟩ <;>
    simp [writes] at hn
  · exact stepper_frame env (localStepper c) k xs data h q true rfl rfl hst n hn.1 hn.2.1 hn.2.2
  · exact stepper_frame env (globalStepper c) k xs data h q false rfl rfl hst n hn.1 hn.2.1 hn.2.2
  · exact (trainModel_frame env (modelTrainer c w) k xs h).1 n hn.1 hn.2.1 hn.2.2
  · obtain ⟨st, hst, -⟩ := hst
    obtain ⟨h', r, -, -, hf⟩ := C05_update_state_strategy (F := F) (D := D) (d := d) (M := M) (O := O) updateStateStrat k xs h st hst
    simp only [Strategy.run, r]
    exact hf n hn
  · rfl
  · rfl
  · rfl
  · simp only [Strategy.run, runLambda, updateModel]
    split
    · rename_i e
      split at e <;> simp only [Prod.mk.injEq, reduceCtorEq, false_and] at e <;> rw [← e.2]
    · rename_i e
      split at e <;> simp only [Prod.mk.injEq, reduceCtorEq, false_and] at e
      rw [← e.2]
      simp [Heap.setRes, dictSet, hn]
  · refine (C35_frame env (ptStrat c p) k xs data h).1 n ?_
    simpa [ptStrat] using hn
  · have := (Heap.updateBuffer_frame h "tempered_positions"
      (arr3 BufNum.negInf xs.length (p.nTemps - 1) (xs.map (fun x => List.replicate (p.nTemps - 1) x))) 0).1 n hn
    simp only [Strategy.run, runLambda, initTempered]
    split <;> rename_i e <;> rw [e] at this <;> exact this

/-- A successful stepper call returns as many positions as it was given. -/
theorem takeSteps_length (env : Env F D d M O) (s : TakeSteps) (k k' : Key) (xs ys : List (Pos F d)) (data : Data D) (h h' : Heap F D d M O)
    (hr : s.run env k xs data h = (.ok (k', ys), h')) : ys.length = xs.length := by
  unfold TakeSteps.run at hr
  split at hr
  · simp at hr
  · rename_i p hp
    have hrows : p.rows.length = xs.length := by
      simp only [TakeSteps.plan, bind, Except.bind, runChains_eq] at hp
      repeat' split at hp <;> try (cases hp; done)
      rename_i hm _
      simp only [Except.ok.injEq] at hp
      subst hp
      have := ((mapE_ok_iff _ _ _).1 hm).length_eq
      simp only [List.length_map]
      rw [← this]
      simp [splitN_length]
    have hlast : ∀ zs, lastRows p.rows = .ok zs → zs.length = p.rows.length :=
      fun zs hz => ((mapE_ok_iff _ _ _).1 hz).length_eq.symm
    unfold TakeSteps.commit at hr
    dsimp only at hr
    generalize lastRows p.rows = z at hr hlast
    cases z with
    | error e =>
      exfalso
      dsimp only at hr
      split at hr <;> [simp at hr; skip]
      split at hr <;> [simp at hr; skip]
      split at hr <;> simp at hr
    | ok zs =>
    have hz := hlast zs rfl
    dsimp only at hr
    split at hr <;> [(simp at hr; done); skip]
    split at hr <;> [(simp at hr; done); skip]
    split at hr <;> [(simp at hr; done); skip]
    simp only [Prod.mk.injEq, Except.ok.injEq] at hr
    rw [← hr.1.2, ← hrows]
    exact hz

/-- A property of worlds kept by every strategy in a list is kept by running the list. -/
theorem completes_keeps {env : Env F D d M O} {strats : String → Option (Strategy F D d M O)} {data : Data D} (I : World F D d M O → Prop)
    (names : List String) (hI : ∀ name ∈ names, ∀ s w k' xs' h', strats name = some s → I w → s.run env w.key w.xs data w.heap = (.ok (k', xs'), h') →
      I ⟨k', xs', h'⟩) : ∀ w w', Completes env strats data names w w' → I w → I w' := by
  induction names with
  | nil => intro w w' h hw; rw [completes_nil] at h; subst h; exact hw
  | cons a as ih =>
    intro w w' h hw
    rw [completes_cons] at h
    obtain ⟨s, k1, x1, h1, e, r, h⟩ := h
    exact ih (fun n hn => hI n (List.mem_cons_of_mem _ hn)) _ _ h (hI a List.mem_cons_self s w k1 x1 h1 e hw r)

/-- A property of heaps kept by every strategy, whether it raises or not, is kept by the loop. -/
theorem runOrder_keeps {env : Env F D d M O} {strats : String → Option (Strategy F D d M O)} {data : Data D} (I : Heap F D d M O → Prop)
    (names : List String) (hI : ∀ name ∈ names, ∀ s k xs h, strats name = some s → I h → I (s.run env k xs data h).2) :
    ∀ k xs h, I h → I (runOrder env strats names k xs data h).2 := by
  induction names with
  | nil => intro k xs h hw; exact hw
  | cons a as ih =>
    intro k xs h hw
    unfold runOrder
    split
    · exact hw
    · rename_i s hs
      have := hI a List.mem_cons_self s k xs h hs hw
      split
      · rename_i e; rw [e] at this; exact this
      · rename_i e; rw [e] at this
        exact ih (fun n hn => hI n (List.mem_cons_of_mem _ hn)) _ _ _ this

end FlowMC
