import Verif.Lemmas.BundleFrame
import Mathlib.Data.Int.CardIntervalMod
import Mathlib.Tactic.Linarith
/-
C58, C59, C60: what the schedules of the two bundles guarantee along every prefix of a run.
-/
set_option linter.unusedSectionVars false
namespace FlowMC
open Spec

variable {F D : Type} {d : Nat} {M O V : Type}
variable [Zero F] [One F] [Add F] [Mul F] [Div F] [Sub F] [Neg F] [NatCast F] [Transc F] [FCmp F] [BufNum F]

/-- A bundle of the library: its strategies, its order and its resources. -/
inductive Spec.LibraryBundle (c : BundleCfg F D d M O) : Bundle F D d M O → Prop
  | mala : LibraryBundle c (malaBundle c)
  | pt (p : PTCfg F D d) : LibraryBundle c (ptBundle c p)

theorem Spec.LibraryBundle.isBundle {c : BundleCfg F D d M O} {b : Bundle F D d M O} (h : LibraryBundle c b) : IsBundle c b.strategies.lookup := by
  cases h with
  | mala => exact .plain
  | pt p => exact .pt p

/-- The state as both phases leave it: pointing at the buffers of phase `q`, `training` true exactly in the training phase. -/
def Spec.InPhase (h : Heap F D d M O) (q : Bool) : Prop :=
  ∃ st, h.res "sampler_state" = some (.state st) ∧ PointsTo st q ∧ st.data "training" = some (.bool !q)

theorem inPhase_update (env : Env F D d M O) (k : Key) (xs : List (Pos F d)) (data : Data D) (h : Heap F D d M O) (q : Bool) (hq : InPhase h q) :
    InPhase ((Strategy.updateState updateStateStrat : Strategy F D d M O).run env k xs data h).2 true := by
  obtain ⟨st, hst, -⟩ := hq
  obtain ⟨h', r, -, hs, -⟩ := C05_update_state_strategy (F := F) (D := D) (d := d) (M := M) (O := O) updateStateStrat k xs h st hst
  simp only [Strategy.run, r]
  exact ⟨_, hs, by refine ⟨?_, ?_, ?_, ?_⟩ <;> simp [updateStateStrat, State.update, dictSet, posName, logpName, accName],
    by simp [updateStateStrat, State.update, dictSet]⟩

theorem inPhase_step (env : Env F D d M O) (c : BundleCfg F D d M O) (strats : String → Option (Strategy F D d M O)) (hb : IsBundle c strats)
    (q : Bool) (name : String) (hne : name ≠ "update_state") (s : Strategy F D d M O) (hs : strats name = some s) (k : Key) (xs : List (Pos F d)) (data : Data D)
    (h : Heap F D d M O) (hq : InPhase h q) : InPhase (s.run env k xs data h).2 q := by
  obtain ⟨st, hst, hp, ht⟩ := hq
  refine ⟨st, ?_, hp, ht⟩
  rw [strat_frame env c strats hb q name s hs k xs data h ⟨st, hst, hp⟩ _ ?_, hst]
  simp only [writes]
  repeat' split
  all_goals try (cases q <;> decide)

theorem inPhase_any (env : Env F D d M O) (c : BundleCfg F D d M O) (strats : String → Option (Strategy F D d M O)) (hb : IsBundle c strats)
    (name : String) (s : Strategy F D d M O) (hs : strats name = some s) (k : Key) (xs : List (Pos F d)) (data : Data D)
    (h : Heap F D d M O) (hq : ∃ q, InPhase h q) : ∃ q, InPhase (s.run env k xs data h).2 q := by
  obtain ⟨q, hq⟩ := hq
  by_cases hn : name = "update_state"
  · subst hn
    rw [hb.hasCore.update] at hs
    simp only [Option.some.injEq] at hs
    subst hs
    exact ⟨true, inPhase_update env k xs data h q hq⟩
  · exact ⟨q, inPhase_step env c strats hb q name hn s hs k xs data h hq⟩

theorem inPhase_fresh (c : BundleCfg F D d M O) (b : Bundle F D d M O) (hb : LibraryBundle c b) (pos : String → Nat) :
    InPhase (⟨b.resources, pos⟩ : Heap F D d M O) false := by
  cases hb with
  | mala => exact ⟨initialState, rfl, ⟨rfl, rfl, rfl, rfl⟩, rfl⟩
  | pt p => exact ⟨initialState, rfl, ⟨rfl, rfl, rfl, rfl⟩, rfl⟩

/-- Outside training a tempering call changes nothing, whether it succeeds or not. -/
theorem tempering_frozen (env : Env F D d M O) (s : ParallelTempering) (k : Key) (xs : List (Pos F d)) (data : Data D) (h : Heap F D d M O)
    (st : State) (hst : h.res s.stateName = some (.state st)) (ht : st.data "training" = some (.bool false)) : (s.run env k xs data h).2 = h := by
  have hp : ∀ p, s.plan env k xs data h = .ok p → p.training = false := by
    intro p hp
    have e5 : h.getState s.stateName = .ok st := by simp [Heap.getState, Heap.get, hst]
    simp only [ParallelTempering.plan, bind, Except.bind, e5] at hp
    repeat' split at hp <;> try (cases hp; done)
    simp only [Except.ok.injEq] at hp
    subst hp
    rename_i v hv
    rw [ht] at hv
    simp only [Option.some.injEq] at hv
    subst hv
    rfl
  unfold ParallelTempering.run
  split
  · rfl
  · rename_i p e
    rw [hp p e]
    rfl

/-- **C58, invariant.** From any state in which production has begun (the state entries point at the production buffers and `training` is
false), running any sequence of production strategies, tempering included, changes no resource except the four production buffers.  This
holds whether the sequence finishes or raises in the middle. -/
theorem C58_production_frozen (env : Env F D d M O) (c : BundleCfg F D d M O) (b : Bundle F D d M O) (hb : LibraryBundle c b) (data : Data D)
    (names : List String) (hn : ∀ n ∈ names, n ∈ ["parallel_tempering", "local_stepper", "update_global_step", "global_stepper", "update_local_step"])
    (k : Key) (xs : List (Pos F d)) (h : Heap F D d M O) (hq : InPhase h true) (n : String)
    (hprod : n ∉ ["positions_production", "log_prob_production", "local_accs_production", "global_accs_production"]) :
    (runOrder env b.strategies.lookup names k xs data h).2.res n = h.res n := by
  refine (runOrder_keeps (I := fun h' => InPhase h' true ∧ h'.res n = h.res n) names ?_ k xs h ⟨hq, rfl⟩).2
  rintro name hname s k xs h' hs ⟨hq', he⟩
  have hne : name ≠ "update_state" := by rintro rfl; exact absurd (hn _ hname) (by decide)
  refine ⟨inPhase_step env c _ hb.isBundle true name hne s hs k xs data h' hq', ?_⟩
  rw [← he]
  have hmem := hn name hname
  simp only [List.mem_cons, List.not_mem_nil, or_false] at hmem
  by_cases hpt : name = "parallel_tempering"
  · subst hpt
    rcases hb.isBundle.cases' _ s hs with h1 | h1 | h1 | h1 | h1 | h1 | h1 | h1 | ⟨-, p, -, rfl⟩ | h1
    all_goals try exact absurd h1.1 (by decide)
    obtain ⟨st, hst, -, ht⟩ := hq'
    have := tempering_frozen env (ptStrat c p) k xs data h' st hst ht
    simp only [Strategy.run, this]
  · obtain ⟨st, hst, hp, -⟩ := hq'
    refine strat_frame env c _ hb.isBundle true name s hs k xs data h' ⟨st, hst, hp⟩ n ?_
    simp only [List.mem_cons, List.not_mem_nil, or_false, not_or] at hprod
    rcases hmem with rfl | rfl | rfl | rfl | rfl
    · exact absurd rfl hpt
    · simp [writes, posName, logpName, accName, hprod]
    · simp [writes]
    · simp [writes, posName, logpName, accName, hprod]
    · simp [writes]

/-! ### shape of the schedules -/

theorem append_split_unique {α : Type} {x : α} {a b a' b' : List α} (h : a ++ x :: b = a' ++ x :: b') (ha : x ∉ a') (hb : x ∉ b') : a = a' ∧ b = b' := by
  rw [List.append_eq_append_iff] at h
  rcases h with ⟨c, h1, h2⟩ | ⟨c, h1, h2⟩
  · cases c with
    | nil => simp at h1 h2; exact ⟨h1.symm, h2⟩
    | cons y c =>
      simp only [List.cons_append, List.cons.injEq] at h2
      obtain ⟨rfl, -⟩ := h2
      exact absurd (by rw [h1]; simp) ha
  · cases c with
    | nil => simp at h1 h2; exact ⟨h1, h2.symm⟩
    | cons y c =>
      simp only [List.cons_append, List.cons.injEq] at h2
      obtain ⟨-, rfl⟩ := h2
      exact absurd (by simp) hb

theorem mem_repeatPhase {n : Nat} {ph : List String} {x : String} (h : x ∈ repeatPhase n ph) : x ∈ ph := by
  simp only [repeatPhase, List.mem_flatten, List.mem_replicate] at h
  obtain ⟨l, ⟨-, rfl⟩, hx⟩ := h
  exact hx

theorem count_repeatPhase (n : Nat) (ph : List String) (x : String) : (repeatPhase n ph).count x = n * ph.count x := by
  induction n with
  | zero => simp [repeatPhase]
  | succ n ih => rw [repeatPhase_succ, List.count_append, ih]; ring

/-- Loop prefix of a bundle: nothing, or a tempering call; and what precedes the first loop. -/
theorem order_shape (c : BundleCfg F D d M O) (b : Bundle F D d M O) (hb : LibraryBundle c b) :
    ∃ first pre : List String, b.strategyOrder = (first ++ repeatPhase c.nTrainLoops (pre ++ trainingPhase) ++ ["reset_steppers"]) ++
      "update_state" :: repeatPhase c.nProdLoops (pre ++ productionPhase) ∧
      (first = [] ∨ first = ["initialize_tempered_positions"]) ∧ (pre = [] ∨ pre = ["parallel_tempering"]) := by
  cases hb with
  | mala => exact ⟨[], [], by simp [malaBundle, bundleOrder], .inl rfl, .inl rfl⟩
  | pt p => exact ⟨["initialize_tempered_positions"], ["parallel_tempering"], by simp [ptBundle, ptOrder], .inr rfl, .inr rfl⟩

theorem order_split (c : BundleCfg F D d M O) (b : Bundle F D d M O) (hb : LibraryBundle c b) (as bs : List String)
    (h : b.strategyOrder = as ++ "update_state" :: bs) :
    ∃ first pre : List String, as = first ++ repeatPhase c.nTrainLoops (pre ++ trainingPhase) ++ ["reset_steppers"] ∧
      bs = repeatPhase c.nProdLoops (pre ++ productionPhase) ∧
      (first = [] ∨ first = ["initialize_tempered_positions"]) ∧ (pre = [] ∨ pre = ["parallel_tempering"]) := by
  obtain ⟨first, pre, ho, hf, hp⟩ := order_shape c b hb
  rw [ho] at h
  obtain ⟨h1, h2⟩ := append_split_unique h.symm
    (by
      simp only [List.mem_append, not_or]
      refine ⟨⟨?_, fun hm => ?_⟩, by decide⟩
      · rcases hf with rfl | rfl <;> decide
      · have := mem_repeatPhase hm
        revert this
        rcases hp with rfl | rfl <;> decide)
    (fun hm => by
      have := mem_repeatPhase hm
      revert this
      rcases hp with rfl | rfl <;> decide)
  exact ⟨first, pre, h1, h2, hf, hp⟩

/-- **C58, runs.** Take a run of either bundle from its fresh resources.  Once the switch (`update_state`) has been executed, whatever
part of the rest of the order is run, and whether or not it raises, no resource changes except the four production buffers:
in particular the flow, the optimiser, the global sampler, the loss buffer, the training buffers and the temperatures stay as they are. -/
theorem C58_runs (env : Env F D d M O) (c : BundleCfg F D d M O) (b : Bundle F D d M O) (hb : LibraryBundle c b) (data : Data D)
    (as names rest : List String) (ho : b.strategyOrder = as ++ "update_state" :: (names ++ rest)) (k : Key) (xs : List (Pos F d))
    (w : World F D d M O) (hrun : Completes env b.strategies.lookup data (as ++ ["update_state"]) ⟨k, xs, ⟨b.resources, b.strategies.cursors⟩⟩ w)
    (n : String) (hprod : n ∉ ["positions_production", "log_prob_production", "local_accs_production", "global_accs_production"]) :
    (runOrder env b.strategies.lookup names w.key w.xs data w.heap).2.res n = w.heap.res n := by
  obtain ⟨first, pre, -, hbs, -, hp⟩ := order_split c b hb as _ ho
  refine C58_production_frozen env c b hb data names ?_ w.key w.xs w.heap ?_ n hprod
  · intro n hn
    have hm : n ∈ repeatPhase c.nProdLoops (pre ++ productionPhase) := by rw [← hbs]; exact List.mem_append_left _ hn
    have := mem_repeatPhase hm
    rcases hp with rfl | rfl
    · exact List.mem_cons_of_mem _ this
    · exact this
  · rw [completes_append] at hrun
    obtain ⟨w1, h1, h2⟩ := hrun
    have hI := completes_keeps (I := fun w => ∃ q, InPhase w.heap q) as
      (fun name _ s w k' xs' h' hs hq hr => by
        have := inPhase_any env c _ hb.isBundle name s hs w.key w.xs data w.heap hq
        rw [hr] at this; exact this) _ _ h1 ⟨false, inPhase_fresh c b hb _⟩
    obtain ⟨q, hq⟩ := hI
    rw [completes_cons] at h2
    obtain ⟨s, k1, xs1, hh1, e, r, h2⟩ := h2
    rw [hb.isBundle.hasCore.update] at e
    simp only [Option.some.injEq] at e
    subst e
    rw [completes_nil] at h2
    subst h2
    have := inPhase_update env w1.key w1.xs data w1.heap q hq
    rw [r] at this
    exact this

/-! ### C59 -/

/-- Walk through an order keeping track of whether the flow kernel holds the current model; every `global_stepper` must find it so. -/
def syncWalk : Bool → List String → Bool × Bool
  | f, [] => (true, f)
  | f, n :: ns =>
    let f' := if n = "model_trainer" then false else if n = "update_model" then true else f
    let r := syncWalk f' ns
    ((if n = "global_stepper" then f else true) && r.1, r.2)

theorem syncWalk_append (as bs : List String) : ∀ f, syncWalk f (as ++ bs) =
    ((syncWalk f as).1 && (syncWalk (syncWalk f as).2 bs).1, (syncWalk (syncWalk f as).2 bs).2) := by
  induction as with
  | nil => intro f; simp [syncWalk]
  | cons a as ih => intro f; simp only [List.cons_append, syncWalk, ih, Bool.and_assoc]

theorem syncWalk_repeat (ph : List String) (hph : syncWalk true ph = (true, true)) (n : Nat) : syncWalk true (repeatPhase n ph) = (true, true) := by
  induction n with
  | zero => rfl
  | succ n ih => rw [repeatPhase_succ, syncWalk_append, ih]; simp [hph]

theorem syncWalk_order (c : BundleCfg F D d M O) (b : Bundle F D d M O) (hb : LibraryBundle c b) : (syncWalk true b.strategyOrder).1 = true := by
  obtain ⟨first, pre, ho, hf, hp⟩ := order_shape c b hb
  have h1 : syncWalk true first = (true, true) := by rcases hf with rfl | rfl <;> decide
  have h2 := syncWalk_repeat (pre ++ trainingPhase) (by rcases hp with rfl | rfl <;> decide) c.nTrainLoops
  have h3 := syncWalk_repeat (pre ++ productionPhase) (by rcases hp with rfl | rfl <;> decide) c.nProdLoops
  rw [ho, ← List.singleton_append (x := "update_state")]
  simp only [syncWalk_append, h1, h2]
  rw [show syncWalk true ["reset_steppers"] = (true, true) by decide]
  simp only [Bool.and_true, Bool.true_and]
  rw [show syncWalk true ["update_state"] = (true, true) by decide]
  simp [h3]

/-- A model under `model`, a flow kernel under `global_sampler`, with the same flow in it if `f`. -/
def flowInv (c : BundleCfg F D d M O) (f : Bool) (h : Heap F D d M O) : Prop :=
  (∃ q, InPhase h q) ∧ ∃ m m', h.res "model" = some (.model m) ∧ h.res "global_sampler" = some (.kernel (.nf m' c.nfBatch)) ∧ (f = true → m = m')

theorem flowInv_step (env : Env F D d M O) (c : BundleCfg F D d M O) (strats : String → Option (Strategy F D d M O)) (hb : IsBundle c strats)
    (data : Data D) (f : Bool) (name : String) (s : Strategy F D d M O) (hs : strats name = some s) (k k' : Key) (xs xs' : List (Pos F d))
    (h h' : Heap F D d M O) (hr : s.run env k xs data h = (.ok (k', xs'), h')) (hi : flowInv c f h) :
    flowInv c (if name = "model_trainer" then false else if name = "update_model" then true else f) h' := by
  obtain ⟨hq, m, m', hm, hm', hf⟩ := hi
  have hq' := inPhase_any env c strats hb name s hs k xs data h hq
  rw [hr] at hq'
  refine ⟨hq', ?_⟩
  obtain ⟨q, st, hst, hp, -⟩ := hq
  have frame : ∀ n, n ∉ writes q name → h'.res n = h.res n := by
    intro n hn
    have := strat_frame env c strats hb q name s hs k xs data h ⟨st, hst, hp⟩ n hn
    rw [hr] at this; exact this
  by_cases h1 : name = "model_trainer"
  · subst h1
    obtain ⟨w, hw⟩ := hb.hasCore.trainer
    rw [hw] at hs
    simp only [Option.some.injEq] at hs
    subst hs
    obtain ⟨-, -, f3⟩ := trainModel_frame env (modelTrainer c w) k xs h
    obtain ⟨-, hmod⟩ := f3 _ _ _ hr
    obtain ⟨m2, hm2⟩ := hmod (by simp [modelTrainer])
    refine ⟨m2, m', hm2, ?_, by simp⟩
    rw [frame "global_sampler" (by cases q <;> decide), hm']
  · by_cases h2 : name = "update_model"
    · subst h2
      rw [hb.hasCore.um] at hs
      simp only [Option.some.injEq] at hs
      subst hs
      simp only [Strategy.run, runLambda, updateModel, hm, hm', Prod.mk.injEq, Except.ok.injEq] at hr
      obtain ⟨-, rfl⟩ := hr
      exact ⟨m, m, by simp [Heap.setRes, dictSet, hm], by simp [Heap.setRes, dictSet], by simp⟩
    · refine ⟨m, m', ?_, ?_, by simpa [h1, h2] using hf⟩
      · rw [frame "model" ?_, hm]
        simp only [writes, h1, h2, if_false]
        repeat' split
        all_goals (cases q <;> decide)
      · rw [frame "global_sampler" ?_, hm']
        simp only [writes, h1, h2, if_false]
        repeat' split
        all_goals (cases q <;> decide)

theorem flowInv_run (env : Env F D d M O) (c : BundleCfg F D d M O) (strats : String → Option (Strategy F D d M O)) (hb : IsBundle c strats)
    (data : Data D) (names : List String) : ∀ (f : Bool) (w w' : World F D d M O), Completes env strats data names w w' → flowInv c f w.heap →
    flowInv c (syncWalk f names).2 w'.heap := by
  induction names with
  | nil => intro f w w' h hi; rw [completes_nil] at h; subst h; exact hi
  | cons a as ih =>
    intro f w w' h hi
    rw [completes_cons] at h
    obtain ⟨s, k1, x1, h1, e, r, h⟩ := h
    exact ih _ _ _ h (flowInv_step env c strats hb data f a s e _ _ _ _ _ _ r hi)

theorem flowInv_fresh (c : BundleCfg F D d M O) (b : Bundle F D d M O) (hb : LibraryBundle c b) (pos : String → Nat) :
    flowInv c true (⟨b.resources, pos⟩ : Heap F D d M O) := by
  refine ⟨⟨false, inPhase_fresh c b hb pos⟩, c.flow, c.flow, ?_, ?_, fun _ => rfl⟩ <;> cases hb <;> rfl

/-- **C59.** Wherever the global stepper occurs in the order of a bundle: if everything before it completed, then the flow inside
the global sampler is the current `model` resource (and its batch size is the configured one). -/
theorem C59_global_in_sync (env : Env F D d M O) (c : BundleCfg F D d M O) (b : Bundle F D d M O) (hb : LibraryBundle c b) (data : Data D)
    (pre post : List String) (ho : b.strategyOrder = pre ++ "global_stepper" :: post) (k : Key) (xs : List (Pos F d)) (w : World F D d M O)
    (hrun : Completes env b.strategies.lookup data pre ⟨k, xs, ⟨b.resources, b.strategies.cursors⟩⟩ w) :
    ∃ m, w.heap.res "model" = some (.model m) ∧ w.heap.res "global_sampler" = some (.kernel (.nf m c.nfBatch)) := by
  have hw := syncWalk_order c b hb
  rw [ho, syncWalk_append] at hw
  simp only [syncWalk, if_true, Bool.and_eq_true] at hw
  obtain ⟨-, m, m', hm, hm', hf⟩ := flowInv_run env c _ hb.isBundle data pre true _ _ hrun (flowInv_fresh c b hb _)
  have := hf hw.2.1
  subst this
  exact ⟨m, hm, hm'⟩

/-! ### C60 -/

/-- **C60, names and counts.** Every name of the order is in the dictionary; the order contains the stated numbers of calls; everything
after the switch is production only. -/
theorem C60_schedule (c : BundleCfg F D d M O) (b : Bundle F D d M O) (hb : LibraryBundle c b) :
    (∀ n ∈ b.strategyOrder, ∃ s, b.strategies.lookup n = some s) ∧
    b.strategyOrder.count "local_stepper" = c.nTrainLoops + c.nProdLoops ∧
    b.strategyOrder.count "global_stepper" = c.nTrainLoops + c.nProdLoops ∧
    b.strategyOrder.count "model_trainer" = c.nTrainLoops ∧
    b.strategyOrder.count "update_model" = c.nTrainLoops ∧
    b.strategyOrder.count "update_state" = 1 ∧ b.strategyOrder.count "reset_steppers" = 1 ∧
    ∀ as bs, b.strategyOrder = as ++ "update_state" :: bs → "model_trainer" ∉ bs ∧ "update_model" ∉ bs ∧
      as.count "local_stepper" = c.nTrainLoops ∧ as.count "global_stepper" = c.nTrainLoops ∧
      bs.count "local_stepper" = c.nProdLoops ∧ bs.count "global_stepper" = c.nProdLoops := by
  obtain ⟨first, pre, ho, hf, hp⟩ := order_shape c b hb
  refine ⟨?_, ?_, ?_, ?_, ?_, ?_, ?_, ?_⟩
  · intro n hn
    cases hb with
    | mala =>
      simp only [malaBundle, bundleOrder, List.mem_append] at hn
      rcases hn with (hn | hn) | hn
      · have := mem_repeatPhase hn
        simp only [trainingPhase, List.mem_cons, List.not_mem_nil, or_false] at this
        rcases this with rfl | rfl | rfl | rfl | rfl | rfl <;> exact ⟨_, rfl⟩
      · simp only [List.mem_cons, List.not_mem_nil, or_false] at hn
        rcases hn with rfl | rfl <;> exact ⟨_, rfl⟩
      · have := mem_repeatPhase hn
        simp only [productionPhase, List.mem_cons, List.not_mem_nil, or_false] at this
        rcases this with rfl | rfl | rfl | rfl <;> exact ⟨_, rfl⟩
    | pt p =>
      simp only [ptBundle, ptOrder, List.mem_cons, List.mem_append] at hn
      rcases hn with rfl | (hn | hn) | hn
      · exact ⟨_, rfl⟩
      · have := mem_repeatPhase hn
        simp only [trainingPhase, List.mem_cons, List.not_mem_nil, or_false] at this
        rcases this with rfl | rfl | rfl | rfl | rfl | rfl | rfl <;> exact ⟨_, rfl⟩
      · simp only [List.mem_cons, List.not_mem_nil, or_false] at hn
        rcases hn with rfl | rfl <;> exact ⟨_, rfl⟩
      · have := mem_repeatPhase hn
        simp only [productionPhase, List.mem_cons, List.not_mem_nil, or_false] at this
        rcases this with rfl | rfl | rfl | rfl | rfl <;> exact ⟨_, rfl⟩
  all_goals try (rw [ho]; simp only [List.count_append, List.count_cons, count_repeatPhase]
                 rcases hf with rfl | rfl <;> rcases hp with rfl | rfl <;> simp [trainingPhase, productionPhase] <;> done)
  intro as bs h
  obtain ⟨first, pre, rfl, rfl, hf, hp⟩ := order_split c b hb as bs h
  refine ⟨fun hm => ?_, fun hm => ?_, ?_, ?_, ?_, ?_⟩
  · have := mem_repeatPhase hm
    revert this; rcases hp with rfl | rfl <;> decide
  · have := mem_repeatPhase hm
    revert this; rcases hp with rfl | rfl <;> decide
  all_goals (simp only [List.count_append, count_repeatPhase]
             rcases hf with rfl | rfl <;> rcases hp with rfl | rfl <;> simp [trainingPhase, productionPhase])

/-- Rows recorded by a call that makes `n` steps with thinning `t`: the number of `i < n` that are multiples of `t`. -/
def Spec.recordedRows (n t : Nat) : Nat := ((List.range n).filter (fun i => i % t = 0)).length

/-- Capacities of the eight sample buffers in the bundle's resources (second axis). -/
def Spec.bufferRows (b : Bundle F D d M O) (name : String) : Option Nat :=
  match b.resources name with
  | some (.buffer buf) => buf.data.shape[1]?
  | _ => none

theorem recordedRows_eq (n t : Nat) (ht : 0 < t) : recordedRows n t = n / t + if n % t = 0 then 0 else 1 := by
  have h := Nat.count_modEq_card n ht 0
  rw [Nat.count_eq_card_filter_range] at h
  have h2 : recordedRows n t = ((Finset.range n).filter (fun x => x ≡ 0 [MOD t])).card := by
    unfold recordedRows
    rw [← List.toFinset_card_of_nodup (List.Nodup.filter _ List.nodup_range)]
    congr 1
    ext x
    rw [Finset.mem_filter]
    simp [Nat.ModEq]
  rw [h2, h]
  congr 1
  simp only [Nat.zero_mod]
  by_cases h0 : n % t = 0
  · simp [h0]
  · simp [h0, Nat.pos_of_ne_zero h0]

/-! The schedule as the documentation describes it. -/

/-- One loop: the local steps, then (in training) the fit of the flow and its installation into the global sampler, then the global steps; after each kind of step the cursors of
the other kind catch up. -/
def Spec.documentedLoop (training : Bool) : List String :=
  ["local_stepper", "update_global_step"] ++ (if training then ["model_trainer", "update_model"] else []) ++ ["global_stepper", "update_local_step"]

/-- **C60, the order in full.** Plain bundle: the training loops, the switch, the production loops.  Tempered bundle: the same with the tempered positions set up before everything
else and one tempering call at the start of every loop. -/
theorem C60_order (c : BundleCfg F D d M O) (p : PTCfg F D d) :
    (malaBundle c).strategyOrder = (List.replicate c.nTrainLoops (documentedLoop true)).flatten ++ ["reset_steppers", "update_state"] ++
      (List.replicate c.nProdLoops (documentedLoop false)).flatten ∧
    (ptBundle c p).strategyOrder = "initialize_tempered_positions" :: ((List.replicate c.nTrainLoops ("parallel_tempering" :: documentedLoop true)).flatten ++
      ["reset_steppers", "update_state"] ++ (List.replicate c.nProdLoops ("parallel_tempering" :: documentedLoop false)).flatten) := ⟨rfl, rfl⟩

/-- **C60, buffer sizes.** When the thinnings divide the step counts, the sample buffers of each phase have exactly as many steps as the
calls of that phase record, and the loss buffer has one cell per epoch of every training call. -/
theorem C60_capacity (c : BundleCfg F D d M O) (b : Bundle F D d M O) (hb : LibraryBundle c b) (h1 : 0 < c.localThin) (h2 : 0 < c.globalThin)
    (d1 : c.localThin ∣ c.nLocal) (d2 : c.globalThin ∣ c.nGlobal) :
    (∀ n ∈ ["positions_training", "log_prob_training", "local_accs_training", "global_accs_training"],
      bufferRows b n = some (c.nTrainLoops * (recordedRows c.nLocal c.localThin + recordedRows c.nGlobal c.globalThin))) ∧
    (∀ n ∈ ["positions_production", "log_prob_production", "local_accs_production", "global_accs_production"],
      bufferRows b n = some (c.nProdLoops * (recordedRows c.nLocal c.localThin + recordedRows c.nGlobal c.globalThin))) ∧
    (∃ buf, b.resources "loss_buffer" = some (.buffer buf) ∧ buf.data.shape = [c.nTrainLoops * c.nEpochs]) := by
  rw [recordedRows_eq _ _ h1, recordedRows_eq _ _ h2, Nat.mod_eq_zero_of_dvd d1, Nat.mod_eq_zero_of_dvd d2]
  have hT : c.nTrainLoops * (c.nLocal / c.localThin + 0 + (c.nGlobal / c.globalThin + 0)) = c.nTrainSteps := by
    simp only [BundleCfg.nTrainSteps]; ring
  have hP : c.nProdLoops * (c.nLocal / c.localThin + 0 + (c.nGlobal / c.globalThin + 0)) = c.nProdSteps := by
    simp only [BundleCfg.nProdSteps]; ring
  simp only [if_true, hT, hP]
  refine ⟨?_, ?_, ?_⟩
  · intro n hn
    simp only [List.mem_cons, List.not_mem_nil, or_false] at hn
    cases hb <;> rcases hn with rfl | rfl | rfl | rfl <;> rfl
  · intro n hn
    simp only [List.mem_cons, List.not_mem_nil, or_false] at hn
    cases hb <;> rcases hn with rfl | rfl | rfl | rfl <;> rfl
  · cases hb <;> exact ⟨_, rfl, rfl⟩

/-- **C60, the other case.** If the local thinning does not divide the number of local steps and there is at least one training loop, the training
buffers have strictly fewer steps than the calls record (see C18 for the consequence). -/
theorem C60_capacity_short (c : BundleCfg F D d M O) (b : Bundle F D d M O) (hb : LibraryBundle c b) (h1 : 0 < c.localThin) (h2 : 0 < c.globalThin)
    (d1 : ¬ c.localThin ∣ c.nLocal) (hl : 0 < c.nTrainLoops) :
    ∃ n, bufferRows b "positions_training" = some n ∧
      n < c.nTrainLoops * (recordedRows c.nLocal c.localThin + recordedRows c.nGlobal c.globalThin) := by
  refine ⟨c.nTrainSteps, by cases hb <;> rfl, ?_⟩
  rw [recordedRows_eq _ _ h1, recordedRows_eq _ _ h2, if_neg (fun h => d1 (Nat.dvd_of_mod_eq_zero h))]
  simp only [BundleCfg.nTrainSteps]
  generalize c.nLocal / c.localThin = x
  generalize c.nGlobal / c.globalThin = y
  generalize (if c.nGlobal % c.globalThin = 0 then 0 else 1) = z
  nlinarith [Nat.zero_le (c.nTrainLoops * z)]

end FlowMC
