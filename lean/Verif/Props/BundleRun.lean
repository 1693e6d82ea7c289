import Verif.Lemmas.BundleRun
import Mathlib.Tactic.Ring
/-
Whole runs of the bundles: C57 (and the parts shared with C61).
-/
set_option linter.unusedSectionVars false
namespace FlowMC
open Spec

variable {F D : Type} {d : Nat} {M O : Type}
variable [Zero F] [One F] [Add F] [Mul F] [Div F] [Sub F] [Neg F] [NatCast F] [Transc F] [FCmp F] [BufNum F]

/-- Names of the sample buffers of the training (`false`) and production (`true`) phases. -/
def Spec.posName (prod : Bool) : String := if prod then "positions_production" else "positions_training"
def Spec.logpName (prod : Bool) : String := if prod then "log_prob_production" else "log_prob_training"
def Spec.accName (prod isLocal : Bool) : String :=
  if prod then (if isLocal then "local_accs_production" else "global_accs_production")
  else (if isLocal then "local_accs_training" else "global_accs_training")

/-- The names of the eight sample buffers. -/
def Spec.IsSampleBuffer (n : String) : Prop := ∃ q t, n = posName q ∨ n = logpName q ∨ n = accName q t

theorem not_isSampleBuffer {n : String} (h : ∀ q t, n ≠ posName q ∧ n ≠ logpName q ∧ n ≠ accName q t) : ¬ IsSampleBuffer n := by
  rintro ⟨q, t, e⟩
  obtain ⟨h1, h2, h3⟩ := h q t
  rcases e with e | e | e
  · exact h1 e
  · exact h2 e
  · exact h3 e

/-- Rows recorded per local / global call. -/
def Spec.rowsPerCall (c : BundleCfg F D d M O) (isLocal : Bool) : Nat :=
  if isLocal then c.nLocal / c.localThin else c.nGlobal / c.globalThin

/-- Number of loops of a phase. -/
def Spec.nLoops (c : BundleCfg F D d M O) (prod : Bool) : Nat := if prod then c.nProdLoops else c.nTrainLoops

/-- Capacity of the sample buffers of a phase. -/
def Spec.capacity (c : BundleCfg F D d M O) (prod : Bool) : Nat := if prod then c.nProdSteps else c.nTrainSteps

/-- Positive step counts and batch size, thinnings that divide the step counts. -/
structure Spec.GoodCfg (c : BundleCfg F D d M O) : Prop where
  nLocal : 0 < c.nLocal
  nGlobal : 0 < c.nGlobal
  localThin : 0 < c.localThin
  globalThin : 0 < c.globalThin
  localDvd : c.localThin ∣ c.nLocal
  globalDvd : c.globalThin ∣ c.nGlobal
  nfBatch : 0 < c.nfBatch

theorem capacity_eq (c : BundleCfg F D d M O) (prod : Bool) :
    capacity c prod = nLoops c prod * (rowsPerCall c true + rowsPerCall c false) := by
  cases prod <;> simp [capacity, nLoops, rowsPerCall, BundleCfg.nTrainSteps, BundleCfg.nProdSteps] <;> ring

/-- The state entries point the steppers at the buffers of the phase. -/
def Spec.PointsTo (st : State) (prod : Bool) : Prop :=
  st.data "target_positions" = some (.str (posName prod)) ∧ st.data "target_log_prob" = some (.str (logpName prod)) ∧
  st.data "target_local_accs" = some (.str (accName prod true)) ∧ st.data "target_global_accs" = some (.str (accName prod false))

/-- Invariant of a bundle run: density, kernels and state in place, and both phases' buffers hold exactly the logged blocks. -/
structure BundleInv (c : BundleCfg F D d M O) (prod : Bool) (h : Heap F D d M O) (logs : Bool → List (Block F d)) : Prop where
  density : ∃ vs, h.res "logpdf" = some (.logpdf ⟨c.logpdf, vs⟩)
  kernel : h.res "local_sampler" = some (.kernel (.mala c.stepSize))
  flow : ∃ m, h.res "global_sampler" = some (.kernel (.nf m c.nfBatch))
  state : ∃ st, h.res "sampler_state" = some (.state st) ∧ PointsTo st prod
  recs : ∀ q, Recording h c.nChains (capacity c q) (posName q) (logpName q) (accName q) (logs q)
  sized : ∀ q, WellSized c.nChains (rowsPerCall c) (logs q)

/-- Names the invariant depends on. -/
def coreNames : List String :=
  ["logpdf", "local_sampler", "global_sampler", "sampler_state", "positions_training", "log_prob_training", "local_accs_training",
   "global_accs_training", "positions_production", "log_prob_production", "local_accs_production", "global_accs_production"]

theorem names_mem (q t : Bool) : posName q ∈ coreNames ∧ logpName q ∈ coreNames ∧ accName q t ∈ coreNames := by
  cases q <;> cases t <;> decide

theorem BundleInv.congr {c : BundleCfg F D d M O} {prod : Bool} {h h' : Heap F D d M O} {logs : Bool → List (Block F d)} (inv : BundleInv c prod h logs)
    (hf : ∀ n ∈ coreNames, n ≠ "global_sampler" → h'.res n = h.res n) (hflow : ∃ m, h'.res "global_sampler" = some (.kernel (.nf m c.nfBatch))) :
    BundleInv c prod h' logs where
  density := by rw [hf "logpdf" (by decide) (by decide)]; exact inv.density
  kernel := by rw [hf "local_sampler" (by decide) (by decide)]; exact inv.kernel
  flow := hflow
  state := by rw [hf "sampler_state" (by decide) (by decide)]; exact inv.state
  recs := fun q => (inv.recs q).congr (hf _ (names_mem q true).1 (by cases q <;> decide)) (hf _ (names_mem q true).2.1 (by cases q <;> decide))
    (fun t => hf _ (names_mem q t).2.2 (by cases q <;> cases t <;> decide))
  sized := inv.sized

/-- The three recorders of a stepper in the current phase. -/
theorem BundleInv.recorders {c : BundleCfg F D d M O} {prod : Bool} {h : Heap F D d M O} {logs : Bool → List (Block F d)} (inv : BundleInv c prod h logs)
    (q tag : Bool) : ∃ bP bL bA, Recorders h c.nChains (capacity c q) (posName q) (logpName q) (accName q tag) bP bL bA := by
  obtain ⟨bP, h1, h2, h3, _⟩ := (inv.recs q).pos
  obtain ⟨bL, l1, l2, l3, _⟩ := (inv.recs q).logp
  obtain ⟨bA, a1, a2, a3, _⟩ := (inv.recs q).acc tag
  exact ⟨bP, bL, bA, h1, l1, a1, h2, l2, a2, h3, l3, a3, by cases q <;> cases tag <;> decide⟩

/-- Effect of one stepper call on the invariant. -/
theorem stepper_inv (c : BundleCfg F D d M O) (s : TakeSteps) (prod tag : Bool) (h h' : Heap F D d M O) (logs : Bool → List (Block F d))
    (inv : BundleInv c prod h logs) (rec : List (List (StepOut F d))) (bP bL bA : Buffer F)
    (hrec : Recorders h c.nChains (capacity c prod) (posName prod) (logpName prod) (accName prod tag) bP bL bA)
    (he : StepEffect s h h' c.nChains (capacity c prod) (posName prod) (logpName prod) (accName prod tag) bP bL bA rec)
    (hcur : h.pos s.ident = blocksLen (rowsPerCall c) (logs prod))
    (hlen : ceilDiv' s.nSteps s.thinning = rowsPerCall c tag) (hb : WellSized c.nChains (rowsPerCall c) [⟨tag, rec⟩])
    (hfit : blocksLen (rowsPerCall c) (logs prod) + rowsPerCall c tag ≤ capacity c prod) :
    BundleInv c prod h' (Function.update logs prod (logs prod ++ [⟨tag, rec⟩])) := by
  have hmain := record_step s h h' c.nChains (capacity c prod) (posName prod) (logpName prod) (accName prod) tag (rowsPerCall c) (logs prod) rec
    bP bL bA hrec (inv.recs prod) (inv.sized prod) he hcur hlen hb hfit (by cases prod <;> cases tag <;> decide)
  have hframe : ∀ n, n ≠ posName prod → n ≠ logpName prod → n ≠ accName prod tag → h'.res n = h.res n := he.frame
  constructor
  · rw [hframe "logpdf" (by cases prod <;> decide) (by cases prod <;> decide) (by cases prod <;> cases tag <;> decide)]; exact inv.density
  · rw [hframe "local_sampler" (by cases prod <;> decide) (by cases prod <;> decide) (by cases prod <;> cases tag <;> decide)]; exact inv.kernel
  · rw [hframe "global_sampler" (by cases prod <;> decide) (by cases prod <;> decide) (by cases prod <;> cases tag <;> decide)]; exact inv.flow
  · rw [hframe "sampler_state" (by cases prod <;> decide) (by cases prod <;> decide) (by cases prod <;> cases tag <;> decide)]; exact inv.state
  · intro q
    by_cases hq : q = prod
    · subst hq; rw [Function.update_self]; exact hmain.1
    · rw [Function.update_of_ne hq]
      refine (inv.recs q).congr ?_ ?_ ?_
      · exact hframe _ (by revert hq; cases q <;> cases prod <;> decide) (by cases q <;> cases prod <;> decide)
          (by cases q <;> cases prod <;> cases tag <;> decide)
      · exact hframe _ (by cases q <;> cases prod <;> decide) (by revert hq; cases q <;> cases prod <;> decide)
          (by cases q <;> cases prod <;> cases tag <;> decide)
      · intro t
        exact hframe _ (by cases q <;> cases prod <;> cases t <;> decide) (by cases q <;> cases prod <;> cases t <;> decide)
          (by revert hq; cases q <;> cases prod <;> cases t <;> cases tag <;> decide)
  · intro q
    by_cases hq : q = prod
    · subst hq; rw [Function.update_self]; exact hmain.2
    · rw [Function.update_of_ne hq]; exact inv.sized q

theorem lastRows_of (t n : Nat) (ht : 0 < t) (hn : 0 < n) (rows : List (List (StepOut F d))) (hlen : ∀ r ∈ rows, r.length = n) (tag : Bool)
    (ys : List (Pos F d)) (hy : ys.length = rows.length)
    (hys : ∀ i : Nat, ys[i]? = (rows[i]?).bind (fun r => (r[(ceilDiv' n t - 1) * t]?).map (·.pos))) :
    LastRows ⟨tag, rows.map (everyNth t)⟩ ys := by
  refine ⟨by simp [hy], fun i => ?_⟩
  rw [hys i]
  simp only [List.getElem?_map]
  cases hr : rows[i]? with
  | none => rfl
  | some r =>
    have hl := hlen r (List.mem_of_getElem? hr)
    have hel : (everyNth t r).length = ceilDiv' n t := by rw [everyNth_length t ht, hl]
    simp only [Option.bind_some, Option.map_some]
    rw [List.getLast?_eq_getElem?, hel, everyNth_getElem? t ht]

/-- One call of the bundle's local stepper. -/
theorem local_step (env : Env F D d M O) (c : BundleCfg F D d M O) (hc : GoodCfg c) (prod : Bool) (k : Key) (xs : List (Pos F d)) (data : Data D)
    (h : Heap F D d M O) (logs : Bool → List (Block F d)) (inv : BundleInv c prod h logs) (hx : xs.length = c.nChains)
    (hcur : h.pos "local_stepper" = blocksLen (rowsPerCall c) (logs prod))
    (hfit : blocksLen (rowsPerCall c) (logs prod) + rowsPerCall c true ≤ capacity c prod)
    (k' : Key) (ys : List (Pos F d)) (h' : Heap F D d M O) (hrun : (localStepper c).run env k xs data h = (.ok (k', ys), h')) :
    k' = .child k 0 ∧ ∃ b, LocalBlock env c data k xs b ys ∧ BundleInv c prod h' (Function.update logs prod (logs prod ++ [b])) ∧ b.isLocal = true ∧
      ys.length = c.nChains ∧ h'.pos "local_stepper" = h.pos "local_stepper" + rowsPerCall c true ∧
      (∀ id, id ≠ "local_stepper" → h'.pos id = h.pos id) ∧
      ∀ n, n ≠ posName prod → n ≠ logpName prod → n ≠ accName prod true → h'.res n = h.res n := by
  obtain ⟨bP, bL, bA, hrec⟩ := inv.recorders prod true
  obtain ⟨st, hst, hp1, hp2, hp3, hp4⟩ := inv.state
  obtain ⟨vs, hd⟩ := inv.density
  have hlen : ceilDiv' c.nLocal c.localThin = rowsPerCall c true := ceilDiv'_dvd _ _ hc.localThin hc.localDvd
  rw [← hx] at hrec
  obtain ⟨ys0, h0, r1, he, hy, hys⟩ := serial_call env (localStepper c) k xs data h (capacity c prod) (posName prod) (logpName prod) (accName prod true)
    bP bL bA ⟨st, _, _, _, _, hst, rfl, hp1, hp2, hp3⟩ hrec (by simp only [localStepper, hcur, hlen]; exact hfit)
    (.mala c.stepSize) (fun k x lp t data => malaKernel env.rng c.stepSize k x lp t data) c.logpdf
    ⟨rfl, inv.kernel, rfl, ⟨_, hd, rfl⟩⟩ hc.localThin hc.nLocal
  rw [hrun] at r1
  simp only [Prod.mk.injEq, Except.ok.injEq] at r1
  obtain ⟨⟨rfl, rfl⟩, rfl⟩ := r1
  have hrl : (serialRows (fun k x lp t data => malaKernel env.rng c.stepSize k x lp t data) c.logpdf data c.nLocal k xs).length = xs.length := by
    simp [serialRows, splitN_length]
  have hrr : ∀ r ∈ serialRows (fun k x lp t data => malaKernel env.rng c.stepSize k x lp t data) c.logpdf data c.nLocal k xs, r.length = c.nLocal := by
    intro r hr
    simp only [serialRows, List.mem_map] at hr
    obtain ⟨a, _, rfl⟩ := hr
    exact serialSample_length _ _ _ _ _ _
  rw [hx] at he hrec
  refine ⟨rfl, ⟨true, (serialRows (fun k x lp t data => malaKernel env.rng c.stepSize k x lp t data) c.logpdf data c.nLocal k xs).map (everyNth c.localThin)⟩,
    ⟨rfl, ?_, ?_, ?_⟩, ?_, rfl, hy.trans hx, ?_, he.cursors, he.frame⟩
  · exact lastRows_of c.localThin c.nLocal hc.localThin hc.nLocal _ hrr true ys (by rw [hy, hrl]) hys
  · simp [hrl]
  · intro i x hi
    simp only [List.getElem?_map, serialRows_cell, hi, Option.map_some]
  · refine stepper_inv c (localStepper c) prod true h h' logs inv _ bP bL bA hrec he hcur hlen ?_ hfit
    intro b hb
    rw [List.mem_singleton.1 hb]
    refine ⟨by simp [hrl, hx], ?_⟩
    intro r hr
    simp only [List.mem_map] at hr
    obtain ⟨r0, hr0, rfl⟩ := hr
    rw [everyNth_length _ hc.localThin, hrr r0 hr0]
    exact hlen
  · exact he.cursor

/-- One call of the bundle's global stepper. -/
theorem global_step (env : Env F D d M O) (hl : env.ops.Lawful) (c : BundleCfg F D d M O) (hc : GoodCfg c) (prod : Bool) (k : Key)
    (xs : List (Pos F d)) (data : Data D)
    (h : Heap F D d M O) (logs : Bool → List (Block F d)) (inv : BundleInv c prod h logs) (hx : xs.length = c.nChains)
    (hcur : h.pos "global_stepper" = blocksLen (rowsPerCall c) (logs prod))
    (hfit : blocksLen (rowsPerCall c) (logs prod) + rowsPerCall c false ≤ capacity c prod)
    (k' : Key) (ys : List (Pos F d)) (h' : Heap F D d M O) (hrun : (globalStepper c).run env k xs data h = (.ok (k', ys), h')) :
    k' = .child k 0 ∧ ∃ b m, h.res "global_sampler" = some (.kernel (.nf m c.nfBatch)) ∧ GlobalBlock env c data k m xs b ys ∧
      BundleInv c prod h' (Function.update logs prod (logs prod ++ [b])) ∧ b.isLocal = false ∧
      ys.length = c.nChains ∧ h'.pos "global_stepper" = h.pos "global_stepper" + rowsPerCall c false ∧
      (∀ id, id ≠ "global_stepper" → h'.pos id = h.pos id) ∧
      ∀ n, n ≠ posName prod → n ≠ logpName prod → n ≠ accName prod false → h'.res n = h.res n := by
  obtain ⟨bP, bL, bA, hrec⟩ := inv.recorders prod false
  obtain ⟨st, hst, hp1, hp2, hp3, hp4⟩ := inv.state
  obtain ⟨vs, hd⟩ := inv.density
  obtain ⟨m, hm⟩ := inv.flow
  have hlen : ceilDiv' c.nGlobal c.globalThin = rowsPerCall c false := ceilDiv'_dvd _ _ hc.globalThin hc.globalDvd
  rw [← hx] at hrec
  obtain ⟨rows, ys0, h0, hf, hrr, r1, he, hy, hys⟩ := group_call env hl (globalStepper c) k xs data h (capacity c prod) (posName prod) (logpName prod)
    (accName prod false) bP bL bA ⟨st, _, _, _, _, hst, rfl, hp1, hp2, hp4⟩ hrec (by simp only [globalStepper, hcur, hlen]; exact hfit)
    m c.nfBatch c.logpdf ⟨rfl, hm, ⟨_, hd, rfl⟩⟩ hc.nfBatch hc.globalThin hc.nGlobal
  rw [hrun] at r1
  simp only [Prod.mk.injEq, Except.ok.injEq] at r1
  obtain ⟨⟨rfl, rfl⟩, rfl⟩ := r1
  have hrl : rows.length = xs.length := by rw [← hf.length_eq]; simp [splitN_length]
  rw [hx] at he hrec
  refine ⟨rfl, ⟨false, rows.map (everyNth c.globalThin)⟩, m, hm, ⟨rfl, ?_, ?_, ?_⟩, ?_, rfl, hy.trans hx, he.cursor, he.cursors, he.frame⟩
  · exact lastRows_of c.globalThin c.nGlobal hc.globalThin hc.nGlobal rows hrr false ys (by rw [hy, hrl]) hys
  · simp [hrl]
  · intro i x hi
    have hix : i < xs.length := (List.getElem?_eq_some_iff.1 hi).1
    have hgi := (List.forall₂_iff_get.1 hf).2 i (by simp [splitN_length, hix]) (by omega)
    simp only [List.get_eq_getElem] at hgi
    have hz := zip_splitN_getElem? (Key.child k 1) xs i
    rw [hi, List.getElem?_eq_getElem (by simp [splitN_length, hix])] at hz
    simp only [Option.map_some, Option.some.injEq] at hz
    rw [hz] at hgi
    exact ⟨_, hgi, by simp [List.getElem?_eq_getElem (show i < rows.length by omega)]⟩
  · refine stepper_inv c (globalStepper c) prod false h h' logs inv _ bP bL bA hrec he hcur hlen ?_ hfit
    intro b hb
    rw [List.mem_singleton.1 hb]
    refine ⟨by simp [hrl, hx], ?_⟩
    intro r hr
    simp only [List.mem_map] at hr
    obtain ⟨r0, hr0, rfl⟩ := hr
    rw [everyNth_length _ hc.globalThin, hrr r0 hr0]
    exact hlen

/-- The entries of a strategies dictionary that both bundles share. -/
structure HasCore (c : BundleCfg F D d M O) (strats : String → Option (Strategy F D d M O)) : Prop where
  localS : strats "local_stepper" = some (.takeSteps (localStepper c))
  globalS : strats "global_stepper" = some (.takeSteps (globalStepper c))
  trainer : ∃ w, strats "model_trainer" = some (.trainModel (modelTrainer c w))
  update : strats "update_state" = some (.updateState updateStateStrat)
  ugs : strats "update_global_step" = some (.lambda updateGlobalStep)
  uls : strats "update_local_step" = some (.lambda updateLocalStep)
  reset : strats "reset_steppers" = some (.lambda resetSteppers)
  um : strats "update_model" = some (.lambda updateModel)

/-- A list of strategies that leaves the core resources, all cursors and the number of chains alone and moves the positions along `gap`. -/
def QuietPre (env : Env F D d M O) (c : BundleCfg F D d M O) (strats : String → Option (Strategy F D d M O)) (data : Data D) (pre : List String)
    (gap : List (Pos F d) → List (Pos F d) → Prop) : Prop :=
  ∀ w w', Completes env strats data pre w w' → w.xs.length = c.nChains →
    gap w.xs w'.xs ∧ w'.xs.length = c.nChains ∧ w'.heap.pos = w.heap.pos ∧ ∀ n ∈ coreNames, w'.heap.res n = w.heap.res n

/-- What may happen between a local and a global block: nothing, or training followed by the update of the flow kernel. -/
def QuietMid (env : Env F D d M O) (c : BundleCfg F D d M O) (strats : String → Option (Strategy F D d M O)) (data : Data D) (mid : List String) : Prop :=
  ∀ w w', Completes env strats data mid w w' → w'.xs = w.xs ∧ w'.heap.pos = w.heap.pos ∧
    (∀ n ∈ coreNames, n ≠ "global_sampler" → w'.heap.res n = w.heap.res n) ∧
    ((∃ m, w.heap.res "global_sampler" = some (.kernel (.nf m c.nfBatch))) → ∃ m, w'.heap.res "global_sampler" = some (.kernel (.nf m c.nfBatch)))

theorem quietMid_nil (env : Env F D d M O) (c : BundleCfg F D d M O) (strats : String → Option (Strategy F D d M O)) (data : Data D) :
    QuietMid env c strats data [] := by
  intro w w' h
  rw [completes_nil] at h
  subst h
  exact ⟨rfl, rfl, fun _ _ _ => rfl, id⟩

theorem quietMid_train (env : Env F D d M O) (c : BundleCfg F D d M O) (strats : String → Option (Strategy F D d M O)) (hs : HasCore c strats)
    (data : Data D) : QuietMid env c strats data ["model_trainer", "update_model"] := by
  intro w w' h
  obtain ⟨win, htr⟩ := hs.trainer
  rw [completes_cons] at h
  obtain ⟨s, k1, xs1, h1, e1, r1, h⟩ := h
  rw [completes_cons] at h
  obtain ⟨s2, k2, xs2, h2, e2, r2, h⟩ := h
  rw [completes_nil] at h
  subst h
  rw [htr] at e1
  simp only [Option.some.injEq] at e1
  subst e1
  rw [hs.um] at e2
  simp only [Option.some.injEq] at e2
  subst e2
  simp only [Strategy.run] at r1 r2
  obtain ⟨f1, f2, f3⟩ := trainModel_frame env (modelTrainer c win) w.key w.xs w.heap
  rw [r1] at f1 f2
  obtain ⟨hx, -⟩ := f3 _ _ _ r1
  subst hx
  simp only [runLambda, updateModel] at r2
  split at r2
  · simp at r2
  · rename_i hr0
    split at hr0
    · simp at hr0
    · simp at hr0
    · rename_i m m0 b hm hg
      simp only [Prod.mk.injEq, Except.ok.injEq] at hr0 r2
      obtain ⟨-, rfl⟩ := hr0
      obtain ⟨⟨-, rfl⟩, rfl⟩ := r2
      refine ⟨rfl, f2, ?_, ?_⟩
      · intro n hn hne
        simp only [Heap.setRes, dictSet, hne, if_false]
        simp only [coreNames, List.mem_cons, List.not_mem_nil, or_false] at hn
        apply f1 n <;> simp only [modelTrainer] <;> rintro rfl <;> revert hn <;> decide
      · rintro ⟨m', hm'⟩
        have := f1 "global_sampler" (by simp [modelTrainer]) (by simp [modelTrainer]) (by simp [modelTrainer])
        simp only at this
        rw [hg, hm'] at this
        simp only [Option.some.injEq, Resource.kernel.injEq, KernelRes.nf.injEq] at this
        exact ⟨m, by simp [Heap.setRes, dictSet, this.2]⟩
    · simp at hr0

/-- One loop of either phase. -/
theorem one_loop_full (env : Env F D d M O) (hl : env.ops.Lawful) (c : BundleCfg F D d M O) (hc : GoodCfg c) (strats : String → Option (Strategy F D d M O))
    (hs : HasCore c strats) (data : Data D) (prod : Bool) (pre mid : List String) (gap : List (Pos F d) → List (Pos F d) → Prop)
    (hpre : QuietPre env c strats data pre gap) (hmid : QuietMid env c strats data mid) (w w' : World F D d M O)
    (hrun : Completes env strats data (pre ++ ("local_stepper" :: "update_global_step" :: (mid ++ ["global_stepper", "update_local_step"]))) w w')
    (logs : Bool → List (Block F d)) (inv : BundleInv c prod w.heap logs) (hx : w.xs.length = c.nChains)
    (hcur : w.heap.pos "local_stepper" = blocksLen (rowsPerCall c) (logs prod))
    (hfit : blocksLen (rowsPerCall c) (logs prod) + (rowsPerCall c true + rowsPerCall c false) ≤ capacity c prod) :
    ∃ b1 b2 w1 w2 w4 m, gap w.xs w1.xs ∧ LocalBlock env c data w1.key w1.xs b1 w2.xs ∧ GlobalBlock env c data w4.key m w2.xs b2 w'.xs ∧
      (Completes env strats data pre w w1 ∧ w2.key = .child w1.key 0 ∧ (∀ n, ¬ IsSampleBuffer n → w2.heap.res n = w1.heap.res n) ∧
        Completes env strats data mid w2 w4 ∧ w4.heap.res "global_sampler" = some (.kernel (.nf m c.nfBatch)) ∧
        w'.key = .child w4.key 0 ∧ (∀ n, ¬ IsSampleBuffer n → w'.heap.res n = w4.heap.res n) ∧ w2.xs.length = c.nChains) ∧
      BundleInv c prod w'.heap (Function.update logs prod (logs prod ++ [b1, b2])) ∧ w'.xs.length = c.nChains ∧
      b1.isLocal = true ∧ b2.isLocal = false ∧
      w'.heap.pos "local_stepper" = blocksLen (rowsPerCall c) (logs prod ++ [b1, b2]) ∧
      w'.heap.pos "global_stepper" = blocksLen (rowsPerCall c) (logs prod ++ [b1, b2]) ∧
      BundleInv c prod w2.heap (Function.update logs prod (logs prod ++ [b1])) := by
  rw [completes_append] at hrun
  obtain ⟨w1, hp, hrun⟩ := hrun
  obtain ⟨hgap, hx1, hpos1, hres1⟩ := hpre _ _ hp hx
  have inv1 : BundleInv c prod w1.heap logs := inv.congr (fun n hn _ => hres1 n hn) (by rw [hres1 _ (by decide)]; exact inv.flow)
  rw [completes_cons] at hrun
  obtain ⟨s, k2, xs2, h2, e, r, hrun⟩ := hrun
  rw [hs.localS] at e; simp only [Option.some.injEq] at e; subst e
  simp only [Strategy.run] at r
  obtain ⟨rfl, b1, hb1, inv2, ht1, hx2, hc2, hco2, hfr2⟩ := local_step env c hc prod _ _ data _ logs inv1 hx1 (by rw [hpos1]; exact hcur) (by omega) _ _ _ r
  rw [completes_cons] at hrun
  obtain ⟨s, k3, xs3, h3, e, r3, hrun⟩ := hrun
  rw [hs.ugs] at e; simp only [Option.some.injEq] at e; subst e
  simp only [Strategy.run, runLambda, updateGlobalStep, Prod.mk.injEq, Except.ok.injEq] at r3
  obtain ⟨⟨rfl, rfl⟩, rfl⟩ := r3
  rw [completes_append] at hrun
  obtain ⟨w4, hm, hrun⟩ := hrun
  obtain ⟨hx4, hpos4, hres4, hflow4⟩ := hmid _ _ hm
  simp only at hx4 hpos4 hres4 hflow4
  have hbl : blocksLen (rowsPerCall c) (logs prod ++ [b1]) = blocksLen (rowsPerCall c) (logs prod) + rowsPerCall c true := by
    rw [blocksLen_append]; simp [blocksLen, ht1]
  have inv4 : BundleInv c prod w4.heap (Function.update logs prod (logs prod ++ [b1])) :=
    inv2.congr (fun n hn hne => by rw [hres4 n hn hne]; rfl) (hflow4 inv2.flow)
  rw [completes_cons] at hrun
  obtain ⟨s, k5, xs5, h5, e, r5, hrun⟩ := hrun
  rw [hs.globalS] at e; simp only [Option.some.injEq] at e; subst e
  simp only [Strategy.run] at r5
  have hcur4 : w4.heap.pos "global_stepper" = blocksLen (rowsPerCall c) (Function.update logs prod (logs prod ++ [b1]) prod) := by
    rw [hpos4, Function.update_self, hbl]
    simp only [Heap.setPos, if_true, hc2, hpos1, hcur]
  obtain ⟨rfl, b2, m, hm4, hb2, inv5, ht2, hx5, hc5, hco5, hfr5⟩ := global_step env hl c hc prod _ _ data _ _ inv4 (by rw [hx4]; exact hx2) hcur4
    (by rw [Function.update_self, hbl]; omega) _ _ _ r5
  rw [completes_cons] at hrun
  obtain ⟨s, k6, xs6, h6, e, r6, hrun⟩ := hrun
  rw [hs.uls] at e; simp only [Option.some.injEq] at e; subst e
  simp only [Strategy.run, runLambda, updateLocalStep, Prod.mk.injEq, Except.ok.injEq] at r6
  obtain ⟨⟨rfl, rfl⟩, rfl⟩ := r6
  rw [completes_nil] at hrun
  subst hrun
  have hbl2 : blocksLen (rowsPerCall c) (logs prod ++ [b1, b2]) = blocksLen (rowsPerCall c) (logs prod) + rowsPerCall c true + rowsPerCall c false := by
    rw [blocksLen_append]; simp [blocksLen, ht1, ht2]; omega
  have hposg : h5.pos "global_stepper" = blocksLen (rowsPerCall c) (logs prod ++ [b1, b2]) := by
    rw [hc5, hcur4, Function.update_self, hbl, hbl2]
  refine ⟨b1, b2, w1, ⟨.child w1.key 0, xs2, h2.setPos "global_stepper" (h2.pos "local_stepper")⟩, w4, m, hgap, hb1, ?_,
    ⟨hp, rfl, ?_, hm, hm4, rfl, ?_, hx2⟩, ?_, hx5, ht1, ht2, ?_, ?_, inv2.congr (fun _ _ _ => rfl) inv2.flow⟩
  · rw [← hx4]; exact hb2
  · exact fun n hn => hfr2 n (fun e => hn ⟨prod, true, .inl e⟩) (fun e => hn ⟨prod, true, .inr (.inl e)⟩) (fun e => hn ⟨prod, true, .inr (.inr e)⟩)
  · exact fun n hn => hfr5 n (fun e => hn ⟨prod, true, .inl e⟩) (fun e => hn ⟨prod, true, .inr (.inl e)⟩) (fun e => hn ⟨prod, false, .inr (.inr e)⟩)
  · have : Function.update (Function.update logs prod (logs prod ++ [b1])) prod (Function.update logs prod (logs prod ++ [b1]) prod ++ [b2])
        = Function.update logs prod (logs prod ++ [b1, b2]) := by
      rw [Function.update_idem, Function.update_self, List.append_assoc]; rfl
    rw [this] at inv5
    exact inv5.congr (fun _ _ _ => rfl) inv5.flow
  · simp [Heap.setPos, hposg]
  · simp [Heap.setPos, hposg]

/-- `one_loop_full` without the state before training. -/
theorem one_loop (env : Env F D d M O) (hl : env.ops.Lawful) (c : BundleCfg F D d M O) (hc : GoodCfg c) (strats : String → Option (Strategy F D d M O))
    (hs : HasCore c strats) (data : Data D) (prod : Bool) (pre mid : List String) (gap : List (Pos F d) → List (Pos F d) → Prop)
    (hpre : QuietPre env c strats data pre gap) (hmid : QuietMid env c strats data mid) (w w' : World F D d M O)
    (hrun : Completes env strats data (pre ++ ("local_stepper" :: "update_global_step" :: (mid ++ ["global_stepper", "update_local_step"]))) w w')
    (logs : Bool → List (Block F d)) (inv : BundleInv c prod w.heap logs) (hx : w.xs.length = c.nChains)
    (hcur : w.heap.pos "local_stepper" = blocksLen (rowsPerCall c) (logs prod))
    (hfit : blocksLen (rowsPerCall c) (logs prod) + (rowsPerCall c true + rowsPerCall c false) ≤ capacity c prod) :
    ∃ b1 b2 w1 w2 w4 m, gap w.xs w1.xs ∧ LocalBlock env c data w1.key w1.xs b1 w2.xs ∧ GlobalBlock env c data w4.key m w2.xs b2 w'.xs ∧
      (Completes env strats data pre w w1 ∧ w2.key = .child w1.key 0 ∧ (∀ n, ¬ IsSampleBuffer n → w2.heap.res n = w1.heap.res n) ∧
        Completes env strats data mid w2 w4 ∧ w4.heap.res "global_sampler" = some (.kernel (.nf m c.nfBatch)) ∧
        w'.key = .child w4.key 0 ∧ (∀ n, ¬ IsSampleBuffer n → w'.heap.res n = w4.heap.res n) ∧ w2.xs.length = c.nChains) ∧
      BundleInv c prod w'.heap (Function.update logs prod (logs prod ++ [b1, b2])) ∧ w'.xs.length = c.nChains ∧
      b1.isLocal = true ∧ b2.isLocal = false ∧
      w'.heap.pos "local_stepper" = blocksLen (rowsPerCall c) (logs prod ++ [b1, b2]) ∧
      w'.heap.pos "global_stepper" = blocksLen (rowsPerCall c) (logs prod ++ [b1, b2]) := by
  obtain ⟨b1, b2, w1, w2, w4, m, h1, h2, h3, h4, h5, h6, h7, h8, h9, h10, -⟩ := one_loop_full env hl c hc strats hs data prod pre mid gap hpre hmid w w' hrun logs inv hx hcur hfit
  exact ⟨b1, b2, w1, w2, w4, m, h1, h2, h3, h4, h5, h6, h7, h8, h9, h10⟩

theorem repeatPhase_succ (n : Nat) (ph : List String) : repeatPhase (n + 1) ph = repeatPhase n ph ++ ph := by
  simp [repeatPhase, List.replicate_succ']

/-- Any number of loops of a phase. -/
theorem many_loops (env : Env F D d M O) (hl : env.ops.Lawful) (c : BundleCfg F D d M O) (hc : GoodCfg c) (strats : String → Option (Strategy F D d M O))
    (hs : HasCore c strats) (data : Data D) (prod : Bool) (pre mid : List String) (gap : List (Pos F d) → List (Pos F d) → Prop)
    (hpre : QuietPre env c strats data pre gap) (hmid : QuietMid env c strats data mid) (w : World F D d M O)
    (logs : Bool → List (Block F d)) (hlogs : logs prod = []) (inv : BundleInv c prod w.heap logs) (hx : w.xs.length = c.nChains)
    (hcur : w.heap.pos "local_stepper" = 0) (n : Nat) (hn : n ≤ nLoops c prod) : ∀ w',
    Completes env strats data (repeatPhase n (pre ++ ("local_stepper" :: "update_global_step" :: (mid ++ ["global_stepper", "update_local_step"])))) w w' →
    ∃ log, Loops env c data gap w.xs log w'.xs ∧ log.length = 2 * n ∧
      blocksLen (rowsPerCall c) log = n * (rowsPerCall c true + rowsPerCall c false) ∧
      BundleInv c prod w'.heap (Function.update logs prod log) ∧ w'.xs.length = c.nChains ∧
      w'.heap.pos "local_stepper" = blocksLen (rowsPerCall c) log ∧ (0 < n → w'.heap.pos "global_stepper" = blocksLen (rowsPerCall c) log) := by
  induction n with
  | zero =>
    intro w' h
    simp only [repeatPhase, List.replicate_zero, List.flatten_nil, completes_nil] at h
    subst h
    refine ⟨[], .nil _, rfl, by simp [blocksLen], ?_, hx, by simp [hcur, blocksLen], by omega⟩
    rw [← hlogs, Function.update_eq_self]; exact inv
  | succ n ih =>
    intro w' h
    rw [repeatPhase_succ, completes_append] at h
    obtain ⟨w1, h1, h2⟩ := h
    obtain ⟨log, hlo, hll, hbl, inv1, hx1, hp1, -⟩ := ih (by omega) w1 h1
    have hfit : blocksLen (rowsPerCall c) (Function.update logs prod log prod) + (rowsPerCall c true + rowsPerCall c false) ≤ capacity c prod := by
      rw [Function.update_self, hbl, capacity_eq]
      calc _ = (n + 1) * (rowsPerCall c true + rowsPerCall c false) := by ring
        _ ≤ _ := Nat.mul_le_mul_right _ hn
    obtain ⟨b1, b2, v1, v2, v4, m, hg, hb1, hb2, -, inv2, hx2, ht1, ht2, hp2, hp2'⟩ := one_loop env hl c hc strats hs data prod pre mid gap hpre hmid w1 w' h2 _
      inv1 hx1 (by rw [Function.update_self]; exact hp1) hfit
    rw [Function.update_self, Function.update_idem] at inv2
    rw [Function.update_self] at hp2 hp2'
    refine ⟨log ++ [b1, b2], .snoc hlo hg hb1 hb2, by simp [hll]; ring, ?_, inv2, hx2, hp2, fun _ => hp2'⟩
    rw [blocksLen_append, hbl]
    simp [blocksLen, ht1, ht2]
    ring

end FlowMC
