import Verif.Props.BundleRun
import Verif.Props.Tempering
import Verif.Props.SamplerProps
/-
C57: a whole run of `RQSpline_MALA_Bundle`;  C61: the same for `RQSpline_MALA_PT_Bundle`, and its temperature ladder.
-/
set_option linter.unusedSectionVars false
namespace FlowMC
open Spec

variable {F D : Type} {d : Nat} {M O V : Type}
variable [Zero F] [One F] [Add F] [Mul F] [Div F] [Sub F] [Neg F] [NatCast F] [Transc F] [FCmp F] [BufNum F]

theorem recording_fresh (h : Heap F D d M O) (n T : Nat) (P L : String) (acc : Bool → String) (nm : String → String)
    (hP : h.res P = some (.buffer (Buffer.new (nm P) [n, T, d] 1))) (hL : h.res L = some (.buffer (Buffer.new (nm L) [n, T] 1)))
    (hA : ∀ t, h.res (acc t) = some (.buffer (Buffer.new (nm (acc t)) [n, T] 1))) : Recording h n T P L acc [] := by
  refine ⟨⟨_, hP, rfl, rfl, fun i j c _ _ => ?_⟩, ⟨_, hL, rfl, rfl, fun i j _ _ => ?_⟩, fun t => ⟨_, hA t, rfl, rfl, fun i j _ _ => ?_⟩⟩ <;>
    simp [tagged, Buffer.new]

/-- The invariant holds of a dictionary that agrees with the plain bundle's on the core names. -/
theorem bundleInv_fresh (c : BundleCfg F D d M O) (h : Heap F D d M O) (hh : ∀ n ∈ coreNames, h.res n = bundleResources c n) :
    BundleInv c false h (fun _ => []) where
  density := ⟨_, by rw [hh "logpdf" (by decide)]; rfl⟩
  kernel := by rw [hh "local_sampler" (by decide)]; rfl
  flow := ⟨c.flow, by rw [hh "global_sampler" (by decide)]; rfl⟩
  state := ⟨initialState, by rw [hh "sampler_state" (by decide)]; rfl, rfl, rfl, rfl, rfl⟩
  recs := fun q => by
    apply recording_fresh h _ _ _ _ _ id
    · rw [hh _ (names_mem q true).1]; cases q <;> rfl
    · rw [hh _ (names_mem q true).2.1]; cases q <;> rfl
    · intro t; rw [hh _ (names_mem q t).2.2]; cases q <;> cases t <;> rfl
  sized := fun _ b hb => by simp at hb

/-- The switch from training to production. -/
theorem switch_step (env : Env F D d M O) (c : BundleCfg F D d M O) (strats : String → Option (Strategy F D d M O)) (hs : HasCore c strats)
    (data : Data D) (w w' : World F D d M O) (hrun : Completes env strats data ["reset_steppers", "update_state"] w w')
    (logs : Bool → List (Block F d)) (inv : BundleInv c false w.heap logs) :
    w'.xs = w.xs ∧ w'.key = w.key ∧ BundleInv c true w'.heap logs ∧ w'.heap.pos "local_stepper" = 0 ∧ w'.heap.pos "global_stepper" = 0 ∧
      (∀ n, n ≠ "sampler_state" → w'.heap.res n = w.heap.res n) ∧
      ∃ st, w'.heap.res "sampler_state" = some (.state st) ∧ st.data "training" = some (.bool false) := by
  rw [completes_cons] at hrun
  obtain ⟨s, k1, xs1, h1, e1, r1, hrun⟩ := hrun
  rw [hs.reset] at e1; simp only [Option.some.injEq] at e1; subst e1
  simp only [Strategy.run, runLambda, resetSteppers, Prod.mk.injEq, Except.ok.injEq] at r1
  obtain ⟨⟨rfl, rfl⟩, rfl⟩ := r1
  rw [completes_cons] at hrun
  obtain ⟨s, k2, xs2, h2, e2, r2, hrun⟩ := hrun
  rw [hs.update] at e2; simp only [Option.some.injEq] at e2; subst e2
  rw [completes_nil] at hrun
  subst hrun
  obtain ⟨st, hst, -⟩ := inv.state
  obtain ⟨h3, r3, hp3, hs3, hf3⟩ := C05_update_state_strategy (F := F) (D := D) (d := d) (M := M) (O := O) updateStateStrat w.key w.xs
    ((w.heap.setPos "local_stepper" 0).setPos "global_stepper" 0) st hst
  simp only [Strategy.run] at r2
  rw [r3] at r2
  simp only [Prod.mk.injEq, Except.ok.injEq] at r2
  obtain ⟨⟨rfl, rfl⟩, rfl⟩ := r2
  have hf : ∀ n, n ≠ "sampler_state" → h3.res n = w.heap.res n := fun n hn => hf3 n hn
  refine ⟨rfl, rfl, ?_, by rw [hp3]; simp [Heap.setPos], by rw [hp3]; simp [Heap.setPos], hf, _, hs3, ?_⟩
  · exact {
      density := by rw [hf _ (by decide)]; exact inv.density
      kernel := by rw [hf _ (by decide)]; exact inv.kernel
      flow := by rw [hf _ (by decide)]; exact inv.flow
      state := ⟨_, hs3, by refine ⟨?_, ?_, ?_, ?_⟩ <;> simp [updateStateStrat, State.update, dictSet, posName, logpName, accName]⟩
      recs := fun q => (inv.recs q).congr (hf _ (by cases q <;> decide)) (hf _ (by cases q <;> decide)) (fun t => hf _ (by cases q <;> cases t <;> decide))
      sized := inv.sized }
  · simp [updateStateStrat, State.update, dictSet]

/-- The order of either bundle, with `pre` in front of every loop. -/
def loopOrder (c : BundleCfg F D d M O) (pre : List String) : List String :=
  repeatPhase c.nTrainLoops (pre ++ trainingPhase) ++ ["reset_steppers", "update_state"] ++ repeatPhase c.nProdLoops (pre ++ productionPhase)

/-- What both bundles guarantee about the recorded samples of a complete run from a fresh state. -/
structure Spec.Accounted (env : Env F D d M O) (c : BundleCfg F D d M O) (data : Data D) (gap : List (Pos F d) → List (Pos F d) → Prop)
    (xs : List (Pos F d)) (h : Heap F D d M O) (logT logP : List (Block F d)) (xsT xsP : List (Pos F d)) : Prop where
  /-- The training log: `nTrainLoops` pairs of a local and a global block, each starting where the previous one stopped. -/
  trainLoops : Loops env c data gap xs logT xsT
  trainCount : logT.length = 2 * c.nTrainLoops
  /-- The production log continues from the end of training. -/
  prodLoops : Loops env c data gap xsT logP xsP
  prodCount : logP.length = 2 * c.nProdLoops
  /-- The training buffers hold exactly the training log, the production buffers exactly the production log. -/
  train : Recording h c.nChains c.nTrainSteps "positions_training" "log_prob_training"
    (fun isLocal => if isLocal then "local_accs_training" else "global_accs_training") logT
  prod : Recording h c.nChains c.nProdSteps "positions_production" "log_prob_production"
    (fun isLocal => if isLocal then "local_accs_production" else "global_accs_production") logP
  /-- Both are full: every chain has as many logged rows as the buffers have steps. -/
  trainFull : ∀ i < c.nChains, (tagged logT i).length = c.nTrainSteps
  prodFull : ∀ i < c.nChains, (tagged logP i).length = c.nProdSteps

theorem bundle_run (env : Env F D d M O) (hl : env.ops.Lawful) (c : BundleCfg F D d M O) (hc : GoodCfg c)
    (strats : String → Option (Strategy F D d M O)) (hs : HasCore c strats) (data : Data D) (pre : List String)
    (gap : List (Pos F d) → List (Pos F d) → Prop) (hpre : QuietPre env c strats data pre gap) (w w' : World F D d M O)
    (hrun : Completes env strats data (loopOrder c pre) w w') (inv : BundleInv c false w.heap (fun _ => []))
    (hx : w.xs.length = c.nChains) (hcur : w.heap.pos "local_stepper" = 0) :
    ∃ logT logP wT, Accounted env c data gap w.xs w'.heap logT logP wT.xs w'.xs ∧
      Completes env strats data (repeatPhase c.nTrainLoops (pre ++ trainingPhase)) w wT ∧
      BundleInv c false wT.heap (Function.update (fun _ => []) false logT) ∧ w'.xs.length = c.nChains ∧
      BundleInv c true w'.heap (fun q => if q then logP else logT) ∧
      w'.heap.pos "local_stepper" = c.nProdSteps ∧ (0 < c.nProdLoops → w'.heap.pos "global_stepper" = c.nProdSteps) := by
  rw [loopOrder, completes_append, ] at hrun
  obtain ⟨w2, hrun1, hrun3⟩ := hrun
  rw [completes_append] at hrun1
  obtain ⟨wT, hrun1, hrun2⟩ := hrun1
  obtain ⟨logT, lo1, ll1, bl1, inv1, hx1, -, -⟩ := many_loops env hl c hc strats hs data false pre ["model_trainer", "update_model"] gap hpre
    (quietMid_train env c strats hs data) w (fun _ => []) rfl inv hx hcur c.nTrainLoops (le_refl _) wT hrun1
  obtain ⟨hx2, -, inv2, hp2, -, -, -⟩ := switch_step env c strats hs data wT w2 hrun2 _ inv1
  obtain ⟨logP, lo3, ll3, bl3, inv3, hx3, hp3, hp3'⟩ := many_loops env hl c hc strats hs data true pre [] gap hpre
    (quietMid_nil env c strats data) w2 _ (by simp) inv2 (by rw [hx2, hx1]) hp2 c.nProdLoops (le_refl _) w' hrun3
  have hcapP : blocksLen (rowsPerCall c) logP = c.nProdSteps := bl3.trans (capacity_eq c true).symm
  have hcapT : blocksLen (rowsPerCall c) logT = c.nTrainSteps := bl1.trans (capacity_eq c false).symm
  have hT := inv3.recs false
  have hP := inv3.recs true
  rw [Function.update_of_ne (by decide), Function.update_self] at hT
  rw [Function.update_self] at hP
  have sT := inv3.sized false
  have sP := inv3.sized true
  rw [Function.update_of_ne (by decide), Function.update_self] at sT
  rw [Function.update_self] at sP
  refine ⟨logT, logP, wT, ⟨lo1, ll1, by rw [← hx2]; exact lo3, ll3, hT, hP, ?_, ?_⟩, hrun1, inv1, hx3, ?_, by rw [hp3, hcapP],
    fun h0 => by rw [hp3' h0, hcapP]⟩
  · intro i hi; rw [tagged_length c.nChains (rowsPerCall c) logT sT i hi, hcapT]
  · intro i hi; rw [tagged_length c.nChains (rowsPerCall c) logP sP i hi, hcapP]
  · have : (fun q => if q then logP else logT) = Function.update (Function.update (fun _ => []) false logT) true logP := by
      funext q; cases q <;> simp
    rw [this]; exact inv3

theorem bundle_hasCore (c : BundleCfg F D d M O) : HasCore c (bundleStrategies c).lookup :=
  ⟨rfl, rfl, ⟨100, rfl⟩, rfl, rfl, rfl, rfl, rfl⟩

theorem pt_hasCore (c : BundleCfg F D d M O) (p : PTCfg F D d) : HasCore c (ptStrategies c p).lookup :=
  ⟨rfl, rfl, ⟨_, rfl⟩, rfl, rfl, rfl, rfl, rfl⟩

theorem quietPre_nil (env : Env F D d M O) (c : BundleCfg F D d M O) (strats : String → Option (Strategy F D d M O)) (data : Data D) :
    QuietPre env c strats data [] Eq := by
  intro w w' h hx
  rw [completes_nil] at h
  subst h
  exact ⟨rfl, hx, rfl, fun _ _ => rfl⟩

/-- A successful `sample` call as a completed sequence of strategies. -/
theorem sample_completes (env : Env F D d M O) (s s' : Sampler F D d M O V) (order : List String) (ho : s.strategyOrder = some order)
    (init : InitPos F d) (data : Data D) (hrun : s.sample env init data = (.ok (), s')) :
    ∃ k xs, Completes env s.strategies data order ⟨s.rngKey, init.atleast2d, s.heap⟩ ⟨k, xs, s'.heap⟩ ∧ s' = { s with heap := s'.heap } := by
  unfold Sampler.sample at hrun
  rw [ho] at hrun
  simp only at hrun
  split at hrun
  · simp at hrun
  · rename_i a h hr
    obtain ⟨k, xs⟩ := a
    simp only [Prod.mk.injEq, true_and] at hrun
    subst hrun
    exact ⟨k, xs, (C08_sequential env s.strategies data order _ _ _ _ _ _).1 hr, by rw [ho]⟩

/-- C57. If `sample` succeeds on a fresh sampler made from `RQSpline_MALA_Bundle` with one start position per chain, then there are a
training log and a production log such that everything in `Accounted` holds of the buffers: the training loops' local and global rows
in order in the training buffers, the production loops' in the production buffers, each row once, acceptance flags in the buffers of
the stepper that produced them, no row of one phase in the other phase's buffers, and no buffer cell left unused. -/
theorem C57_accounting (env : Env F D d M O) (hl : env.ops.Lawful) (c : BundleCfg F D d M O) (hc : GoodCfg c) (data : Data D)
    (n nc : Nat) (key : Key) (kw : List (String × V)) (s s' : Sampler F D d M O V) (hs : Sampler.new n nc key none none none (some (malaBundle c)) kw = .ok s)
    (init : InitPos F d) (hx : init.atleast2d.length = c.nChains) (hrun : s.sample env init data = (.ok (), s')) :
    ∃ logT logP xsT xsP, Accounted env c data Eq init.atleast2d s'.heap logT logP xsT xsP := by
  simp only [Sampler.new, Except.ok.injEq] at hs
  subst hs
  obtain ⟨k, xs, hcomp, -⟩ := sample_completes env _ s' _ rfl init data hrun
  obtain ⟨logT, logP, wT, hA, -⟩ := bundle_run env hl c hc _ (bundle_hasCore c) data [] Eq (quietPre_nil env c _ data) _ _ hcomp
    (bundleInv_fresh c _ (fun _ _ => rfl)) hx rfl
  exact ⟨logT, logP, _, _, hA⟩

/-- C57. During training (after any number of complete training loops) the production buffers are untouched. -/
theorem C57_training_leaves_production (env : Env F D d M O) (hl : env.ops.Lawful) (c : BundleCfg F D d M O) (hc : GoodCfg c) (data : Data D) (key : Key)
    (xs : List (Pos F d)) (hx : xs.length = c.nChains) (n : Nat) (hn : n ≤ c.nTrainLoops) (w' : World F D d M O)
    (hrun : Completes env (bundleStrategies c).lookup data (repeatPhase n trainingPhase) ⟨key, xs, ⟨bundleResources c, fun _ => 0⟩⟩ w') :
    (∃ log, Loops env c data Eq xs log w'.xs ∧ log.length = 2 * n ∧
      Recording w'.heap c.nChains c.nTrainSteps "positions_training" "log_prob_training"
        (fun isLocal => if isLocal then "local_accs_training" else "global_accs_training") log) ∧
    Recording w'.heap c.nChains c.nProdSteps "positions_production" "log_prob_production"
      (fun isLocal => if isLocal then "local_accs_production" else "global_accs_production") [] := by
  obtain ⟨log, lo, ll, bl, inv, -, -, -⟩ := many_loops env hl c hc _ (bundle_hasCore c) data false [] ["model_trainer", "update_model"] Eq
    (quietPre_nil env c _ data) (quietMid_train env c _ (bundle_hasCore c) data) ⟨key, xs, ⟨bundleResources c, fun _ => 0⟩⟩ (fun _ => []) rfl
    (bundleInv_fresh c _ (fun _ _ => rfl)) hx rfl n hn w' hrun
  refine ⟨⟨log, lo, ll, ?_⟩, ?_⟩
  · have := inv.recs false
    rw [Function.update_self] at this
    exact this
  · have := inv.recs true
    rw [Function.update_of_ne (by decide)] at this
    exact this

end FlowMC
