import Verif.Props.Extend
import Verif.Props.TrainCall
/-
C35 with the flag the library stores; C60: what a training call of a library bundle is configured to do.
-/
set_option linter.unusedSectionVars false
namespace FlowMC
open Spec
variable {F D : Type} {d : Nat} {M O : Type} [Zero F] [One F] [Add F] [Mul F] [Div F] [Sub F] [Neg F] [NatCast F] [Transc F] [FCmp F] [BufNum F]

/-- **C35, the flag.** If the sampler state says `training = False`, a tempering call changes no resource at all, whether it succeeds or raises. -/
theorem C35_flag_off (env : Env F D d M O) (s : ParallelTempering) (k : Key) (xs : List (Pos F d)) (data : Data D) (h : Heap F D d M O)
    (st : State) (hst : h.res s.stateName = some (.state st)) (ht : st.data "training" = some (.bool false)) : (s.run env k xs data h).2 = h :=
  tempering_frozen env s k xs data h st hst ht

/-- **C35, the flag.** If it says `training = True`, the ladder after the call is the adapted one. -/
theorem C35_flag_on (env : Env F D d M O) (s : ParallelTempering) (k : Key) (xs : List (Pos F d)) (data : Data D) (h : Heap F D d M O)
    (m : Nat) (P T : String) (pb tb : Buffer F) (K : LocalKernel F D d) (l : TemperedPDF F D d)
    (site : TemperSite s h env.rng xs.length m P T pb tb K l (.bool true)) :
    ∃ k' ys h' tb', s.run env k xs data h = (.ok (k', ys), h') ∧ h'.res T = some (.buffer tb') ∧
      ladder tb' m = adaptTemperature (ladder tb m) ((temperedWalkers env.rng s k xs data m pb tb K l).map (·.2)) := by
  obtain ⟨h', pb', tb', hrun, -, -, -, -, -, -, -, -, hT, -, -, -, -, hl⟩ := C35_training env s k xs data h m P T pb tb K l (.bool true) site rfl
  exact ⟨_, _, h', tb', hrun, hT, hl⟩

/-- The history window of a library bundle: configurable in the tempered bundle, 100 in the plain one. -/
def windowOf (p : Option (PTCfg F D d)) : Nat := match p with | none => 100 | some p => p.historyWindow

/-- **C60, the training calls.** In either bundle, a call of the model trainer, made when every chain has recorded the same positive number of positions and the loss log has room: the examples
are drawn (at most `n_max_examples` of them) from the last `history_window` recorded positions of every chain, the current flow and optimiser are trained on them for `n_epochs` epochs with batches of
`batch_size`, the result becomes the `model` and `optimizer` resources, and its `n_epochs` losses are appended to the loss log. -/
theorem C60_trainer (env : Env F D d M O) (c : BundleCfg F D d M O) (p : Option (PTCfg F D d)) (data : Data D) (s : Strategy F D d M O)
    (hs : (libraryBundle p c).strategies.lookup "model_trainer" = some s) (k : Key) (xs : List (Pos F d)) (h : Heap F D d M O) (m : M) (o : O) (b : Buffer F) (n T q TL : Nat) (log : List F)
    (hm : h.res "model" = some (.model m)) (ho : h.res "optimizer" = some (.optimizer o)) (hb : h.res "positions_training" = some (.buffer b)) (hshape : b.data.shape = [n, T, d])
    (hn : 0 < n) (hq : 0 < q) (hu : ∀ i, i < n → (finiteRowsOf b.data T i : List (Pos F d)).length = q) (hw : 0 < windowOf p) (hbatch : 0 < c.batchSize)
    (hlog : LossLog h "loss_buffer" TL log) (hfit : log.length + c.nEpochs ≤ TL) :
    ∃ (examples : List (Pos F d)) (r : TrainResult F M O) (h' : Heap F D d M O),
      s.run env k xs data h = (.ok (r.rng, xs), h') ∧
      examples = (env.rng.choice (.child k 1) ((List.range n).flatMap
        (fun i => (lastN (windowOf p) (finiteRowsOf b.data T i) : List (Pos F d)))).length c.nMaxExamples).filterMap
        (((List.range n).flatMap (fun i => (lastN (windowOf p) (finiteRowsOf b.data T i) : List (Pos F d))))[·]?) ∧
      train env.rng env.ops env.big (.child (.child k 0) 1) m o examples c.nEpochs c.batchSize = .ok r ∧
      h'.res "model" = some (.model r.model) ∧ h'.res "optimizer" = some (.optimizer r.state) ∧
      LossLog h' "loss_buffer" TL (log ++ r.losses) ∧ r.losses.length = c.nEpochs := by
  have hs' : s = .trainModel (modelTrainer c (windowOf p)) := by
    cases p with
    | none => cases hs; rfl
    | some p => cases hs; rfl
  subst hs'
  obtain ⟨rows, hrows, hne⟩ := trainingRows_total b.data n T (windowOf p) q hn hq hu
  obtain ⟨r, hr⟩ := train_ok env.rng env.ops env.big (split (split k).1).2 m o ((env.rng.choice (split k).2 rows.length c.nMaxExamples).filterMap (rows[·]?)) c.nEpochs c.batchSize hbatch
  have hplan : (modelTrainer c (windowOf p)).plan env k h = .ok r := by
    have h1 : h.getModel "model" = .ok m := by simp [Heap.getModel, Heap.get, hm]
    have h2 : h.getOptimizer "optimizer" = .ok o := by simp [Heap.getOptimizer, Heap.get, ho]
    have h3 : h.getBuffer "positions_training" = .ok b := Heap.getBuffer_of hb
    simp only [TrainModel.plan, modelTrainer, h1, h2, h3, bind, Except.bind, hshape, if_true, hrows, if_neg hne]
    exact hr
  have hll : r.losses.length = c.nEpochs := C50_losses_per_call env (modelTrainer c (windowOf p)) k h r hplan
  obtain ⟨m', o', ex, hm', ho', htr, hex, -⟩ := C51_recent_rows_partial env (modelTrainer c (windowOf p)) k h b n T q r hb hshape hw hu hplan
  replace hm' : h.res "model" = some (.model m') := hm'
  replace ho' : h.res "optimizer" = some (.optimizer o') := ho'
  rw [hm] at hm'; rw [ho] at ho'
  cases hm'; cases ho'
  obtain ⟨lb, hrec, hlog'⟩ := recordLosses_log h "loss_buffer" (by decide) TL log r.losses hlog (by rw [hll]; exact hfit)
  refine ⟨ex, r, ((h.setRes "loss_buffer" (.buffer lb)).setRes "model" (.model r.model)).setRes "optimizer" (.optimizer r.state), ?_, hex, htr, ?_, ?_, ?_, hll⟩
  · have : (modelTrainer c (windowOf p)).run env k xs h = (.ok (r.rng, xs), ((h.setRes "loss_buffer" (.buffer lb)).setRes "model" (.model r.model)).setRes "optimizer" (.optimizer r.state)) := by
      simp only [TrainModel.run, hplan]
      simp only [modelTrainer, hrec]
    exact this
  · simp [Heap.setRes, dictSet]
  · simp [Heap.setRes, dictSet]
  · obtain ⟨b', hb', hrest⟩ := hlog'
    exact ⟨b', by simpa [Heap.setRes, dictSet] using hb', hrest⟩

end FlowMC
