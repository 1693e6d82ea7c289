import Verif.Props.Totality
/-
C48: what a call of the training strategy leaves in the resources.
-/
set_option linter.unusedSectionVars false
namespace FlowMC
open Spec

variable {F D : Type} {d : Nat} {M O : Type}
variable [Zero F] [One F] [Add F] [Mul F] [Div F] [Sub F] [Neg F] [NatCast F] [Transc F] [FCmp F] [BufNum F]

/-- **C48 (strategy call).** A `TrainModel` call on a site with a model, an optimiser state, a position buffer in which every chain has the same positive number of finite rows, and a loss buffer with
room: it succeeds, leaves the positions alone, and trains the stored model from the stored optimiser state on examples drawn (with the second half of the key) from the last
`history_window` finite rows of every chain.  Afterwards the model and the optimiser resources hold the first best snapshot of that training, the losses of the epochs are appended to the
loss buffer, the returned key is the one `train` returned, and no other resource or cursor has changed. -/
theorem C48_call {L : Type} [LinearOrder L] (env : Env F D d M O) (s : TrainModel) (k : Key) (xs : List (Pos F d)) (h : Heap F D d M O) (m : M) (o : O) (b : Buffer F) (n T q TL : Nat) (log : List F)
    (hm : h.res s.modelName = some (.model m)) (ho : h.res s.optimizerName = some (.optimizer o)) (hb : h.res s.dataName = some (.buffer b)) (hshape : b.data.shape = [n, T, d])
    (hn : 0 < n) (hq : 0 < q) (hu : ∀ i, i < n → (finiteRowsOf b.data T i : List (Pos F d)).length = q) (hw : 0 < s.historyWindow) (hbatch : 0 < s.batchSize)
    (hname : s.lossBufferName ≠ "") (hlog : LossLog h s.lossBufferName TL log) (hfit : log.length + s.nEpochs ≤ TL)
    (ord : F → Option L) (hord : LossOrder F ord) (bound : L) (hinit : ord env.big = some bound) :
    ∃ (examples : List (Pos F d)) (r : TrainResult F M O) (h' : Heap F D d M O),
      s.run env k xs h = (.ok (r.rng, xs), h') ∧
      examples = (env.rng.choice (.child k 1) ((List.range n).flatMap
        (fun i => (lastN s.historyWindow (finiteRowsOf b.data T i) : List (Pos F d)))).length s.nMaxExamples).filterMap
        (((List.range n).flatMap (fun i => (lastN s.historyWindow (finiteRowsOf b.data T i) : List (Pos F d))))[·]?) ∧
      train env.rng env.ops env.big (.child (.child k 0) 1) m o examples s.nEpochs s.batchSize = .ok r ∧
      FirstBest ord bound (trajectory env.rng env.ops env.big examples s.batchSize s.nEpochs (.child (.child k 0) 1) (env.ops.setStats m examples) o) m o r.model r.state ∧
      h'.res s.modelName = some (.model r.model) ∧ h'.res s.optimizerName = some (.optimizer r.state) ∧
      LossLog h' s.lossBufferName TL (log ++ r.losses) ∧ r.losses.length = s.nEpochs ∧
      (∀ name, name ≠ s.modelName → name ≠ s.optimizerName → name ≠ s.lossBufferName → h'.res name = h.res name) ∧ h'.pos = h.pos := by
  obtain ⟨rows, hrows, hne⟩ := trainingRows_total b.data n T s.historyWindow q hn hq hu
  obtain ⟨r, hr⟩ := train_ok env.rng env.ops env.big (split (split k).1).2 m o ((env.rng.choice (split k).2 rows.length s.nMaxExamples).filterMap (rows[·]?)) s.nEpochs s.batchSize hbatch
  have hplan : s.plan env k h = .ok r := by
    have h1 : h.getModel s.modelName = .ok m := by simp [Heap.getModel, Heap.get, hm]
    have h2 : h.getOptimizer s.optimizerName = .ok o := by simp [Heap.getOptimizer, Heap.get, ho]
    have h3 : h.getBuffer s.dataName = .ok b := Heap.getBuffer_of hb
    simp only [TrainModel.plan, h1, h2, h3, bind, Except.bind, hshape, if_true, hrows, if_neg hne]
    exact hr
  have hll : r.losses.length = s.nEpochs := C50_losses_per_call env s k h r hplan
  obtain ⟨m', o', ex, hm', ho', htr, hex, -⟩ := C51_recent_rows_partial env s k h b n T q r hb hshape hw hu hplan
  rw [hm] at hm'; rw [ho] at ho'
  cases hm'; cases ho'
  obtain ⟨lb, hrec, hlog'⟩ := recordLosses_log h s.lossBufferName hname TL log r.losses hlog (by rw [hll]; exact hfit)
  obtain ⟨r', hr', -, -, hbest⟩ := C48_best_snapshot env.rng env.ops env.big (.child (.child k 0) 1) m o ex s.nEpochs s.batchSize hbatch ord hord bound hinit
  rw [htr] at hr'
  cases hr'
  have hmo : s.modelName ≠ s.optimizerName := by intro e; rw [e, ho] at hm; cases hm
  have hlm : s.lossBufferName ≠ s.modelName := by
    intro e; obtain ⟨b0, hb0, -⟩ := hlog; rw [e, hm] at hb0; cases hb0
  have hlo : s.lossBufferName ≠ s.optimizerName := by
    intro e; obtain ⟨b0, hb0, -⟩ := hlog; rw [e, ho] at hb0; cases hb0
  refine ⟨ex, r, ((h.setRes s.lossBufferName (.buffer lb)).setRes s.modelName (.model r.model)).setRes s.optimizerName (.optimizer r.state), ?_, hex, htr, hbest, ?_, ?_, ?_, hll, ?_, rfl⟩
  · simp only [TrainModel.run, hplan, hrec]
  · simp [Heap.setRes, dictSet, hmo]
  · simp [Heap.setRes, dictSet]
  · obtain ⟨b', hb', hrest⟩ := hlog'
    exact ⟨b', by simpa [Heap.setRes, dictSet, hlm, hlo] using hb', hrest⟩
  · intro name h1 h2 h3
    simp [Heap.setRes, dictSet, h1, h2, h3]

/-- Non-vacuity: the toy training site. -/
example : Toy.trainHeap.res Toy.trainer.modelName = some (.model 0) ∧ Toy.trainHeap.res Toy.trainer.optimizerName = some (.optimizer 0) ∧ LossLog Toy.trainHeap Toy.trainer.lossBufferName 6 [] ∧
    LossOrder Int (fun a => some a) := by
  refine ⟨rfl, rfl, ⟨_, rfl, rfl, rfl, rfl, by simp⟩, ?_⟩
  intro a b
  simp [FCmp.blt]

end FlowMC
