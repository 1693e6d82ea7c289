import Verif.Props.Extend
/-
C87: a run with more training loops extends the training of the shorter run.
-/
set_option linter.unusedSectionVars false
namespace FlowMC
open Spec

variable {F D M O V : Type} {d : ℕ} {S : Set String}
variable [Zero F] [One F] [Add F] [Mul F] [Div F] [Sub F] [Neg F] [NatCast F] [Transc F] [FCmp F] [BufNum F]

/-- Every resource that is neither one of the eight sample buffers nor the loss buffer. -/
def Spec.notRecorded : Set String :=
  {n | n ∉ ["positions_training", "log_prob_training", "local_accs_training", "global_accs_training",
    "positions_production", "log_prob_production", "local_accs_production", "global_accs_production", "loss_buffer"]}

theorem notRecorded_sample {n : String} (h : n ∈ notRecorded) : ¬ IsSampleBuffer n := by
  refine not_isSampleBuffer fun q t => ?_
  simp only [notRecorded, Set.mem_setOf_eq, List.mem_cons, List.not_mem_nil, or_false, not_or] at h
  cases q <;> cases t <;> simp [posName, logpName, accName, h]

/-- Selecting the finite rows does not depend on how many empty rows follow the recorded ones. -/
theorem finiteRows_pad (hd : 0 < d) (hinf : BufNum.isFinite (BufNum.negInf : F) = false) (a : NDArr F) (n T L : ℕ) (hL : L ≤ T)
    (hpad : ∀ i < n, ∀ j, L ≤ j → j < T → ∀ c : Fin d, a.get [i, j, c] = BufNum.negInf) : (finiteRows a n T : List (Pos F d)) = finiteRows a n L := by
  unfold finiteRows
  refine List.flatMap_congr fun i hi => ?_
  rw [List.mem_range] at hi
  obtain ⟨e, rfl⟩ : ∃ e, T = L + e := ⟨T - L, by omega⟩
  rw [List.range_add, List.map_append, List.filter_append]
  have : (List.map (fun j => (row3 a i j : Pos F d)) (List.map (fun x => L + x) (List.range e))).filter (fun v => (List.finRange d).all fun k => BufNum.isFinite (v k)) = [] := by
    rw [List.filter_eq_nil_iff]
    intro v hv
    simp only [List.map_map, List.mem_map, List.mem_range, Function.comp] at hv
    obtain ⟨x, hx, rfl⟩ := hv
    simp only [List.all_eq_true, List.mem_finRange, true_implies, not_forall]
    refine ⟨⟨0, hd⟩, ?_⟩
    rw [row3, hpad i hi _ (by omega) (by omega), hinf]
    simp
  rw [this, List.append_nil]

theorem finiteRows_congr (a a' : NDArr F) (n L : ℕ) (h : ∀ i < n, ∀ j < L, ∀ c : Fin d, a.get [i, j, c] = a'.get [i, j, c]) : (finiteRows a n L : List (Pos F d)) = finiteRows a' n L := by
  unfold finiteRows
  refine List.flatMap_congr fun i hi => ?_
  rw [List.mem_range] at hi
  congr 1
  refine List.map_congr_left fun j hj => ?_
  rw [List.mem_range] at hj
  funext c
  exact h i hi j hj c

/-- The training data of two buffers of different capacity that hold the same samples. -/
theorem trainingRows_same (hd : 0 < d) (hinf : BufNum.isFinite (BufNum.negInf : F) = false) {h h' : Heap F D d M O} {n T T' L : ℕ} {P Q : String} {acc : Bool → String} {log : List (Block F d)}
    (hr : Recording h n T P Q acc log) (hr' : Recording h' n T' P Q acc log) (hlen : ∀ i < n, (tagged log i).length = L) (hT : L ≤ T) (hT' : L ≤ T') (win : ℕ) :
    ∃ b b', h.res P = some (.buffer b) ∧ h'.res P = some (.buffer b') ∧ b.data.shape = [n, T, d] ∧ b'.data.shape = [n, T', d] ∧
      (trainingRows b.data n T win : Except Err (List (Pos F d))) = trainingRows b'.data n T' win := by
  obtain ⟨b, e, s, -, f⟩ := hr.pos
  obtain ⟨b', e', s', -, f'⟩ := hr'.pos
  refine ⟨b, b', e, e', s, s', ?_⟩
  have key : (finiteRows b.data n T : List (Pos F d)) = finiteRows b'.data n T' := by
    rw [finiteRows_pad hd hinf b.data n T L hT fun i hi j h1 h2 c => ?_, finiteRows_pad hd hinf b'.data n T' L hT' fun i hi j h1 h2 c => ?_]
    · refine finiteRows_congr _ _ _ _ fun i hi j hj c => ?_
      rw [f i j c hi (by omega), f' i j c hi (by omega)]
    · rw [f' i j c hi h2, List.getElem?_eq_none (by rw [hlen i hi]; exact h1)]
    · rw [f i j c hi h2, List.getElem?_eq_none (by rw [hlen i hi]; exact h1)]
  unfold trainingRows
  simp only [key]

/-- What the trainer computes depends only on flow, optimizer and training data. -/
theorem plan_same (env : Env F D d M O) (c c' : BundleCfg F D d M O) (h1 : c.nEpochs = c'.nEpochs) (h2 : c.batchSize = c'.batchSize) (h3 : c.nMaxExamples = c'.nMaxExamples) (win : ℕ) (k : Key)
    (h h' : Heap F D d M O) (hm : h.res "model" = h'.res "model") (ho : h.res "optimizer" = h'.res "optimizer") (n T T' : ℕ) (b b' : Buffer F) (hb : h.res "positions_training" = some (.buffer b))
    (hb' : h'.res "positions_training" = some (.buffer b')) (hs : b.data.shape = [n, T, d]) (hs' : b'.data.shape = [n, T', d])
    (hrows : (trainingRows b.data n T win : Except Err (List (Pos F d))) = trainingRows b'.data n T' win) :
    (modelTrainer c win).plan env k h = (modelTrainer c' win).plan env k h' := by
  have a1 : h.getModel "model" = h'.getModel "model" := by simp only [Heap.getModel, Heap.get, hm]
  have a2 : h.getOptimizer "optimizer" = h'.getOptimizer "optimizer" := by simp only [Heap.getOptimizer, Heap.get, ho]
  have a3 : h.getBuffer "positions_training" = .ok b := Heap.getBuffer_of hb
  have a4 : h'.getBuffer "positions_training" = .ok b' := Heap.getBuffer_of hb'
  simp only [TrainModel.plan, modelTrainer, a1, a2, a3, a4, bind, Except.bind, hs, hs', if_true, hrows, h1, h2, h3]

/-- One call of the trainer and the update of the flow kernel, in two runs with different capacities. -/
theorem mid_same (env : Env F D d M O) (hd : 0 < d) (hinf : BufNum.isFinite (BufNum.negInf : F) = false) (c c' : BundleCfg F D d M O) (h1 : c.nEpochs = c'.nEpochs) (h2 : c.batchSize = c'.batchSize)
    (h3 : c.nMaxExamples = c'.nMaxExamples) (hch : c'.nChains = c.nChains) (strats strats' : String → Option (Strategy F D d M O)) (win : ℕ)
    (ht : strats "model_trainer" = some (.trainModel (modelTrainer c win))) (ht' : strats' "model_trainer" = some (.trainModel (modelTrainer c' win)))
    (hu : strats "update_model" = some (.lambda updateModel)) (hu' : strats' "update_model" = some (.lambda updateModel)) (data : Data D) (w w' v v' : World F D d M O)
    (hk : w.key = w'.key) (hA : ∀ n ∈ notRecorded, w.heap.res n = w'.heap.res n) (hr : Completes env strats data ["model_trainer", "update_model"] w v)
    (hr' : Completes env strats' data ["model_trainer", "update_model"] w' v') (logs logs' : Bool → List (Block F d)) (hlog : logs false = logs' false)
    (inv : BundleInv c false w.heap logs) (inv' : BundleInv c' false w'.heap logs') (L : ℕ) (hlen : ∀ i < c.nChains, (tagged (logs false) i).length = L) (hL : L ≤ capacity c false) (hL' : L ≤ capacity c' false)
    (T T' : ℕ) (losses : List F) (hl : LossLog w.heap "loss_buffer" T losses) (hl' : LossLog w'.heap "loss_buffer" T' losses) (hT : losses.length + c.nEpochs ≤ T) (hT' : losses.length + c.nEpochs ≤ T') :
    v.key = v'.key ∧ (∀ n ∈ notRecorded, v.heap.res n = v'.heap.res n) ∧ ∃ more, more.length = c.nEpochs ∧ LossLog v.heap "loss_buffer" T (losses ++ more) ∧
      LossLog v'.heap "loss_buffer" T' (losses ++ more) := by
  have r1 := inv.recs false
  have r2 := inv'.recs false
  rw [← hlog, hch] at r2
  obtain ⟨b, b', e, e', s, s', hrows⟩ := trainingRows_same hd hinf r1 r2 hlen hL hL' win
  have hplan := plan_same env c c' h1 h2 h3 win w.key w.heap w'.heap (hA _ (by simp [notRecorded])) (hA _ (by simp [notRecorded])) _ _ _ b b' e e' s s' hrows
  rw [completes_cons] at hr hr'
  obtain ⟨s1, k1, xs1, g1, f1, q1, hr⟩ := hr
  obtain ⟨s1', k1', xs1', g1', f1', q1', hr'⟩ := hr'
  rw [ht] at f1; rw [ht'] at f1'
  simp only [Option.some.injEq] at f1 f1'
  subst f1; subst f1'
  rw [completes_cons] at hr hr'
  obtain ⟨s2, k2, xs2, g2, f2, q2, hr⟩ := hr
  obtain ⟨s2', k2', xs2', g2', f2', q2', hr'⟩ := hr'
  rw [hu] at f2; rw [hu'] at f2'
  simp only [Option.some.injEq] at f2 f2'
  subst f2; subst f2'
  rw [completes_nil] at hr hr'
  subst hr; subst hr'
  simp only [Strategy.run, TrainModel.run] at q1 q1'
  rw [← hk, ← hplan] at q1'
  cases hp : (modelTrainer c win).plan env w.key w.heap with
  | error er => rw [hp] at q1; simp at q1
  | ok r =>
    rw [hp] at q1 q1'
    have hnl : r.losses.length = c.nEpochs := C50_losses_per_call env _ _ _ r hp
    obtain ⟨z, z1, z2⟩ := recordLosses_log w.heap "loss_buffer" (by decide) T losses r.losses hl (by omega)
    obtain ⟨z', z1', z2'⟩ := recordLosses_log w'.heap "loss_buffer" (by decide) T' losses r.losses hl' (by omega)
    simp only [modelTrainer, z1, z1', Prod.mk.injEq, Except.ok.injEq] at q1 q1'
    obtain ⟨⟨rfl, rfl⟩, rfl⟩ := q1
    obtain ⟨⟨rfl, rfl⟩, rfl⟩ := q1'
    have hg : w.heap.res "global_sampler" = w'.heap.res "global_sampler" := hA _ (by simp [notRecorded])
    obtain ⟨mf, hf⟩ := inv.flow
    rw [hg] at hf
    simp only [Strategy.run, runLambda, updateModel, Heap.setRes, dictSet, hg, hf] at q2 q2'
    simp at q2 q2'
    obtain ⟨⟨rfl, rfl⟩, rfl⟩ := q2
    obtain ⟨⟨rfl, rfl⟩, rfl⟩ := q2'
    refine ⟨rfl, fun n hn => ?_, r.losses, hnl, ?_, ?_⟩
    · have := hA n hn
      have hne : n ≠ "loss_buffer" := by rintro rfl; simp [notRecorded] at hn
      simp only [dictSet, hne, if_false, this]
    · obtain ⟨y, y1, y2⟩ := z2
      refine ⟨y, ?_, y2⟩
      simp [Heap.setRes, dictSet] at y1 ⊢
      exact y1
    · obtain ⟨y, y1, y2⟩ := z2'
      refine ⟨y, ?_, y2⟩
      simp [Heap.setRes, dictSet] at y1 ⊢
      exact y1

/-- Two runs of training, with different capacities, that have done the same so far. -/
structure InStepT (c c' : BundleCfg F D d M O) (w w' : World F D d M O) (logs logs' : Bool → List (Block F d)) (losses : List F) : Prop where
  key : w.key = w'.key
  xs : w.xs = w'.xs
  len : w.xs.length = c.nChains
  agree : ResAgree notRecorded w.heap w'.heap
  inv : BundleInv c false w.heap logs
  inv' : BundleInv c' false w'.heap logs'
  cur : w.heap.pos "local_stepper" = blocksLen (rowsPerCall c) (logs false)
  log : logs false = logs' false
  loss : LossLog w.heap "loss_buffer" (c.nTrainLoops * c.nEpochs) losses
  loss' : LossLog w'.heap "loss_buffer" (c'.nTrainLoops * c'.nEpochs) losses

/-- The call that precedes the steppers does the same in both runs. -/
theorem pre_sameS (env : Env F D d M O) (p : Option (PTCfg F D d)) (c c' : BundleCfg F D d M O) (hst : (libraryBundle p c').strategies = (libraryBundle p c).strategies) (data : Data D)
    (hS : ∀ n ∈ ["tempered_positions", "temperatures", "tempered_logpdf", "local_sampler", "sampler_state"], n ∈ S)
    (w w' w1 w1' : World F D d M O) (hk : w.key = w'.key) (hx : w.xs = w'.xs) (hA : ResAgree S w.heap w'.heap)
    (h : Completes env (libraryBundle p c).strategies.lookup data (preOf p) w w1) (h' : Completes env (libraryBundle p c').strategies.lookup data (preOf p) w' w1') :
    w1.key = w1'.key ∧ w1.xs = w1'.xs ∧ ResAgree S w1.heap w1'.heap ∧ w1.heap.res "loss_buffer" = w.heap.res "loss_buffer" ∧ w1'.heap.res "loss_buffer" = w'.heap.res "loss_buffer" := by
  rw [hst] at h'
  cases p with
  | none =>
    rw [preOf, completes_nil] at h h'
    subst h; subst h'
    exact ⟨hk, hx, hA, rfl, rfl⟩
  | some p =>
    rw [preOf, completes_cons] at h h'
    obtain ⟨s, k1, xs1, h1, e, r, h⟩ := h
    obtain ⟨s', k1', xs1', h1', e', r', h'⟩ := h'
    rw [completes_nil] at h h'
    subst h; subst h'
    rw [e] at e'
    simp only [Option.some.injEq] at e'
    subst e'
    have es : s = .parallelTempering (ptStrat c p) := by
      simp only [libraryBundle, ptBundle, ptStrategies, Option.some.injEq] at e
      exact e.symm
    subst es
    have := C84_tempering env (ptStrat c p) w.key w.xs data w.heap w'.heap hA (by apply hS; simp [ptStrat]) (by apply hS; simp [ptStrat]) (by apply hS; simp [ptStrat])
      (fun n hn => hS n (by simp [ptStrat] at hn ⊢; tauto))
    have f := (C35_frame env (ptStrat c p) w.key w.xs data w.heap).1 "loss_buffer" (by simp [ptStrat])
    have f' := (C35_frame env (ptStrat c p) w'.key w'.xs data w'.heap).1 "loss_buffer" (by simp [ptStrat])
    simp only [Strategy.run] at r r'
    rw [r] at f; rw [r'] at f'
    rw [hk, hx] at this
    rw [hk, hx] at r
    rw [r, r'] at this
    obtain ⟨a, b⟩ := this
    simp only [Except.ok.injEq, Prod.mk.injEq] at a
    exact ⟨a.1, a.2, b, f, f'⟩

theorem trainer_of (p : Option (PTCfg F D d)) : ∃ win, ∀ c : BundleCfg F D d M O, (libraryBundle p c).strategies.lookup "model_trainer" = some (.trainModel (modelTrainer c win)) := by
  cases p with
  | none => exact ⟨100, fun _ => rfl⟩
  | some p => exact ⟨p.historyWindow, fun _ => rfl⟩

/-- The library's bundle with other numbers of training and production loops. -/
def Spec.withLoops (c : BundleCfg F D d M O) (nTrain nProd : ℕ) : BundleCfg F D d M O := { c with nTrainLoops := nTrain, nProdLoops := nProd }

theorem libraryBundle_withLoops (p : Option (PTCfg F D d)) (c : BundleCfg F D d M O) (n q : ℕ) : (libraryBundle p (withLoops c n q)).strategies = (libraryBundle p c).strategies := by
  cases p <;> rfl

/-- One training loop keeps two runs in step. -/
theorem inStepT_loop (env : Env F D d M O) (hl : env.ops.Lawful) (hd : 0 < d) (hinf : BufNum.isFinite (BufNum.negInf : F) = false) (p : Option (PTCfg F D d)) (c : BundleCfg F D d M O) (hc : GoodCfg c)
    (n' q' : ℕ) (data : Data D) (w w' v v' : World F D d M O) (logs logs' : Bool → List (Block F d)) (losses : List F) (hi : InStepT c (withLoops c n' q') w w' logs logs' losses)
    (hrun : Completes env (libraryBundle p c).strategies.lookup data (preOf p ++ trainingPhase) w v)
    (hrun' : Completes env (libraryBundle p (withLoops c n' q')).strategies.lookup data (preOf p ++ trainingPhase) w' v')
    (hfit : blocksLen (rowsPerCall c) (logs false) + (rowsPerCall c true + rowsPerCall c false) ≤ c.nTrainSteps) (hn : c.nTrainLoops ≤ n') (hfl : losses.length + c.nEpochs ≤ c.nTrainLoops * c.nEpochs) :
    ∃ b1 b2 more, InStepT c (withLoops c n' q') v v' (Function.update logs false (logs false ++ [b1, b2])) (Function.update logs' false (logs' false ++ [b1, b2])) (losses ++ more) ∧
      b1.isLocal = true ∧ b2.isLocal = false ∧ more.length = c.nEpochs := by
  set c' : BundleCfg F D d M O := withLoops c n' q' with hc'
  have hgood : GoodCfg c' := ⟨hc.nLocal, hc.nGlobal, hc.localThin, hc.globalThin, hc.localDvd, hc.globalDvd, hc.nfBatch⟩
  have hst : (libraryBundle p c').strategies = (libraryBundle p c).strategies := libraryBundle_withLoops p c n' q'
  have hcap : c.nTrainSteps ≤ c'.nTrainSteps := by
    simp only [BundleCfg.nTrainSteps, hc', withLoops]
    exact Nat.add_le_add (Nat.mul_le_mul_left _ hn) (Nat.mul_le_mul_left _ hn)
  have hcur' : w'.heap.pos "local_stepper" = blocksLen (rowsPerCall c') (logs' false) := by
    rw [← hi.agree.2, hi.cur, hi.log]; rfl
  have hs := (libraryBundle_isBundle p c).hasCore
  have hs' := (libraryBundle_isBundle p c').hasCore
  obtain ⟨b1, b2, w1, w2, w4, m, hg, hb1, hb2, hx, inv, hlen, ht1, ht2, hp, hpg, invm⟩ := one_loop_full env hl c hc _ hs data false (preOf p) ["model_trainer", "update_model"] (gapOf env c data p)
    (quietPre_library env p c data) (quietMid_train env c _ hs data) w v hrun logs hi.inv hi.len hi.cur hfit
  obtain ⟨b1', b2', w1', w2', w4', m', hg', hb1', hb2', hx', inv', hlen', ht1', ht2', hp', hpg', invm'⟩ := one_loop_full env hl c' hgood _ hs' data false (preOf p) ["model_trainer", "update_model"]
    (gapOf env c' data p) (quietPre_library env p c' data) (quietMid_train env c' _ hs' data) w' v' hrun' logs' hi.inv' (by rw [← hi.xs]; exact hi.len) hcur'
    (by rw [← hi.log]; exact le_trans hfit hcap)
  obtain ⟨x1, x2, x3, x4, x5, x6, x7, x8⟩ := hx
  obtain ⟨x1', x2', x3', x4', x5', x6', x7', x8'⟩ := hx'
  obtain ⟨k1, e1, A1, l1, l1'⟩ := pre_sameS (S := notRecorded) env p c c' hst data (by intro n hn; simp [notRecorded] at hn ⊢; rcases hn with rfl | rfl | rfl | rfl | rfl <;> decide) w w' w1 w1' hi.key hi.xs hi.agree x1 x1'
  rw [← k1, ← e1] at hb1'
  obtain ⟨eb1, e2⟩ := localBlock_unique hb1 (c := c) hb1'
  subst eb1
  obtain ⟨win, htr⟩ := trainer_of (F := F) (D := D) (d := d) (M := M) (O := O) p
  have lb : ¬ IsSampleBuffer "loss_buffer" := not_isSampleBuffer (by decide)
  have hll : LossLog w2.heap "loss_buffer" (c.nTrainLoops * c.nEpochs) losses := by
    obtain ⟨y, y1, y2⟩ := hi.loss
    exact ⟨y, by rw [x3 _ lb, l1, y1], y2⟩
  have hll' : LossLog w2'.heap "loss_buffer" (c'.nTrainLoops * c'.nEpochs) losses := by
    obtain ⟨y, y1, y2⟩ := hi.loss'
    exact ⟨y, by rw [x3' _ lb, l1', y1], y2⟩
  have hbl : blocksLen (rowsPerCall c) (logs false ++ [b1]) = blocksLen (rowsPerCall c) (logs false) + rowsPerCall c true := by
    rw [blocksLen_append]; simp [blocksLen, ht1]
  have hsz := invm.sized false
  rw [Function.update_self] at hsz
  have hcc : capacity c false = c.nTrainSteps := rfl
  have hcc' : capacity c' false = c'.nTrainSteps := rfl
  obtain ⟨k4, A4, more, hm4, ll, ll'⟩ := mid_same env hd hinf c c' rfl rfl rfl rfl _ _ win (htr c) (htr c') hs.um hs'.um data w2 w2' w4 w4' (by rw [x2, x2', k1])
    (fun n hn => by rw [x3 n (notRecorded_sample hn), x3' n (notRecorded_sample hn), A1.1 n hn]) x4 x4' _ _ (by rw [Function.update_self, Function.update_self, hi.log]) invm invm'
    (blocksLen (rowsPerCall c) (logs false ++ [b1])) (fun i hi' => by rw [Function.update_self]; exact tagged_length c.nChains (rowsPerCall c) _ hsz i hi') (by rw [hcc, hbl]; omega) (by rw [hcc', hbl]; omega)
    _ _ losses hll hll' hfl (by
      refine le_trans hfl ?_
      exact Nat.mul_le_mul_right _ hn)
  have hm : m = m' := by
    have := A4 "global_sampler" (by simp [notRecorded])
    rw [x5, x5'] at this
    simp only [Option.some.injEq, Resource.kernel.injEq, KernelRes.nf.injEq] at this
    exact this.1
  subst hm
  rw [← k4, ← e2] at hb2'
  obtain ⟨eb2, e3⟩ := globalBlock_unique hb2 (c := c) hb2'
  subst eb2
  have hpos : ∀ (c : BundleCfg F D d M O) (u u' : World F D d M O) (names : List String), Completes env (libraryBundle p c).strategies.lookup data names u u' →
      ∀ id, id ≠ "local_stepper" → id ≠ "global_stepper" → u'.heap.pos id = u.heap.pos id := by
    intro c u u' names hr id h1 h2
    have := runOrder_keeps (env := env) (strats := (libraryBundle p c).strategies.lookup) (data := data) (I := fun h' => h'.pos id = u.heap.pos id) names
      (fun name hname s k xs h' hs hq' => by rw [strat_pos env c _ (libraryBundle_isBundle p c) name s hs k xs data h' id h1 h2]; exact hq') u.key u.xs u.heap rfl
    rw [completes_sample hr] at this; exact this
  refine ⟨b1, b2, more, ⟨?_, e3, hlen, ⟨?_, ?_⟩, inv, inv', ?_, ?_, ?_, ?_⟩, ht1, ht2, hm4⟩
  · rw [x6, x6', k4]
  · intro n hn
    rw [x7 n (notRecorded_sample hn), x7' n (notRecorded_sample hn), A4 n hn]
  · intro id
    by_cases h1 : id = "local_stepper"
    · rw [h1, hp, hp', hi.log]; rfl
    by_cases h2 : id = "global_stepper"
    · rw [h2, hpg, hpg', hi.log]; rfl
    rw [hpos c _ _ _ hrun id h1 h2, hpos c' _ _ _ hrun' id h1 h2, hi.agree.2]
  · rw [Function.update_self]; exact hp
  · rw [Function.update_self, Function.update_self, hi.log]
  · obtain ⟨y, y1, y2⟩ := ll
    exact ⟨y, by rw [x7 _ lb, y1], y2⟩
  · obtain ⟨y, y1, y2⟩ := ll'
    exact ⟨y, by rw [x7' _ lb, y1], y2⟩

/-- Any number of training loops keeps two runs in step. -/
theorem inStepT_loops (env : Env F D d M O) (hl : env.ops.Lawful) (hd : 0 < d) (hinf : BufNum.isFinite (BufNum.negInf : F) = false) (p : Option (PTCfg F D d)) (c : BundleCfg F D d M O) (hc : GoodCfg c)
    (n' q' : ℕ) (hn : c.nTrainLoops ≤ n') (data : Data D) (w w' : World F D d M O) (log0 : List (Block F d)) (losses0 : List F)
    (hi : InStepT c (withLoops c n' q') w w' (Function.update (fun _ => []) false log0) (Function.update (fun _ => []) false log0) losses0) (l0 : ℕ)
    (hb0 : blocksLen (rowsPerCall c) log0 = l0 * (rowsPerCall c true + rowsPerCall c false)) (hl0 : losses0.length = l0 * c.nEpochs) (l : ℕ) (hlt : l0 + l ≤ c.nTrainLoops) :
    ∀ v v', Completes env (libraryBundle p c).strategies.lookup data (repeatPhase l (preOf p ++ trainingPhase)) w v →
    Completes env (libraryBundle p (withLoops c n' q')).strategies.lookup data (repeatPhase l (preOf p ++ trainingPhase)) w' v' →
    ∃ log losses, blocksLen (rowsPerCall c) (log0 ++ log) = (l0 + l) * (rowsPerCall c true + rowsPerCall c false) ∧ (losses0 ++ losses).length = (l0 + l) * c.nEpochs ∧
      InStepT c (withLoops c n' q') v v' (Function.update (fun _ => []) false (log0 ++ log)) (Function.update (fun _ => []) false (log0 ++ log)) (losses0 ++ losses) := by
  induction l with
  | zero =>
    intro v v' h h'
    simp only [repeatPhase, List.replicate_zero, List.flatten_nil, completes_nil] at h h'
    subst h; subst h'
    exact ⟨[], [], by simpa using hb0, by simpa using hl0, by simpa using hi⟩
  | succ l ih =>
    intro v v' h h'
    rw [repeatPhase_succ, completes_append] at h h'
    obtain ⟨u, h1, h2⟩ := h
    obtain ⟨u', h1', h2'⟩ := h'
    obtain ⟨log, losses, hb, hls, hs⟩ := ih (by omega) u u' h1 h1'
    obtain ⟨b1, b2, more, hs', t1, t2, t3⟩ := inStepT_loop env hl hd hinf p c hc n' q' data u u' v v' _ _ _ hs h2 h2' (by
      rw [Function.update_self, hb]
      have := capacity_eq c false
      simp only [capacity, nLoops] at this
      simp only [Bool.false_eq_true, if_false] at this
      rw [this]
      calc _ = (l0 + (l + 1)) * (rowsPerCall c true + rowsPerCall c false) := by ring
        _ ≤ _ := Nat.mul_le_mul_right _ hlt) hn (by
      rw [hls]
      calc _ = (l0 + (l + 1)) * c.nEpochs := by ring
        _ ≤ _ := Nat.mul_le_mul_right _ hlt)
    rw [Function.update_idem, Function.update_self, List.append_assoc, List.append_assoc] at hs'
    refine ⟨log ++ [b1, b2], losses ++ more, ?_, ?_, hs'⟩
    · rw [← List.append_assoc, blocksLen_append, hb]
      simp [blocksLen, t1, t2]
      ring
    · rw [← List.append_assoc, List.length_append, hls, t3]; ring

/-- What the tempering bundle does before its first training loop. -/
def Spec.initOrder (p : Option (PTCfg F D d)) : List String := match p with
  | none => []
  | some _ => ["initialize_tempered_positions"]

/-- The first `l` training loops of either bundle. -/
def Spec.firstLoops (p : Option (PTCfg F D d)) (l : ℕ) : List String :=
  initOrder p ++ repeatPhase l (match p with | none => trainingPhase | some _ => "parallel_tempering" :: trainingPhase)

theorem firstLoops_eq (p : Option (PTCfg F D d)) (l : ℕ) : firstLoops p l = initOrder p ++ repeatPhase l (preOf p ++ trainingPhase) := by
  cases p <;> rfl

theorem freshT_agree (p : Option (PTCfg F D d)) (c : BundleCfg F D d M O) (n q : ℕ) (pos : String → ℕ) :
    ResAgree notRecorded (⟨(libraryBundle p c).resources, pos⟩ : Heap F D d M O) ⟨(libraryBundle p (withLoops c n q)).resources, pos⟩ := by
  have key : ∀ x ∈ notRecorded, bundleResources c x = bundleResources (withLoops c n q) x := by
    intro x hx
    simp only [notRecorded, Set.mem_setOf_eq, List.mem_cons, List.not_mem_nil, or_false, not_or] at hx
    unfold bundleResources
    split <;> first | rfl | simp_all
  refine ⟨fun x hx => ?_, fun _ => rfl⟩
  cases p with
  | none => exact key x hx
  | some p =>
    simp only [libraryBundle, ptBundle]
    unfold ptResources
    split
    · rfl
    · rfl
    · rfl
    · exact key x hx

/-- The run up to the first training loop. -/
theorem init_world (env : Env F D d M O) (p : Option (PTCfg F D d)) (c : BundleCfg F D d M O) (data : Data D) (key : Key) (xs : List (Pos F d)) (w : World F D d M O)
    (h : Completes env (libraryBundle p c).strategies.lookup data (initOrder p) ⟨key, xs, ⟨(libraryBundle p c).resources, fun _ => 0⟩⟩ w) :
    w.key = key ∧ w.xs = xs ∧ w.heap.pos = (fun _ => 0) ∧ (∀ n, n ≠ "tempered_positions" → w.heap.res n = (libraryBundle p c).resources n) := by
  cases p with
  | none =>
    rw [initOrder, completes_nil] at h
    subst h
    exact ⟨rfl, rfl, rfl, fun _ _ => rfl⟩
  | some p =>
    rw [initOrder, completes_cons] at h
    obtain ⟨s, k1, xs1, h1, e, r, h⟩ := h
    rw [completes_nil] at h
    subst h
    have es : s = .lambda (initTempered p) := by
      simp only [libraryBundle, ptBundle, ptStrategies, Option.some.injEq] at e
      exact e.symm
    subst es
    have hu := Heap.updateBuffer_frame (⟨(libraryBundle (some p) c).resources, fun _ => 0⟩ : Heap F D d M O) "tempered_positions" (arr3 BufNum.negInf xs.length
      (p.nTemps - 1) (xs.map (fun x => List.replicate (p.nTemps - 1) x))) 0
    simp only [Strategy.run, runLambda, initTempered] at r
    split at r
    · simp at r
    · rename_i e
      rw [e] at hu
      simp only [Prod.mk.injEq, Except.ok.injEq] at r
      obtain ⟨⟨rfl, rfl⟩, rfl⟩ := r
      exact ⟨rfl, rfl, hu.2, fun n hn => hu.1 n hn⟩

theorem init_same (env : Env F D d M O) (p : Option (PTCfg F D d)) (c : BundleCfg F D d M O) (n q : ℕ) (data : Data D) (key : Key) (xs : List (Pos F d)) (hx : xs.length = c.nChains) (w w' : World F D d M O)
    (h : Completes env (libraryBundle p c).strategies.lookup data (initOrder p) ⟨key, xs, ⟨(libraryBundle p c).resources, fun _ => 0⟩⟩ w)
    (h' : Completes env (libraryBundle p (withLoops c n q)).strategies.lookup data (initOrder p) ⟨key, xs, ⟨(libraryBundle p (withLoops c n q)).resources, fun _ => 0⟩⟩ w') :
    InStepT c (withLoops c n q) w w' (Function.update (fun _ => []) false []) (Function.update (fun _ => []) false []) [] := by
  have e : Function.update (fun _ => ([] : List (Block F d))) false [] = fun _ => [] := by funext b; cases b <;> rfl
  obtain ⟨a1, a2, a3, a4⟩ := init_world env p c data key xs w h
  obtain ⟨a1', a2', a3', a4'⟩ := init_world env p _ data key xs w' h'
  have hA : ResAgree notRecorded w.heap w'.heap := by
    have h0 := freshT_agree p c n q (fun _ => 0)
    cases p with
    | none =>
      rw [initOrder, completes_nil] at h h'
      subst h; subst h'
      exact h0
    | some p =>
      rw [initOrder, completes_cons] at h h'
      obtain ⟨s, k1, xs1, h1, e1, r, h⟩ := h
      obtain ⟨s', k1', xs1', h1', e1', r', h'⟩ := h'
      rw [completes_nil] at h h'
      subst h; subst h'
      have es : s = .lambda (initTempered p) := by
        simp only [libraryBundle, ptBundle, ptStrategies, Option.some.injEq] at e1
        exact e1.symm
      have es' : s' = .lambda (initTempered p) := by
        simp only [libraryBundle, ptBundle, ptStrategies, Option.some.injEq] at e1'
        exact e1'.symm
      subst es; subst es'
      have := runLambda_agree (initTempered p) key xs data _ _ (h0.updateBuffer (by simp [notRecorded]) _ _)
      simp only [Strategy.run] at r r'
      rw [r, r'] at this
      exact this.2
  have fr : ∀ c : BundleCfg F D d M O, ∀ u : Heap F D d M O, (∀ n, n ≠ "tempered_positions" → u.res n = (libraryBundle p c).resources n) →
      BundleInv c false u (fun _ => []) ∧ LossLog u "loss_buffer" (c.nTrainLoops * c.nEpochs) [] := by
    intro c u hu
    refine ⟨bundleInv_fresh c _ fun n hn => ?_, ?_⟩
    · rw [hu n (by rintro rfl; revert hn; decide)]
      simp only [coreNames, List.mem_cons, List.not_mem_nil, or_false] at hn
      cases p <;> rcases hn with rfl | rfl | rfl | rfl | rfl | rfl | rfl | rfl | rfl | rfl | rfl | rfl <;> rfl
    · refine ⟨Buffer.new "loss_buffer" [c.nTrainLoops * c.nEpochs] 0, ?_, rfl, rfl, rfl, by simp⟩
      rw [hu _ (by decide)]
      cases p <;> rfl
  rw [e]
  exact ⟨by rw [a1, a1'], by rw [a2, a2'], by rw [a2]; exact hx, hA, (fr c _ a4).1, (fr _ _ a4').1, by rw [a3]; rfl, rfl, (fr c _ a4).2, (fr _ _ a4').2⟩

/-- **C87 (state after the common loops).** Two runs that differ only in their numbers of training and production loops are in the same state after any number of training loops both of them do: same
key, same positions, and every resource but the sample and loss buffers — flow, optimizer, proposal, state, temperatures, tempered positions, stepper cursors — is the same. -/
theorem C87_training (env : Env F D d M O) (hl : env.ops.Lawful) (hd : 0 < d) (hinf : BufNum.isFinite (BufNum.negInf : F) = false) (p : Option (PTCfg F D d)) (c : BundleCfg F D d M O) (hc : GoodCfg c)
    (n' q' : ℕ) (hn : c.nTrainLoops ≤ n') (data : Data D) (key : Key) (xs : List (Pos F d)) (hx : xs.length = c.nChains) (l : ℕ) (hlt : l ≤ c.nTrainLoops) (k1 k2 : Key) (ys zs : List (Pos F d))
    (h h' : Heap F D d M O)
    (hrun : runOrder env (libraryBundle p c).strategies.lookup (firstLoops p l) key xs data ⟨(libraryBundle p c).resources, fun _ => 0⟩ = (.ok (k1, ys), h))
    (hrun' : runOrder env (libraryBundle p (withLoops c n' q')).strategies.lookup (firstLoops p l) key xs data ⟨(libraryBundle p (withLoops c n' q')).resources, fun _ => 0⟩ = (.ok (k2, zs), h')) :
    k1 = k2 ∧ ys = zs ∧ ResAgree notRecorded h h' := by
  have r1 := completes_of_runOrder hrun
  have r2 := completes_of_runOrder hrun'
  rw [firstLoops_eq, completes_append] at r1 r2
  obtain ⟨w, a1, a2⟩ := r1
  obtain ⟨w', a1', a2'⟩ := r2
  have hi := init_same env p c n' q' data key xs hx w w' a1 a1'
  obtain ⟨log, losses, -, -, hs⟩ := inStepT_loops env hl hd hinf p c hc n' q' hn data w w' _ _ hi 0 (by simp [blocksLen]) (by simp) l (by omega) _ _ a2 a2'
  exact ⟨hs.key, hs.xs, hs.agree⟩

/-- Two sets of resources hold the same training samples in the first `T` rows of `n` chains and the same first `E` losses. -/
structure Spec.SameTraining (n T E : ℕ) (h h' : Heap F D d M O) : Prop where
  positions : ∃ b b', h.res "positions_training" = some (.buffer b) ∧ h'.res "positions_training" = some (.buffer b') ∧
    ∀ i < n, ∀ j < T, ∀ a : Fin d, b.data.get [i, j, a] = b'.data.get [i, j, a]
  scalars : ∀ name ∈ ["log_prob_training", "local_accs_training", "global_accs_training"], ∃ b b', h.res name = some (.buffer b) ∧ h'.res name = some (.buffer b') ∧
    ∀ i < n, ∀ j < T, b.data.get [i, j] = b'.data.get [i, j]
  losses : ∃ b b', h.res "loss_buffer" = some (.buffer b) ∧ h'.res "loss_buffer" = some (.buffer b') ∧ ∀ e < E, b.data.get [e] = b'.data.get [e]

/-- What a complete run holds in its training buffers, given its state after some training loops. -/
theorem training_kept (env : Env F D d M O) (hl : env.ops.Lawful) (hd : 0 < d) (hinf : BufNum.isFinite (BufNum.negInf : F) = false) (p : Option (PTCfg F D d)) (c : BundleCfg F D d M O) (hc : GoodCfg c)
    (data : Data D) (u v : World F D d M O) (log : List (Block F d)) (losses : List F) (hx : u.xs.length = c.nChains) (inv : BundleInv c false u.heap (Function.update (fun _ => []) false log))
    (hcur : u.heap.pos "local_stepper" = blocksLen (rowsPerCall c) log) (hloss : LossLog u.heap "loss_buffer" (c.nTrainLoops * c.nEpochs) losses) (l0 e : ℕ) (he : c.nTrainLoops = l0 + e)
    (hb : blocksLen (rowsPerCall c) log = l0 * (rowsPerCall c true + rowsPerCall c false)) (hls : losses.length = l0 * c.nEpochs)
    (hrun : Completes env (libraryBundle p c).strategies.lookup data (repeatPhase e (preOf p ++ trainingPhase) ++ (["reset_steppers", "update_state"] ++ repeatPhase c.nProdLoops (preOf p ++ productionPhase))) u v) :
    ∃ rest more, Recording v.heap c.nChains (capacity c false) (posName false) (logpName false) (accName false) (log ++ rest) ∧ LossLog v.heap "loss_buffer" (c.nTrainLoops * c.nEpochs) (losses ++ more) := by
  rw [completes_append] at hrun
  obtain ⟨u1, h1, hrun⟩ := hrun
  rw [completes_append] at hrun
  obtain ⟨u2, h2, h3⟩ := hrun
  have hself : withLoops c c.nTrainLoops c.nProdLoops = c := rfl
  have hi : InStepT c (withLoops c c.nTrainLoops c.nProdLoops) u u (Function.update (fun _ => []) false log) (Function.update (fun _ => []) false log) losses :=
    ⟨rfl, rfl, hx, ⟨fun _ _ => rfl, fun _ => rfl⟩, inv, inv, by rw [Function.update_self]; exact hcur, rfl, hloss, hloss⟩
  obtain ⟨rest, more, -, -, hs⟩ := inStepT_loops env hl hd hinf p c hc c.nTrainLoops c.nProdLoops le_rfl data u u _ _ hi l0 hb hls e (by omega) u1 u1 h1 h1
  have hcore := (libraryBundle_isBundle p c).hasCore
  obtain ⟨-, -, inv2, -, -, hres, st, hst, htr⟩ := switch_step env c _ hcore data u1 u2 h2 _ hs.inv
  obtain ⟨st', hst', hpt⟩ := inv2.state
  rw [hst] at hst'
  simp only [Option.some.injEq, Resource.state.injEq] at hst'
  subst hst'
  have hpm : ∀ n ∈ repeatPhase c.nProdLoops (preOf p ++ productionPhase), n ∈ inProduction := by
    intro n hn
    simp only [repeatPhase, List.mem_flatten, List.mem_replicate] at hn
    obtain ⟨l, ⟨-, rfl⟩, hn⟩ := hn
    cases p <;> simp only [preOf, List.nil_append, List.cons_append, productionPhase, inProduction, List.mem_cons, List.not_mem_nil, or_false] at hn ⊢ <;> tauto
  obtain ⟨-, q2, -⟩ := production_keeps env p c data _ hpm u2 _ h3 ⟨st, hst, hpt, htr⟩
  have r := inv2.recs false
  rw [Function.update_self] at r
  refine ⟨rest, more, r.congr (q2 _ (by simp [notProduction, posName])) (q2 _ (by simp [notProduction, logpName])) fun t => q2 _ (by cases t <;> simp [notProduction, accName]), ?_⟩
  obtain ⟨y, y1, y2⟩ := hs.loss
  exact ⟨y, by rw [q2 _ (by simp [notProduction]), hres _ (by decide), y1], y2⟩

/-- **C87.** A run with more training loops extends the training of the run with fewer: with the same seed, initial positions and other settings (and any numbers of production loops), after both runs
have finished, the training buffers of the short run — positions, log-probabilities, acceptances — are the first rows of those of the long run and its losses are the first losses of the long run. -/
theorem C87_extends (env : Env F D d M O) (hl : env.ops.Lawful) (hd : 0 < d) (hinf : BufNum.isFinite (BufNum.negInf : F) = false) (p : Option (PTCfg F D d)) (c : BundleCfg F D d M O) (hc : GoodCfg c)
    (n' q' : ℕ) (hn : c.nTrainLoops ≤ n') (data : Data D) (nd nc : ℕ) (key : Key) (kw : List (String × V)) (s s1 t t1 : Sampler F D d M O V)
    (hs : Sampler.new nd nc key none none none (some (libraryBundle p c)) kw = .ok s)
    (ht : Sampler.new nd nc key none none none (some (libraryBundle p { c with nTrainLoops := n', nProdLoops := q' })) kw = .ok t) (init : InitPos F d) (hx : init.atleast2d.length = c.nChains)
    (hrun : s.sample env init data = (.ok (), s1)) (hrun' : t.sample env init data = (.ok (), t1)) :
    SameTraining c.nChains c.nTrainSteps (c.nTrainLoops * c.nEpochs) s1.heap t1.heap := by
  change Sampler.new nd nc key none none none (some (libraryBundle p (withLoops c n' q'))) kw = .ok t at ht
  set c' : BundleCfg F D d M O := withLoops c n' q' with hc'
  have hgood : GoodCfg c' := ⟨hc.nLocal, hc.nGlobal, hc.localThin, hc.globalThin, hc.localDvd, hc.globalDvd, hc.nfBatch⟩
  have cur0 : ∀ c : BundleCfg F D d M O, (libraryBundle p c).strategies.cursors = fun _ => 0 := by intro c; cases p <;> rfl
  simp only [Sampler.new, Except.ok.injEq] at hs ht
  subst hs; subst ht
  obtain ⟨k1, xs1, h1, -⟩ := sample_completes env _ s1 _ rfl init data hrun
  obtain ⟨k2, xs2, h2, -⟩ := sample_completes env _ t1 _ rfl init data hrun'
  have hord : ∀ c : BundleCfg F D d M O, (libraryBundle p c).strategyOrder = initOrder p ++ (repeatPhase c.nTrainLoops (preOf p ++ trainingPhase) ++
      (["reset_steppers", "update_state"] ++ repeatPhase c.nProdLoops (preOf p ++ productionPhase))) := by
    intro c
    rw [strategyOrder_split]
    cases p <;> simp [trainingOrder, initOrder, preOf]
  simp only [hord, cur0] at h1 h2
  rw [completes_append] at h1 h2
  obtain ⟨w, hI, h1⟩ := h1
  obtain ⟨w', hI', h2⟩ := h2
  have hi := init_same env p c n' q' data key _ hx w w' hI hI'
  obtain ⟨e, he⟩ : ∃ e, n' = c.nTrainLoops + e := ⟨n' - c.nTrainLoops, by omega⟩
  have hsplit : repeatPhase c'.nTrainLoops (preOf p ++ trainingPhase) = repeatPhase c.nTrainLoops (preOf p ++ trainingPhase) ++ repeatPhase e (preOf p ++ trainingPhase) := by
    simp only [repeatPhase, hc', withLoops, he, List.replicate_add, List.flatten_append]
  rw [hsplit, List.append_assoc, completes_append] at h2
  have h1' := h1
  rw [completes_append] at h1
  obtain ⟨u, hU, hV⟩ := h1
  obtain ⟨u', hU', hV'⟩ := h2
  obtain ⟨log, losses, hb, hls, hst⟩ := inStepT_loops env hl hd hinf p c hc n' q' hn data w w' _ _ hi 0 (by simp [blocksLen]) (by simp) c.nTrainLoops (by omega) u u' hU hU'
  simp only [List.nil_append, Nat.zero_add] at hb hls hst
  have hcur : u.heap.pos "local_stepper" = blocksLen (rowsPerCall c) log := by rw [hst.cur, Function.update_self]
  obtain ⟨rest, more, r1, l1⟩ := training_kept env hl hd hinf p c hc data u _ log losses hst.len hst.inv hcur hst.loss c.nTrainLoops 0 (by omega) hb hls (by simpa [repeatPhase] using hV)
  obtain ⟨rest', more', r2, l2⟩ := training_kept env hl hd hinf p c' hgood data u' _ log losses (by rw [← hst.xs]; exact hst.len) hst.inv' (by rw [← hst.agree.2]; exact hcur) hst.loss' c.nTrainLoops e
    (by simp [hc', withLoops, he]) hb hls hV'
  have hcap : c.nTrainSteps ≤ capacity c' false := by
    simp only [capacity, BundleCfg.nTrainSteps, hc', withLoops]
    exact Nat.add_le_add (Nat.mul_le_mul_left _ hn) (Nat.mul_le_mul_left _ hn)
  have hlenlog : ∀ i < c.nChains, (tagged log i).length = c.nTrainSteps := by
    intro i hi'
    have hsz := hst.inv.sized false
    rw [Function.update_self] at hsz
    rw [tagged_length c.nChains (rowsPerCall c) log hsz i hi', hb]
    exact (capacity_eq c false).symm
  have htag : ∀ rest, ∀ i < c.nChains, ∀ j < c.nTrainSteps, (tagged (log ++ rest) i)[j]? = (tagged log i)[j]? := by
    intro rest i hi' j hj
    rw [tagged_append, List.getElem?_append_left (by rw [hlenlog i hi']; exact hj)]
  have hcc : capacity c false = c.nTrainSteps := rfl
  refine ⟨?_, ?_, ?_⟩
  · obtain ⟨b, e1, -, -, f1⟩ := r1.pos
    obtain ⟨b', e2, -, -, f2⟩ := r2.pos
    refine ⟨b, b', e1, e2, fun i hi' j hj a => ?_⟩
    rw [f1 i j a hi' hj, f2 i j a hi' (lt_of_lt_of_le hj hcap), htag rest i hi' j hj, htag rest' i hi' j hj]
  · intro name hname
    have acc : ∀ tag, ∃ b b', s1.heap.res (accName false tag) = some (.buffer b) ∧ t1.heap.res (accName false tag) = some (.buffer b') ∧
        ∀ i < c.nChains, ∀ j < c.nTrainSteps, b.data.get [i, j] = b'.data.get [i, j] := by
      intro tag
      obtain ⟨b, e1, -, -, f1⟩ := r1.acc tag
      obtain ⟨b', e2, -, -, f2⟩ := r2.acc tag
      refine ⟨b, b', e1, e2, fun i hi' j hj => ?_⟩
      rw [f1 i j hi' hj, f2 i j hi' (lt_of_lt_of_le hj hcap), htag rest i hi' j hj, htag rest' i hi' j hj]
    simp only [List.mem_cons, List.not_mem_nil, or_false] at hname
    rcases hname with rfl | rfl | rfl
    · obtain ⟨b, e1, -, -, f1⟩ := r1.logp
      obtain ⟨b', e2, -, -, f2⟩ := r2.logp
      refine ⟨b, b', e1, e2, fun i hi' j hj => ?_⟩
      rw [f1 i j hi' hj, f2 i j hi' (lt_of_lt_of_le hj hcap), htag rest i hi' j hj, htag rest' i hi' j hj]
    · exact acc true
    · exact acc false
  · obtain ⟨b, e1, -, -, -, f1⟩ := l1
    obtain ⟨b', e2, -, -, -, f2⟩ := l2
    refine ⟨b, b', e1, e2, fun j hj => ?_⟩
    have hj' : j < losses.length := by rw [hls]; exact hj
    rw [f1 j losses[j] (by rw [List.getElem?_append_left hj', List.getElem?_eq_getElem hj']), f2 j losses[j] (by rw [List.getElem?_append_left hj', List.getElem?_eq_getElem hj'])]

end FlowMC
