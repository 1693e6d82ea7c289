import Verif.Props.Bundles
import Verif.Props.Special
import Verif.Props.Training
/-
C66: a run of the bundle with valid settings never raises.
-/
set_option linter.unusedSectionVars false
namespace FlowMC
open Spec

variable {F D : Type} {d : Nat} {M O V : Type}
variable [Zero F] [One F] [Add F] [Mul F] [Div F] [Sub F] [Neg F] [NatCast F] [Transc F] [FCmp F] [BufNum F]

theorem local_total (env : Env F D d M O) (c : BundleCfg F D d M O) (hc : GoodCfg c) (prod : Bool) (k : Key) (xs : List (Pos F d)) (data : Data D)
    (h : Heap F D d M O) (logs : Bool → List (Block F d)) (inv : BundleInv c prod h logs) (hx : xs.length = c.nChains)
    (hcur : h.pos "local_stepper" = blocksLen (rowsPerCall c) (logs prod))
    (hfit : blocksLen (rowsPerCall c) (logs prod) + rowsPerCall c true ≤ capacity c prod) :
    ∃ ys h', (localStepper c).run env k xs data h = (.ok (.child k 0, ys), h') := by
  obtain ⟨bP, bL, bA, hrec⟩ := inv.recorders prod true
  obtain ⟨st, hst, hp1, hp2, hp3, hp4⟩ := inv.state
  obtain ⟨vs, hd⟩ := inv.density
  have hlen : ceilDiv' c.nLocal c.localThin = rowsPerCall c true := ceilDiv'_dvd _ _ hc.localThin hc.localDvd
  rw [← hx] at hrec
  obtain ⟨ys0, h0, r1, -⟩ := serial_call env (localStepper c) k xs data h (capacity c prod) (posName prod) (logpName prod) (accName prod true)
    bP bL bA ⟨st, _, _, _, _, hst, rfl, hp1, hp2, hp3⟩ hrec (by simp only [localStepper, hcur, hlen]; exact hfit)
    (.mala c.stepSize) (fun k x lp t data => malaKernel env.rng c.stepSize k x lp t data) c.logpdf
    ⟨rfl, inv.kernel, rfl, ⟨_, hd, rfl⟩⟩ hc.localThin hc.nLocal
  exact ⟨ys0, h0, r1⟩

theorem global_total (env : Env F D d M O) (hl : env.ops.Lawful) (c : BundleCfg F D d M O) (hc : GoodCfg c) (prod : Bool) (k : Key)
    (xs : List (Pos F d)) (data : Data D)
    (h : Heap F D d M O) (logs : Bool → List (Block F d)) (inv : BundleInv c prod h logs) (hx : xs.length = c.nChains)
    (hcur : h.pos "global_stepper" = blocksLen (rowsPerCall c) (logs prod))
    (hfit : blocksLen (rowsPerCall c) (logs prod) + rowsPerCall c false ≤ capacity c prod) :
    ∃ ys h', (globalStepper c).run env k xs data h = (.ok (.child k 0, ys), h') := by
  obtain ⟨bP, bL, bA, hrec⟩ := inv.recorders prod false
  obtain ⟨st, hst, hp1, hp2, hp3, hp4⟩ := inv.state
  obtain ⟨vs, hd⟩ := inv.density
  obtain ⟨m, hm⟩ := inv.flow
  have hlen : ceilDiv' c.nGlobal c.globalThin = rowsPerCall c false := ceilDiv'_dvd _ _ hc.globalThin hc.globalDvd
  rw [← hx] at hrec
  obtain ⟨rows, ys0, h0, -, -, r1, -⟩ := group_call env hl (globalStepper c) k xs data h (capacity c prod) (posName prod) (logpName prod)
    (accName prod false) bP bL bA ⟨st, _, _, _, _, hst, rfl, hp1, hp2, hp4⟩ hrec (by simp only [globalStepper, hcur, hlen]; exact hfit)
    m c.nfBatch c.logpdf ⟨rfl, hm, ⟨_, hd, rfl⟩⟩ hc.nfBatch hc.globalThin hc.nGlobal
  exact ⟨ys0, h0, r1⟩

/-- A loop of either phase completes if what happens between the two steppers does. -/
theorem loop_total (env : Env F D d M O) (hl : env.ops.Lawful) (c : BundleCfg F D d M O) (hc : GoodCfg c) (strats : String → Option (Strategy F D d M O))
    (hs : HasCore c strats) (data : Data D) (prod : Bool) (mid : List String) (hmid : QuietMid env c strats data mid) (w : World F D d M O)
    (logs : Bool → List (Block F d)) (inv : BundleInv c prod w.heap logs) (hx : w.xs.length = c.nChains)
    (hcur : w.heap.pos "local_stepper" = blocksLen (rowsPerCall c) (logs prod))
    (hfit : blocksLen (rowsPerCall c) (logs prod) + (rowsPerCall c true + rowsPerCall c false) ≤ capacity c prod)
    (R : World F D d M O → Prop) (hmidT : ∀ b1 w2, LocalBlock env c data w.key w.xs b1 w2.xs → w2.xs.length = c.nChains →
      BundleInv c prod w2.heap (Function.update logs prod (logs prod ++ [b1])) → (∀ n, ¬ IsSampleBuffer n → w2.heap.res n = w.heap.res n) →
      ∃ w4, Completes env strats data mid w2 w4 ∧ R w4) :
    ∃ w4 w', Completes env strats data ("local_stepper" :: "update_global_step" :: (mid ++ ["global_stepper", "update_local_step"])) w w' ∧ R w4 ∧
      ∀ n, ¬ IsSampleBuffer n → w'.heap.res n = w4.heap.res n := by
  obtain ⟨ys, h2, r⟩ := local_total env c hc prod w.key w.xs data w.heap logs inv hx hcur (by omega)
  obtain ⟨-, b1, hb1, inv2, ht1, hx2, hc2, hco2, hfr2⟩ := local_step env c hc prod _ _ data _ logs inv hx hcur (by omega) _ _ _ r
  obtain ⟨w4, hw4, hR⟩ := hmidT b1 ⟨.child w.key 0, ys, h2.setPos "global_stepper" (h2.pos "local_stepper")⟩ hb1 hx2
    (inv2.congr (fun _ _ _ => rfl) inv2.flow)
    (fun n hn => hfr2 n (fun e => hn ⟨prod, true, .inl e⟩) (fun e => hn ⟨prod, true, .inr (.inl e)⟩) (fun e => hn ⟨prod, true, .inr (.inr e)⟩))
  obtain ⟨hx4, hpos4, hres4, hflow4⟩ := hmid _ _ hw4
  simp only at hx4 hpos4 hres4 hflow4
  have hbl : blocksLen (rowsPerCall c) (logs prod ++ [b1]) = blocksLen (rowsPerCall c) (logs prod) + rowsPerCall c true := by
    rw [blocksLen_append]; simp [blocksLen, ht1]
  have inv4 : BundleInv c prod w4.heap (Function.update logs prod (logs prod ++ [b1])) :=
    inv2.congr (fun n hn hne => by rw [hres4 n hn hne]; rfl) (hflow4 inv2.flow)
  have hcur4 : w4.heap.pos "global_stepper" = blocksLen (rowsPerCall c) (Function.update logs prod (logs prod ++ [b1]) prod) := by
    rw [hpos4, Function.update_self, hbl]
    simp only [Heap.setPos, if_true, hc2, hcur]
  obtain ⟨zs, h5, r5⟩ := global_total env hl c hc prod w4.key w4.xs data w4.heap _ inv4 (by rw [hx4]; exact hx2) hcur4 (by rw [Function.update_self, hbl]; omega)
  obtain ⟨-, b2, m, -, -, -, -, -, -, -, hfr5⟩ := global_step env hl c hc prod _ _ data _ _ inv4 (by rw [hx4]; exact hx2) hcur4
    (by rw [Function.update_self, hbl]; omega) _ _ _ r5
  refine ⟨w4, ⟨.child w4.key 0, zs, h5.setPos "local_stepper" (h5.pos "global_stepper")⟩, ?_, hR,
    fun n hn => hfr5 n (fun e => hn ⟨prod, true, .inl e⟩) (fun e => hn ⟨prod, true, .inr (.inl e)⟩) (fun e => hn ⟨prod, false, .inr (.inr e)⟩)⟩
  refine .next hs.localS (by simp only [Strategy.run]; exact r) (.next hs.ugs rfl ?_)
  rw [completes_append]
  exact ⟨w4, hw4, .next hs.globalS (by simp only [Strategy.run]; exact r5) (.next hs.uls rfl (.done _))⟩

/-- Any number of production loops completes. -/
theorem production_total (env : Env F D d M O) (hl : env.ops.Lawful) (c : BundleCfg F D d M O) (hc : GoodCfg c) (strats : String → Option (Strategy F D d M O))
    (hs : HasCore c strats) (data : Data D) (w : World F D d M O)
    (logs : Bool → List (Block F d)) (hlogs : logs true = []) (inv : BundleInv c true w.heap logs) (hx : w.xs.length = c.nChains)
    (hcur : w.heap.pos "local_stepper" = 0) (n : Nat) (hn : n ≤ c.nProdLoops) : ∃ w', Completes env strats data (repeatPhase n productionPhase) w w' := by
  induction n with
  | zero => exact ⟨w, .done _⟩
  | succ n ih =>
    obtain ⟨w1, h1⟩ := ih (by omega)
    obtain ⟨log, hlo, hll, hbl, inv1, hx1, hp1, -⟩ := many_loops env hl c hc strats hs data true [] [] Eq (quietPre_nil env c _ data) (quietMid_nil env c _ data) w logs hlogs
      inv hx hcur n (show n ≤ c.nProdLoops by omega) w1 h1
    have hfit : blocksLen (rowsPerCall c) (Function.update logs true log true) + (rowsPerCall c true + rowsPerCall c false) ≤ capacity c true := by
      rw [Function.update_self, hbl, capacity_eq]
      calc _ = (n + 1) * (rowsPerCall c true + rowsPerCall c false) := by ring
        _ ≤ _ := Nat.mul_le_mul_right _ hn
    obtain ⟨-, w', h2, -⟩ := loop_total env hl c hc strats hs data true [] (quietMid_nil env c _ data) w1 _ inv1 hx1 (by rw [Function.update_self]; exact hp1) hfit
      (fun _ => True) (fun _ w2 _ _ _ _ => ⟨w2, .done _, trivial⟩)
    exact ⟨w', by rw [repeatPhase_succ, completes_append]; exact ⟨w1, h1, h2⟩⟩

/-! ### training -/

/-- The samplers of the bundle never leave the set `G` of positions, and a position in `G` has finite coordinates. -/
structure StaysIn (env : Env F D d M O) (c : BundleCfg F D d M O) (data : Data D) (G : Pos F d → Prop) : Prop where
  mala : ∀ k x, G x → ∀ o ∈ serialSample (fun k x lp t data => malaKernel env.rng c.stepSize k x lp t data) c.logpdf data c.nLocal k x, G o.pos
  flow : ∀ m k x r, G x → groupSample env m c.nfBatch c.logpdf data c.nGlobal k x = .ok r → ∀ o ∈ r, G o.pos
  finite : ∀ x, G x → ∀ i, BufNum.isFinite (x i) = true

/-- All rows of a block are in `G`. -/
def BlockIn (G : Pos F d → Prop) (b : Block F d) : Prop := ∀ r ∈ b.rows, ∀ o ∈ r, G o.pos

theorem everyNth_mem {α : Type} (t : Nat) (ht : 0 < t) (l : List α) (a : α) (h : a ∈ everyNth t l) : a ∈ l := by
  obtain ⟨j, hj⟩ := List.mem_iff_getElem?.1 h
  rw [everyNth_getElem? t ht] at hj
  exact List.mem_of_getElem? hj

theorem lastRows_in {G : Pos F d → Prop} {b : Block F d} {ys : List (Pos F d)} (hl : LastRows b ys) (h : BlockIn G b) : ∀ y ∈ ys, G y := by
  intro y hy
  obtain ⟨i, hi⟩ := List.mem_iff_getElem?.1 hy
  rw [hl.2 i, Option.map_eq_some_iff] at hi
  obtain ⟨o, ho, rfl⟩ := hi
  rw [Option.bind_eq_some_iff] at ho
  obtain ⟨r, hr, ho⟩ := ho
  exact h r (List.mem_of_getElem? hr) o (List.mem_of_getLast? ho)

theorem localBlock_in {env : Env F D d M O} {c : BundleCfg F D d M O} {data : Data D} {G : Pos F d → Prop} (hG : StaysIn env c data G) (ht : 0 < c.localThin)
    {k : Key} {xs ys : List (Pos F d)} {b : Block F d} (hb : LocalBlock env c data k xs b ys) (hx : ∀ x ∈ xs, G x) : BlockIn G b := by
  intro r hr o ho
  obtain ⟨i, hi⟩ := List.mem_iff_getElem?.1 hr
  have hlt : i < xs.length := by rw [← hb.2.2.1]; exact (List.getElem?_eq_some_iff.1 hi).1
  have h1 := hb.2.2.2 i xs[i] (List.getElem?_eq_getElem hlt)
  rw [hi, Option.some.injEq] at h1
  subst h1
  exact hG.mala _ _ (hx _ (List.getElem_mem hlt)) o (everyNth_mem _ ht _ _ ho)

theorem globalBlock_in {env : Env F D d M O} {c : BundleCfg F D d M O} {data : Data D} {G : Pos F d → Prop} (hG : StaysIn env c data G) (ht : 0 < c.globalThin)
    {k : Key} {m : M} {xs ys : List (Pos F d)} {b : Block F d} (hb : GlobalBlock env c data k m xs b ys) (hx : ∀ x ∈ xs, G x) : BlockIn G b := by
  intro r hr o ho
  obtain ⟨i, hi⟩ := List.mem_iff_getElem?.1 hr
  have hlt : i < xs.length := by rw [← hb.2.2.1]; exact (List.getElem?_eq_some_iff.1 hi).1
  obtain ⟨r', h0, h1⟩ := hb.2.2.2 i xs[i] (List.getElem?_eq_getElem hlt)
  rw [hi, Option.some.injEq] at h1
  subst h1
  exact hG.flow _ _ _ _ (hx _ (List.getElem_mem hlt)) h0 o (everyNth_mem _ ht _ _ ho)

theorem loops_in {env : Env F D d M O} {c : BundleCfg F D d M O} {data : Data D} {G : Pos F d → Prop} (hG : StaysIn env c data G) (hc : GoodCfg c)
    {gap : List (Pos F d) → List (Pos F d) → Prop} (hgap : ∀ xs ys, gap xs ys → (∀ x ∈ xs, G x) → ∀ y ∈ ys, G y)
    {xs ys : List (Pos F d)} {log : List (Block F d)} (hl : Loops env c data gap xs log ys) (hx : ∀ x ∈ xs, G x) :
    (∀ b ∈ log, BlockIn G b) ∧ ∀ y ∈ ys, G y := by
  induction hl with
  | nil => exact ⟨by simp, hx⟩
  | snoc rest hg h1 h2 ih =>
    obtain ⟨ih1, ih2⟩ := ih
    have g1 := localBlock_in hG hc.localThin h1 (hgap _ _ hg ih2)
    have g2 := globalBlock_in hG hc.globalThin h2 (lastRows_in h1.2.1 g1)
    refine ⟨?_, lastRows_in h2.2.1 g2⟩
    intro b hb
    simp only [List.mem_append, List.mem_cons, List.not_mem_nil, or_false] at hb
    rcases hb with hb | rfl | rfl
    · exact ih1 b hb
    · exact g1
    · exact g2

theorem tagged_in {G : Pos F d → Prop} {log : List (Block F d)} (h : ∀ b ∈ log, BlockIn G b) (i : Nat) : ∀ o ∈ tagged log i, G o.2.pos := by
  intro o ho
  simp only [tagged, List.mem_flatMap, List.mem_map] at ho
  obtain ⟨b, hb, o', ho', rfl⟩ := ho
  cases hr : b.rows[i]? with
  | none => rw [hr] at ho'; simp at ho'
  | some r => rw [hr] at ho'; exact h b hb r (List.mem_of_getElem? hr) o' ho'

/-- The recorded rows of every chain are selected for training, equally many of every chain. -/
theorem finiteRows_uniform {G : Pos F d → Prop} (hfin : ∀ x, G x → ∀ i, BufNum.isFinite (x i) = true) {n T : Nat} {len : Bool → Nat} {log : List (Block F d)}
    (hw : WellSized n len log) (h : ∀ b ∈ log, BlockIn G b) (a : NDArr F)
    (ha : ∀ i j (c : Fin d), i < n → j < T → a.get [i, j, c] = match (tagged log i)[j]? with
      | some o => o.2.pos c
      | none => BufNum.negInf) :
    ∃ q, (∀ i, i < n → (finiteRowsOf a T i : List (Pos F d)).length = q) ∧ min (blocksLen len log) T ≤ q := by
  classical
  let p0 : Bool := (List.finRange d).all (fun _ => BufNum.isFinite (BufNum.negInf : F))
  refine ⟨((List.range T).filter (fun j => decide (j < blocksLen len log) || p0)).length, ?_, ?_⟩
  · intro i hi
    unfold finiteRowsOf
    rw [List.filter_map, List.length_map]
    congr 1
    apply List.filter_congr
    intro j hj
    rw [List.mem_range] at hj
    simp only [Function.comp]
    have hrow : (fun k : Fin d => BufNum.isFinite (a.get [i, j, k])) = fun k : Fin d => BufNum.isFinite (match (tagged log i)[j]? with
      | some o => o.2.pos k
      | none => (BufNum.negInf : F)) := by
      funext k; rw [ha i j k hi hj]
    rw [hrow]
    have hlen := tagged_length n len log hw i hi
    by_cases hlt : j < blocksLen len log
    · have hs : (tagged log i)[j]? = some (tagged log i)[j] := List.getElem?_eq_getElem (by omega)
      rw [hs]
      simp only [hlt, decide_true, Bool.true_or, List.all_eq_true]
      intro k _
      exact hfin _ (tagged_in h i _ (List.getElem_mem _)) k
    · have hs : (tagged log i)[j]? = none := List.getElem?_eq_none (by omega)
      rw [hs]
      simp [hlt, p0]
  · have h1 : ((List.range (min (blocksLen len log) T))).Sublist ((List.range T).filter (fun j => decide (j < blocksLen len log) || p0)) := by
      have : List.range (min (blocksLen len log) T) = (List.range (min (blocksLen len log) T)).filter (fun j => decide (j < blocksLen len log) || p0) := by
        rw [List.filter_eq_self.2]
        intro j hj
        rw [List.mem_range] at hj
        simp only [Bool.or_eq_true, decide_eq_true_eq]
        left; omega
      rw [this]
      exact List.Sublist.filter _ (List.range_sublist.2 (by omega))
    have := h1.length_le
    simpa using this

theorem trainingRows_total (a : NDArr F) (n T w q : Nat) (hn : 0 < n) (hq : 0 < q)
    (hu : ∀ i, i < n → (finiteRowsOf a T i : List (Pos F d)).length = q) :
    ∃ rows : List (Pos F d), trainingRows a n T w = .ok rows ∧ rows.length ≠ 0 := by
  have hne : ∀ (f : List (Pos F d) → List (Pos F d)), (∀ l, l ≠ [] → f l ≠ []) → ((List.range n).flatMap (fun i => f (finiteRowsOf a T i))).length ≠ 0 := by
    intro f hf h0
    rw [List.length_eq_zero_iff, List.flatMap_eq_nil_iff] at h0
    have := h0 0 (by simpa using hn)
    refine hf _ ?_ this
    intro e
    have := hu 0 hn
    rw [e] at this
    simp at this; omega
  rcases Nat.eq_zero_or_pos w with rfl | hw
  · exact ⟨_, C51_window_zero a n T q hn hu, hne id (fun _ h => h)⟩
  · refine ⟨_, trainingRows_uniform a n T w q hn hw hu, hne (lastN w) ?_⟩
    intro l hl e
    have : (lastN w l).length = 0 := by rw [e]; rfl
    simp only [lastN, List.length_drop] at this
    have : 0 < l.length := List.length_pos_iff.2 hl
    omega

/-- The resources the trainer needs, with `used` losses recorded so far. -/
def TrainReady (c : BundleCfg F D d M O) (h : Heap F D d M O) (used : Nat) : Prop :=
  (∃ m, h.res "model" = some (.model m)) ∧ (∃ o, h.res "optimizer" = some (.optimizer o)) ∧
    ∃ log, LossLog h "loss_buffer" (c.nTrainLoops * c.nEpochs) log ∧ log.length = used

theorem train_ok (rng : Rng F) (ops : FlowOps F d M O) (init : F) (k : Key) (m : M) (o : O) (data : List (Pos F d)) (epochs batch : Nat) (hb : 0 < batch) :
    ∃ r, train rng ops init k m o data epochs batch = .ok r := by
  have : ¬ (batch = 0 ∧ 0 < epochs) := by omega
  exact ⟨_, by simp only [train, if_neg this]; rfl⟩

/-- One call of the trainer followed by the update of the flow kernel. -/
theorem trainer_total (env : Env F D d M O) (c : BundleCfg F D d M O) (strats : String → Option (Strategy F D d M O))
    (hs : HasCore c strats) (data : Data D) (hn : 0 < c.nChains) (hb : 0 < c.batchSize) (w : World F D d M O) (used : Nat) (hready : TrainReady c w.heap used)
    (hfit : used + c.nEpochs ≤ c.nTrainLoops * c.nEpochs) (b : Buffer F) (T q : Nat) (hbuf : w.heap.res "positions_training" = some (.buffer b))
    (hshape : b.data.shape = [c.nChains, T, d]) (hu : ∀ i, i < c.nChains → (finiteRowsOf b.data T i : List (Pos F d)).length = q) (hq : 0 < q)
    (hflow : ∃ m, w.heap.res "global_sampler" = some (.kernel (.nf m c.nfBatch))) :
    ∃ w', Completes env strats data ["model_trainer", "update_model"] w w' ∧ TrainReady c w'.heap (used + c.nEpochs) := by
  obtain ⟨⟨m, hm⟩, ⟨o, ho⟩, log, hlog, hlen⟩ := hready
  obtain ⟨win, htr⟩ := hs.trainer
  obtain ⟨rows, hrows, hne⟩ := trainingRows_total b.data c.nChains T win q hn hq hu
  obtain ⟨r, hr⟩ := train_ok env.rng env.ops env.big (split (split w.key).1).2 m o
    ((env.rng.choice (split w.key).2 rows.length c.nMaxExamples).filterMap (rows[·]?)) c.nEpochs c.batchSize hb
  have hplan : (modelTrainer c win).plan env w.key w.heap = .ok r := by
    have h1 : w.heap.getModel (modelTrainer c win).modelName = .ok m := by simp [Heap.getModel, Heap.get, modelTrainer, hm]
    have h2 : w.heap.getOptimizer (modelTrainer c win).optimizerName = .ok o := by simp [Heap.getOptimizer, Heap.get, modelTrainer, ho]
    have h3 : w.heap.getBuffer (modelTrainer c win).dataName = .ok b := Heap.getBuffer_of hbuf
    simp only [TrainModel.plan, h1, h2, h3, bind, Except.bind, hshape, if_true]
    rw [show (modelTrainer c win).historyWindow = win from rfl, hrows]
    simp only [if_neg hne]
    exact hr
  have hll : r.losses.length = c.nEpochs := C50_losses_per_call env (modelTrainer c win) w.key w.heap r hplan
  obtain ⟨lb, hrec, hlog'⟩ := recordLosses_log w.heap "loss_buffer" (by decide) _ log r.losses hlog (by rw [hlen, hll]; exact hfit)
  obtain ⟨mf, hmf⟩ := hflow
  set h1 := ((w.heap.setRes "loss_buffer" (.buffer lb)).setRes "model" (.model r.model)).setRes "optimizer" (.optimizer r.state) with hh1
  have hrun : (modelTrainer c win).run env w.key w.xs w.heap = (.ok (r.rng, w.xs), h1) := by
    simp only [TrainModel.run, hplan]
    rw [show (modelTrainer c win).lossBufferName = "loss_buffer" from rfl, hrec]
    rfl
  have hm1 : h1.res "model" = some (.model r.model) := by simp [hh1, Heap.setRes, dictSet]
  have hg1 : h1.res "global_sampler" = some (.kernel (.nf mf c.nfBatch)) := by simp [hh1, Heap.setRes, dictSet, hmf]
  refine ⟨⟨r.rng, w.xs, h1.setRes "global_sampler" (.kernel (.nf r.model c.nfBatch))⟩, ?_, ?_⟩
  · refine .next htr (by simp only [Strategy.run]; exact hrun) (.next hs.um ?_ (.done _))
    simp only [Strategy.run, runLambda, updateModel, hm1, hg1]
  · refine ⟨⟨r.model, by simp [Heap.setRes, dictSet, hm1]⟩, ⟨r.state, by simp [hh1, Heap.setRes, dictSet]⟩, log ++ r.losses, ?_, by simp [hlen, hll]⟩
    obtain ⟨b', hb', hrest⟩ := hlog'
    exact ⟨b', by simpa [hh1, Heap.setRes, dictSet] using hb', hrest⟩


/-- Running the same strategies from the same world gives the same result. -/
theorem completes_det {env : Env F D d M O} {strats : String → Option (Strategy F D d M O)} {data : Data D} {names : List String} :
    ∀ {w w1 w2 : World F D d M O}, Completes env strats data names w w1 → Completes env strats data names w w2 → w1 = w2 := by
  induction names with
  | nil => intro w w1 w2 h1 h2; rw [completes_nil] at h1 h2; rw [h1, h2]
  | cons n ns ih =>
    intro w w1 w2 h1 h2
    rw [completes_cons] at h1 h2
    obtain ⟨s, k, xs, h, e, r, h1⟩ := h1
    obtain ⟨s', k', xs', h', e', r', h2⟩ := h2
    rw [e, Option.some.injEq] at e'
    subst e'
    rw [r, Prod.mk.injEq, Except.ok.injEq, Prod.mk.injEq] at r'
    obtain ⟨⟨rfl, rfl⟩, rfl⟩ := r'
    exact ih h1 h2

theorem rowsPerCall_pos' {c : BundleCfg F D d M O} (hc : GoodCfg c) (tag : Bool) : 0 < rowsPerCall c tag := by
  cases tag
  · exact Nat.div_pos (Nat.le_of_dvd hc.nGlobal hc.globalDvd) hc.globalThin
  · exact Nat.div_pos (Nat.le_of_dvd hc.nLocal hc.localDvd) hc.localThin

/-- Any number of training loops completes. -/
theorem training_total (env : Env F D d M O) (hl : env.ops.Lawful) (c : BundleCfg F D d M O) (hc : GoodCfg c) (strats : String → Option (Strategy F D d M O))
    (hs : HasCore c strats) (data : Data D) (hn : 0 < c.nChains) (hb : 0 < c.batchSize) (G : Pos F d → Prop) (hG : StaysIn env c data G) (w : World F D d M O)
    (inv : BundleInv c false w.heap (fun _ => [])) (hx : w.xs.length = c.nChains) (hxG : ∀ x ∈ w.xs, G x)
    (hcur : w.heap.pos "local_stepper" = 0) (hready : TrainReady c w.heap 0) (n : Nat) (hnl : n ≤ c.nTrainLoops) :
    ∃ w', Completes env strats data (repeatPhase n trainingPhase) w w' ∧ TrainReady c w'.heap (n * c.nEpochs) := by
  induction n with
  | zero => exact ⟨w, .done _, by simpa using hready⟩
  | succ n ih =>
    obtain ⟨w1, h1, hr1⟩ := ih (by omega)
    have hmid := quietMid_train env c strats hs data
    obtain ⟨log, hlo, hll, hbl, inv1, hx1, hp1, -⟩ := many_loops env hl c hc strats hs data false [] ["model_trainer", "update_model"] Eq (quietPre_nil env c _ data) hmid w _ rfl
      inv hx hcur n (show n ≤ c.nTrainLoops by omega) w1 h1
    have hgap : ∀ xs ys : List (Pos F d), xs = ys → (∀ x ∈ xs, G x) → ∀ y ∈ ys, G y := by rintro xs _ rfl h; exact h
    obtain ⟨hlogG, hxG1⟩ := loops_in hG hc hgap hlo hxG
    have hfit : blocksLen (rowsPerCall c) (Function.update (fun _ => []) false log false) + (rowsPerCall c true + rowsPerCall c false) ≤ capacity c false := by
      rw [Function.update_self, hbl, capacity_eq]
      calc _ = (n + 1) * (rowsPerCall c true + rowsPerCall c false) := by ring
        _ ≤ _ := Nat.mul_le_mul_right _ hnl
    have hused : n * c.nEpochs + c.nEpochs ≤ c.nTrainLoops * c.nEpochs := by
      calc _ = (n + 1) * c.nEpochs := by ring
        _ ≤ _ := Nat.mul_le_mul_right _ hnl
    have hmidT : ∀ b1 w2, LocalBlock env c data w1.key w1.xs b1 w2.xs → w2.xs.length = c.nChains →
        BundleInv c false w2.heap (Function.update (Function.update (fun _ => []) false log) false (Function.update (fun _ => []) false log false ++ [b1])) →
        (∀ n, ¬ IsSampleBuffer n → w2.heap.res n = w1.heap.res n) →
        ∃ w4, Completes env strats data ["model_trainer", "update_model"] w2 w4 ∧ TrainReady c w4.heap (n * c.nEpochs + c.nEpochs) := by
      intro b1 w2 hb1 hx2 inv2 hfr
      rw [Function.update_idem, Function.update_self] at inv2
      obtain ⟨b, hbuf, hsh, -, hcell⟩ := (inv2.recs false).pos
      have hsz := inv2.sized false
      rw [Function.update_self] at hcell hsz
      have hin : ∀ b ∈ log ++ [b1], BlockIn G b := by
        intro b' hb'
        simp only [List.mem_append, List.mem_singleton] at hb'
        rcases hb' with hb' | rfl
        · exact hlogG b' hb'
        · exact localBlock_in hG hc.localThin hb1 hxG1
      obtain ⟨q, hq, hqle⟩ := finiteRows_uniform hG.finite hsz hin b.data hcell
      have hbl1 : blocksLen (rowsPerCall c) (log ++ [b1]) = blocksLen (rowsPerCall c) log + rowsPerCall c true := by
        rw [blocksLen_append]; simp [blocksLen, hb1.1]
      have hpos := rowsPerCall_pos' hc true
      rw [Function.update_self] at hfit
      refine trainer_total env c strats hs data hn hb w2 (n * c.nEpochs) ?_ hused b _ q hbuf hsh hq (by omega) inv2.flow
      obtain ⟨⟨m, hm⟩, ⟨o, ho⟩, lg, ⟨lb, hlb, hlr⟩, hlen⟩ := hr1
      refine ⟨⟨m, ?_⟩, ⟨o, ?_⟩, lg, ⟨lb, ?_, hlr⟩, hlen⟩
      · rw [hfr _ (not_isSampleBuffer (by decide)), hm]
      · rw [hfr _ (not_isSampleBuffer (by decide)), ho]
      · rw [hfr _ (not_isSampleBuffer (by decide)), hlb]
    obtain ⟨w4, w', h2, hR, hfr⟩ := loop_total env hl c hc strats hs data false ["model_trainer", "update_model"] hmid w1 _ inv1 hx1 (by rw [Function.update_self]; exact hp1) hfit
      (fun w => TrainReady c w.heap (n * c.nEpochs + c.nEpochs)) hmidT
    refine ⟨w', by rw [repeatPhase_succ, completes_append]; exact ⟨w1, h1, h2⟩, ?_⟩
    obtain ⟨⟨m, hm⟩, ⟨o, ho⟩, lg, ⟨lb, hlb, hlr⟩, hlen⟩ := hR
    refine ⟨⟨m, ?_⟩, ⟨o, ?_⟩, lg, ⟨lb, ?_, hlr⟩, by rw [hlen]; ring⟩
    · rw [hfr _ (not_isSampleBuffer (by decide)), hm]
    · rw [hfr _ (not_isSampleBuffer (by decide)), ho]
    · rw [hfr _ (not_isSampleBuffer (by decide)), hlb]

/-- The switch from training to production completes. -/
theorem switch_total (env : Env F D d M O) (c : BundleCfg F D d M O) (strats : String → Option (Strategy F D d M O)) (hs : HasCore c strats)
    (data : Data D) (w : World F D d M O) (logs : Bool → List (Block F d)) (inv : BundleInv c false w.heap logs) :
    ∃ w', Completes env strats data ["reset_steppers", "update_state"] w w' := by
  obtain ⟨st, hst, -⟩ := inv.state
  exact ⟨⟨w.key, w.xs, _⟩, .next hs.reset rfl (.next hs.update (by
    simp only [Strategy.run, UpdateState.run, updateStateStrat, Heap.getState, Heap.get, Heap.setPos, hst]; rfl) (.done _))⟩

/-- The run of the bundle's strategies from fresh resources completes. -/
theorem bundle_total (env : Env F D d M O) (hl : env.ops.Lawful) (c : BundleCfg F D d M O) (hc : GoodCfg c) (data : Data D) (hn : 0 < c.nChains) (hb : 0 < c.batchSize)
    (G : Pos F d → Prop) (hG : StaysIn env c data G) (key : Key) (xs : List (Pos F d)) (hx : xs.length = c.nChains) (hxG : ∀ x ∈ xs, G x) :
    ∃ w w', Completes env (bundleStrategies c).lookup data (repeatPhase c.nTrainLoops trainingPhase ++ ["reset_steppers", "update_state"])
        ⟨key, xs, ⟨bundleResources c, fun _ => 0⟩⟩ w ∧
      Completes env (bundleStrategies c).lookup data (repeatPhase c.nProdLoops productionPhase) w w' := by
  have hs := bundle_hasCore c
  have hready : TrainReady c ⟨bundleResources c, fun _ => 0⟩ 0 := by
    refine ⟨⟨c.flow, rfl⟩, ⟨c.mkOptim c.flow, rfl⟩, [], ⟨_, rfl, rfl, rfl, rfl, by simp⟩, rfl⟩
  have inv := bundleInv_fresh c ⟨bundleResources c, fun _ => 0⟩ (fun _ _ => rfl)
  obtain ⟨wT, h1, -⟩ := training_total env hl c hc _ hs data hn hb G hG ⟨key, xs, ⟨bundleResources c, fun _ => 0⟩⟩ inv hx hxG rfl hready c.nTrainLoops le_rfl
  obtain ⟨logT, -, -, -, inv1, hx1, -, -⟩ := many_loops env hl c hc _ hs data false [] ["model_trainer", "update_model"] Eq
    (quietPre_nil env c _ data) (quietMid_train env c _ hs data) ⟨key, xs, ⟨bundleResources c, fun _ => 0⟩⟩ (fun _ => []) rfl
    inv hx rfl c.nTrainLoops (le_refl _) wT h1
  obtain ⟨w, h2⟩ := switch_total env c _ hs data wT _ inv1
  obtain ⟨hx2, -, inv2, hp2, -, -, -⟩ := switch_step env c _ hs data wT w h2 _ inv1
  obtain ⟨w', h3⟩ := production_total env hl c hc _ hs data w _ (by simp) inv2 (by rw [hx2, hx1]) hp2 c.nProdLoops le_rfl
  exact ⟨w, w', by rw [completes_append]; exact ⟨wT, h1, h2⟩, h3⟩

/-- A completed sequence of strategies is a successful `sample` call. -/
theorem completes_sample {env : Env F D d M O} {strats : String → Option (Strategy F D d M O)} {data : Data D} {names : List String} :
    ∀ {w w' : World F D d M O}, Completes env strats data names w w' → runOrder env strats names w.key w.xs data w.heap = (.ok (w'.key, w'.xs), w'.heap) := by
  induction names with
  | nil => intro w w' h; rw [completes_nil] at h; subst h; rfl
  | cons n ns ih =>
    intro w w' h
    rw [completes_cons] at h
    obtain ⟨s, k, xs, h1, e, r, h⟩ := h
    simp only [runOrder, e, r]
    exact ih h

/-- Finite coordinates stay finite if the log-density is NaN or `-inf` wherever a coordinate is not finite. -/
theorem staysIn_finite [Ieee F] (env : Env F D d M O) (hl : env.ops.Lawful) (c : BundleCfg F D d M O) (hc : GoodCfg c)
    (data : Data D) (hig : IgnoresNSteps c.logpdf) (hbad : ∀ x i, BufNum.isFinite (x i) = false → Ieee.Bad (c.logpdf.val x data)) :
    StaysIn env c data (fun x => ∀ i, BufNum.isFinite (x i) = true) := by
  have key : ∀ x, ¬ Ieee.Bad (c.logpdf.val x data) → ∀ i, BufNum.isFinite (x i) = true := by
    intro x hx i
    by_contra hf
    exact hx (hbad x i (by simpa using hf))
  refine ⟨fun k x hx o ho => ?_, fun m k x r hx hr o ho => ?_, fun x hx => hx⟩
  · rcases C20_chain_or_start env.rng (.mala c.stepSize : KernelRes F d M) _ rfl c.logpdf data c.nLocal k x o ho with h | h
    · rw [h]; exact hx
    · exact key _ h
  · rcases C20_nf_chain_or_start env hl m c.nfBatch hc.nfBatch c.logpdf hig data c.nGlobal k x r hr o ho with h | h
    · rw [h]; exact hx
    · exact key _ h

/-- **C66.** `Sampler(rqs_mala_bundle).sample` never raises: positive numbers of chains and steps, positive batch sizes, thinnings that divide the step counts; a
starting position with finite coordinates for every chain; and a log-density that is NaN or `-inf` wherever a coordinate is not finite — for every
random key, flow, optimiser, data and number of training and production loops, and whatever the log-density is at the starting positions. -/
theorem C66_never_raises [Ieee F] (env : Env F D d M O) (hl : env.ops.Lawful) (c : BundleCfg F D d M O) (hc : GoodCfg c) (hn : 0 < c.nChains) (hb : 0 < c.batchSize)
    (data : Data D) (hig : IgnoresNSteps c.logpdf) (hbad : ∀ x i, BufNum.isFinite (x i) = false → Ieee.Bad (c.logpdf.val x data))
    (n nc : Nat) (key : Key) (kw : List (String × V)) (s : Sampler F D d M O V) (hs : Sampler.new n nc key none none none (some (malaBundle c)) kw = .ok s)
    (init : InitPos F d) (hx : init.atleast2d.length = c.nChains) (hinit : ∀ x ∈ init.atleast2d, ∀ i, BufNum.isFinite (x i) = true) :
    ∃ s', s.sample env init data = (.ok (), s') := by
  simp only [Sampler.new, Except.ok.injEq] at hs
  subst hs
  have hG := staysIn_finite env hl c hc data hig hbad
  obtain ⟨w, w', h1, h2⟩ := bundle_total env hl c hc data hn hb _ hG key init.atleast2d hx hinit
  have h3 : Completes env (bundleStrategies c).lookup data (bundleOrder c) ⟨key, init.atleast2d, ⟨bundleResources c, fun _ => 0⟩⟩ w' := by
    rw [bundleOrder, completes_append]; exact ⟨w, h1, h2⟩
  have h4 := completes_sample h3
  refine ⟨_, Prod.ext ?_ rfl⟩
  unfold Sampler.sample
  simp only [malaBundle]
  rw [show (bundleStrategies c).cursors = fun _ => 0 from rfl]
  rw [h4]

end FlowMC
