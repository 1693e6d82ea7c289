import Verif.Lemmas.RunMeas
import Verif.Props.ProductionRun
/-
Training loops of the bundle: flow, optimiser state and positions are measurable functions of the draws made in training.
-/
open MeasureTheory
set_option linter.unusedSectionVars false
namespace FlowMC
open Spec

variable {F Ω D M O Z : Type} {d : ℕ} [mB : MeasurableSpace Ω] [MeasurableSpace M] [MeasurableSpace O] [MeasurableSpace Z]
variable [Zero F] [One F] [Add F] [Mul F] [Div F] [Sub F] [Neg F] [NatCast F] [Transc F] [FCmp F] [BufNum F] [MeasurableSpace F]
variable {U : Key → Prop} {env : Ω → Env F D d M O} {G : Set M} {step : M → O → List (Pos F d) → F × M × O} {stats : M → List (Pos F d) → M} {big : F}

/-- Positions at the end of a call are those of the last recorded row. -/
theorem lastRow_pred {Q : (Ω → Option (Pos F d)) → Prop} {n : ℕ} (b : Ω → Block F d) (ys : Ω → List (Pos F d)) (hl : ∀ ω, LastRows (b ω) (ys ω)) (i : ℕ)
    (hlen : ∀ ω, ∀ r ∈ (b ω).rows, r.length = n) (h : Q fun ω => (cellOf (b ω).rows i (n - 1)).map (·.pos)) : Q fun ω => (ys ω)[i]? := by
  have e : (fun ω => (ys ω)[i]?) = fun ω => (cellOf (b ω).rows i (n - 1)).map (·.pos) := by
    funext ω
    rw [(hl ω).2 i]
    unfold cellOf
    cases hr : (b ω).rows[i]? with
    | none => rfl
    | some r =>
      simp only [Option.bind_some]
      rw [List.getLast?_eq_getElem?, hlen ω r (List.mem_of_getElem? hr)]
  rw [e]; exact h

/-- The training rows are a measurable function of the cells of the buffer. -/
theorem trainingRows_meas (hfin : MeasurableSet {x : F | BufNum.isFinite x = true}) (n T w : ℕ) (a : Ω → NDArr F) (ha : ∀ i < n, ∀ j < T, Measurable fun ω => (row3 (a ω) i j : Pos F d))
    (rows : Ω → List (Pos F d)) (hr : ∀ ω, trainingRows (a ω) n T w = .ok (rows ω)) : Measurable rows := by
  have hfilt : MeasurableSet {v : Pos F d | ((List.finRange d).all fun k => BufNum.isFinite (v k)) = true} := by
    have : {v : Pos F d | ((List.finRange d).all fun k => BufNum.isFinite (v k)) = true} = ⋂ k : Fin d, (fun v : Pos F d => v k) ⁻¹' {x | BufNum.isFinite x = true} := by
      ext v; simp
    rw [this]
    exact MeasurableSet.iInter fun k => measurable_pi_apply k hfin
  have hf : Measurable fun ω => (finiteRows (a ω) n T : List (Pos F d)) := by
    unfold finiteRows
    refine measurable_flatMap _ fun i hi => (measurable_filter hfilt).comp (measurable_map_fixed _ fun j hj => ?_)
    exact ha i (List.mem_range.1 hi) j (List.mem_range.1 hj)
  have hch : ∀ (q : ℕ) (n : ℕ), Measurable fun l : List (Pos F d) => (chunks q n l).flatMap (takeLast w) := by
    intro q n
    have hlast : Measurable fun l : List (Pos F d) => takeLast w l := by
      unfold takeLast
      split
      · exact measurable_id
      · exact measurable_index (f := fun (k : ℕ) (l : List (Pos F d)) => l.drop k) ((measurable_from_top (f := fun k : ℕ => k - w)).comp measurable_length) fun k => measurable_drop k
    induction n with
    | zero => simpa [chunks] using measurable_const
    | succ n ih =>
      simp only [chunks, List.flatMap_cons]
      exact listAppend_meas (hlast.comp (measurable_take q)) (ih.comp (measurable_drop q))
  have e : rows = fun ω => (chunks ((finiteRows (a ω) n T : List (Pos F d)).length / n) n (finiteRows (a ω) n T)).flatMap (takeLast w) := by
    funext ω
    have := hr ω
    unfold trainingRows at this
    simp only at this
    split at this
    · cases this
    · split at this
      · exact (Except.ok.inj this).symm
      · cases this
  rw [e]
  exact measurable_index (f := fun (q : ℕ) ω => (chunks (q / n) n (finiteRows (a ω) n T : List (Pos F d))).flatMap (takeLast w)) (measurable_length.comp hf) fun q => (hch _ n).comp hf

/-- The recorded positions have the property `Q`, for example that they are measurable functions of the draws, because `Q` is kept by the calls of the steppers that use the keys `U`. -/
structure BlockMeas (Q : (Ω → Option (Pos F d)) → Prop) (U : Key → Prop) (env : Ω → Env F D d M O) (c : BundleCfg F D d M O) (data : Data D) (G : Set M) : Prop where
  lawful : ∀ ω, (env ω).ops.Lawful
  meas : ∀ f, Q f → ∃ X : Ω → Pos F d, Measurable X ∧ ∀ ω, f ω = some (X ω)
  loc : ∀ (k : Key), (∀ a, Desc (.child k 1) a → U a) → ∀ (xs : Ω → List (Pos F d)) (b : Ω → Block F d) (ys : Ω → List (Pos F d)),
    (∀ ω, LocalBlock (env ω) c data k (xs ω) (b ω) (ys ω)) → ∀ i, (Q fun ω => (xs ω)[i]?) → ∀ j < rowsPerCall c true, Q fun ω => (cellOf (b ω).rows i j).map (·.pos)
  glob : ∀ (m : Ω → M), Measurable m → (∀ ω, m ω ∈ G) → ∀ (k : Key), (∀ a, Desc (.child k 1) a → U a) → ∀ (xs : Ω → List (Pos F d)) (b : Ω → Block F d) (ys : Ω → List (Pos F d)),
    (∀ ω, GlobalBlock (env ω) c data k (m ω) (xs ω) (b ω) (ys ω)) → ∀ i, (Q fun ω => (xs ω)[i]?) → ∀ j < rowsPerCall c false, Q fun ω => (cellOf (b ω).rows i j).map (·.pos)

variable {Q : (Ω → Option (Pos F d)) → Prop}

/-- One call of the trainer followed by the update of the flow kernel. -/
theorem trainCall_meas (hT : TrainSetup U env G step stats big) (hfin : MeasurableSet {x : F | BufNum.isFinite x = true}) (c : BundleCfg F D d M O) (strats : String → Option (Strategy F D d M O))
    (hs : HasCore c strats) (data : Data D) (k : Key) (w w' : Ω → World F D d M O) (hrun : ∀ ω, Completes (env ω) strats data ["model_trainer", "update_model"] (w ω) (w' ω))
    (hkey : ∀ ω, (w ω).key = k) (hU1 : U (.child k 1)) (hU2 : ∀ j < c.nEpochs, U (stepKey (.child (.child k 0) 1) j))
    (m : Ω → M) (hm : Measurable m) (hG : ∀ ω, m ω ∈ G) (hm' : ∀ ω, (w ω).heap.res "model" = some (.model (m ω)))
    (o : Ω → O) (ho : Measurable o) (ho' : ∀ ω, (w ω).heap.res "optimizer" = some (.optimizer (o ω)))
    (b : Ω → Buffer F) (hb : ∀ ω, (w ω).heap.res "positions_training" = some (.buffer (b ω))) (n T : ℕ) (hsh : ∀ ω, (b ω).data.shape = [n, T, d])
    (hcell : ∀ i < n, ∀ j < T, Measurable fun ω => (row3 (b ω).data i j : Pos F d)) :
    ∃ (m1 : Ω → M) (o1 : Ω → O), Measurable m1 ∧ Measurable o1 ∧ (∀ ω, m1 ω ∈ G) ∧ (∀ ω, (w' ω).heap.res "model" = some (.model (m1 ω))) ∧
      (∀ ω, (w' ω).heap.res "optimizer" = some (.optimizer (o1 ω))) ∧ ∀ ω mf, (w' ω).heap.res "global_sampler" = some (.kernel (.nf mf c.nfBatch)) → mf = m1 ω := by
  obtain ⟨win, htr⟩ := hs.trainer
  have key1 : ∀ ω, ∃ (rows : List (Pos F d)) (r : TrainResult F M O), trainingRows (b ω).data n T win = .ok rows ∧
      train (env ω).rng (env ω).ops (env ω).big (.child (.child k 0) 1) (m ω) (o ω) (((env ω).rng.choice (.child k 1) rows.length c.nMaxExamples).filterMap (rows[·]?)) c.nEpochs c.batchSize = .ok r ∧
      (w' ω).heap.res "model" = some (.model r.model) ∧ (w' ω).heap.res "optimizer" = some (.optimizer r.state) ∧
      ∀ mf, (w' ω).heap.res "global_sampler" = some (.kernel (.nf mf c.nfBatch)) → mf = r.model := by
    intro ω
    have h := hrun ω
    rw [completes_cons] at h
    obtain ⟨s, k1, xs1, h1, e1, r1, h⟩ := h
    rw [completes_cons] at h
    obtain ⟨s2, k2, xs2, h2, e2, r2, h⟩ := h
    rw [completes_nil] at h
    rw [h]
    rw [htr] at e1
    simp only [Option.some.injEq] at e1
    subst e1
    rw [hs.um] at e2
    simp only [Option.some.injEq] at e2
    subst e2
    simp only [Strategy.run] at r1 r2
    simp only [TrainModel.run] at r1
    cases hplan : (modelTrainer c win).plan (env ω) (w ω).key (w ω).heap with
    | error e => rw [hplan] at r1; simp at r1
    | ok r =>
      rw [hplan] at r1
      simp only at r1
      have hp := hplan
      have a1 : (w ω).heap.getModel (modelTrainer c win).modelName = .ok (m ω) := by simp [Heap.getModel, Heap.get, modelTrainer, hm']
      have a2 : (w ω).heap.getOptimizer (modelTrainer c win).optimizerName = .ok (o ω) := by simp [Heap.getOptimizer, Heap.get, modelTrainer, ho']
      have a3 : (w ω).heap.getBuffer (modelTrainer c win).dataName = .ok (b ω) := Heap.getBuffer_of (hb ω)
      simp only [TrainModel.plan, a1, a2, a3, bind, Except.bind, hsh, if_true, hkey] at hp
      rw [show (modelTrainer c win).historyWindow = win from rfl] at hp
      cases hrows : (trainingRows (b ω).data n T win : Except Err (List (Pos F d))) with
      | error e => rw [hrows] at hp; simp at hp
      | ok rows =>
        rw [hrows] at hp
        simp only at hp
        split at hp
        · simp at hp
        · refine ⟨rows, r, rfl, hp, ?_⟩
          revert r1
          generalize recordLosses (modelTrainer c win).lossBufferName r.losses (w ω).heap = z
          intro r1
          obtain ⟨z1, z2⟩ := z
          cases z1 with
          | error e => simp at r1
          | ok u =>
            simp only [Prod.mk.injEq, Except.ok.injEq] at r1
            obtain ⟨⟨rfl, rfl⟩, rfl⟩ := r1
            have b1 : ((z2.setRes (modelTrainer c win).modelName (.model r.model)).setRes (modelTrainer c win).optimizerName (.optimizer r.state)).res "model" = some (.model r.model) := by
              simp [Heap.setRes, dictSet, modelTrainer]
            have b2 : ((z2.setRes (modelTrainer c win).modelName (.model r.model)).setRes (modelTrainer c win).optimizerName (.optimizer r.state)).res "optimizer" = some (.optimizer r.state) := by
              simp [Heap.setRes, dictSet, modelTrainer]
            revert b1 b2 r2
            generalize (z2.setRes (modelTrainer c win).modelName (.model r.model)).setRes (modelTrainer c win).optimizerName (.optimizer r.state) = hh
            intro r2 b1 b2
            simp only [runLambda, updateModel, b1] at r2
            split at r2
            · simp at r2
            · rename_i hr0
              split at hr0
              · simp at hr0
              · simp at hr0
              · rename_i m0 m1 bb hm0 hg
                simp only [Option.some.injEq, Resource.model.injEq] at hm0
                subst hm0
                simp only [Prod.mk.injEq, Except.ok.injEq] at hr0 r2
                obtain ⟨-, rfl⟩ := hr0
                obtain ⟨-, rfl⟩ := r2
                refine ⟨by simpa [Heap.setRes, dictSet] using b1, by simpa [Heap.setRes, dictSet] using b2, fun mf h => ?_⟩
                simp [Heap.setRes, dictSet] at h
                exact h.1.symm
              · simp at hr0
  choose rows r hrows htrain h1 h2 h3 using key1
  have hrm : Measurable rows := trainingRows_meas hfin n T win (fun ω => (b ω).data) hcell rows hrows
  have hlen : Measurable fun ω => (rows ω).length := measurable_length.comp hrm
  have hch : Measurable fun ω => (env ω).rng.choice (.child k 1) (rows ω).length c.nMaxExamples :=
    measurable_index (f := fun q ω => (env ω).rng.choice (.child k 1) q c.nMaxExamples) hlen fun q => hT.choose _ hU1 q _
  have hdata : Measurable fun ω => ((env ω).rng.choice (.child k 1) (rows ω).length c.nMaxExamples).filterMap ((rows ω)[·]?) :=
    measurable_index (f := fun (is : List ℕ) ω => is.filterMap ((rows ω)[·]?)) hch fun is => (measurable_select is).comp hrm
  obtain ⟨t1, t2, t3, -⟩ := hT.train hdata c.batchSize c.nEpochs hm ho hG _ hU2 r htrain
  exact ⟨_, _, t1, t2, t3, h1, h2, h3⟩

/-- The recorded positions have the property. -/
def CellsMeas (Q : (Ω → Option (Pos F d)) → Prop) (n L : ℕ) (log : Ω → List (Block F d)) : Prop := ∀ i < n, ∀ j < L, Q fun ω => ((tagged (log ω) i)[j]?).map (·.2.pos)

theorem CellsMeas.snoc {n L : ℕ} {len : Bool → ℕ} {log : Ω → List (Block F d)} (h : CellsMeas Q n L log) (hw : ∀ ω, WellSized n len (log ω)) (hL : ∀ ω, blocksLen len (log ω) = L) (t : Bool)
    (b : Ω → Block F d) (hb : ∀ i < n, ∀ j < len t, Q fun ω => (cellOf (b ω).rows i j).map (·.pos)) : CellsMeas Q n (L + len t) (fun ω => log ω ++ [b ω]) := by
  intro i hi j hj
  have e : ∀ ω, (tagged (log ω ++ [b ω]) i)[j]? = if j < L then (tagged (log ω) i)[j]? else (cellOf (b ω).rows i (j - L)).map (fun o => ((b ω).isLocal, o)) := by
    intro ω; rw [tagged_snoc_get n len (log ω) (hw ω) (b ω) i j hi, hL ω]
  simp only [e]
  by_cases hjL : j < L
  · simp only [hjL, if_true]; exact h i hi j hjL
  · simp only [hjL, if_false, Option.map_map]
    exact hb i hi (j - L) (by omega)

/-- The rows of the training buffer are measurable. -/
theorem bufferRows_meas {c : BundleCfg F D d M O} {L : ℕ} (w : Ω → World F D d M O) (log : Ω → List (Block F d)) (inv : ∀ ω, BundleInv c false (w ω).heap (Function.update (fun _ => []) false (log ω)))
    (hL : ∀ ω, blocksLen (rowsPerCall c) (log ω) = L) (hQ : ∀ f, Q f → ∃ X : Ω → Pos F d, Measurable X ∧ ∀ ω, f ω = some (X ω)) (hc : CellsMeas Q c.nChains L log) :
    ∃ b : Ω → Buffer F, (∀ ω, (w ω).heap.res "positions_training" = some (.buffer (b ω))) ∧ (∀ ω, (b ω).data.shape = [c.nChains, capacity c false, d]) ∧
      ∀ i < c.nChains, ∀ j < capacity c false, Measurable fun ω => (row3 (b ω).data i j : Pos F d) := by
  choose b hb hsh _ hcell using fun ω => ((inv ω).recs false).pos
  simp only [Function.update_self] at hcell
  have hw : ∀ ω, WellSized c.nChains (rowsPerCall c) (log ω) := fun ω => by have := (inv ω).sized false; rwa [Function.update_self] at this
  refine ⟨b, hb, hsh, fun i hi j hj => ?_⟩
  by_cases hjL : j < L
  · obtain ⟨X, hX, e⟩ := hQ _ (hc i hi j hjL)
    have : (fun ω => (row3 (b ω).data i j : Pos F d)) = X := by
      funext ω a
      have e1 := e ω
      have := hcell ω i j a hi hj
      rw [row3, this]
      cases ht : (tagged (log ω) i)[j]? with
      | none => rw [ht] at e1; simp at e1
      | some v => rw [ht] at e1; simp only [Option.map_some, Option.some.injEq] at e1; simp [e1]
    rw [this]; exact hX
  · have : (fun ω => (row3 (b ω).data i j : Pos F d)) = fun _ _ => BufNum.negInf := by
      funext ω a
      have := hcell ω i j a hi hj
      rw [row3, this, List.getElem?_eq_none (by rw [tagged_length c.nChains (rowsPerCall c) (log ω) (hw ω) i hi, hL ω]; omega)]
    rw [this]; exact measurable_const

/-- Draws of training loop `l` are made before production. -/
theorem trainingKeys {L E l : ℕ} (hl : l < L) (key : Key) :
    (∀ a, Desc (.child (trainedKey l E key) 1) a → ¬ Desc (trainedKey L E key) a) ∧ ¬ Desc (trainedKey L E key) (.child (.child (trainedKey l E key) 0) 1) ∧
    (∀ j < E, ¬ Desc (trainedKey L E key) (stepKey (.child (.child (.child (trainedKey l E key) 0) 0) 1) j)) ∧
    ∀ a, Desc (.child (trainOut (.child (trainedKey l E key) 0) E) 1) a → ¬ Desc (trainedKey L E key) a := by
  set k := trainedKey l E key with hk
  have hs : Desc (.child (trainOut (.child k 0) E) 0) (trainedKey L E key) := by
    obtain ⟨e, rfl⟩ : ∃ e, L = e + (l + 1) := ⟨L - (l + 1), by omega⟩
    have hq : trainedKey (e + (l + 1)) E key = trainedKey e E (.child (trainOut (.child k 0) E) 0) := by
      rw [hk]; unfold trainedKey
      rw [Function.iterate_add_apply, Function.iterate_succ_apply']
    rw [hq]
    generalize Key.child (trainOut (.child k 0) E) 0 = q
    clear hq hl hk
    induction e with
    | zero => exact .refl
    | succ e ih =>
      unfold trainedKey at ih ⊢
      rw [Function.iterate_succ_apply']
      refine desc_trans ih ?_
      refine .child 0 (desc_trans ?_ (desc_carryKey _ _))
      exact .child 1 (.child 0 (.child 0 .refl))
  have h4 : Desc (trainOut (.child k 0) E) (trainedKey L E key) := desc_trans desc_child_self hs
  have h2 : Desc (.child (.child k 0) 0) (trainedKey L E key) := desc_trans (desc_trans desc_child_self (desc_carryKey _ _)) h4
  have h1 : Desc (.child k 0) (trainedKey L E key) := desc_trans desc_child_self h2
  refine ⟨fun a ha hf => children_disjoint (i := 1) (j := 0) (by decide) ⟨ha, desc_trans h1 hf⟩, fun hf => children_disjoint (i := 1) (j := 0) (by decide) ⟨.refl, desc_trans h2 hf⟩, fun j hj hf => ?_,
    fun a ha hf => children_disjoint (i := 1) (j := 0) (by decide) ⟨ha, desc_trans hs hf⟩⟩
  refine children_disjoint (i := 1) (j := 0) (by decide) ⟨.refl, desc_trans ?_ hf⟩
  rw [← carryKey_succ]
  exact desc_trans (desc_carryKey_le _ (show j + 1 ≤ E by omega)) h4

/-- What the training loops leave behind, as functions of the draws. -/
structure TrainedMeas (Q : (Ω → Option (Pos F d)) → Prop) (c : BundleCfg F D d M O) (G : Set M) (key : Key) (l : ℕ) (w : Ω → World F D d M O) (log : Ω → List (Block F d)) : Prop where
  inv : ∀ ω, BundleInv c false (w ω).heap (Function.update (fun _ => []) false (log ω))
  key : ∀ ω, (w ω).key = trainedKey l c.nEpochs key
  len : ∀ ω, (w ω).xs.length = c.nChains
  cur : ∀ ω, (w ω).heap.pos "local_stepper" = blocksLen (rowsPerCall c) (log ω)
  rows : ∀ ω, blocksLen (rowsPerCall c) (log ω) = l * (rowsPerCall c true + rowsPerCall c false)
  xs : ∀ i < c.nChains, Q fun ω => (w ω).xs[i]?
  cells : CellsMeas Q c.nChains (l * (rowsPerCall c true + rowsPerCall c false)) log
  model : ∃ m : Ω → M, Measurable m ∧ (∀ ω, m ω ∈ G) ∧ (∀ ω, (w ω).heap.res "model" = some (.model (m ω))) ∧ ∀ ω, (w ω).heap.res "global_sampler" = some (.kernel (.nf (m ω) c.nfBatch))
  optim : ∃ o : Ω → O, Measurable o ∧ ∀ ω, (w ω).heap.res "optimizer" = some (.optimizer (o ω))

theorem trainingLoops_meas (hT : TrainSetup U env G step stats big) (hfin : MeasurableSet {x : F | BufNum.isFinite x = true}) (c : BundleCfg F D d M O) (hc : GoodCfg c)
    (data : Data D) (hD : BlockMeas Q U env c data G) (key : Key)
    (hU : ∀ a, ¬ Desc (trainedKey c.nTrainLoops c.nEpochs key) a → U a) (w0 : Ω → World F D d M O) (h0 : TrainedMeas Q c G key 0 w0 (fun _ => [])) (n : ℕ) (hn : n ≤ c.nTrainLoops) :
    ∀ w' : Ω → World F D d M O, (∀ ω, Completes (env ω) (bundleStrategies c).lookup data (repeatPhase n trainingPhase) (w0 ω) (w' ω)) → ∃ log, TrainedMeas Q c G key n w' log := by
  induction n with
  | zero =>
    intro w' hrun
    have : w' = w0 := funext fun ω => by
      have := hrun ω
      simpa [repeatPhase, completes_nil] using this
    subst this
    exact ⟨_, h0⟩
  | succ n ih =>
    intro w' hrun
    have hr := fun ω => by have := hrun ω; rw [repeatPhase_succ, completes_append] at this; exact this
    choose w hr1 hr2 using hr
    obtain ⟨log, hw⟩ := ih (by omega) w hr1
    obtain ⟨kL, kC, kT, kG⟩ := trainingKeys (E := c.nEpochs) (show n < c.nTrainLoops by omega) key
    have hs := bundle_hasCore c
    have hfit : ∀ ω, blocksLen (rowsPerCall c) (Function.update (fun _ => []) false (log ω) false) + (rowsPerCall c true + rowsPerCall c false) ≤ capacity c false := by
      intro ω
      rw [Function.update_self, hw.rows, capacity_eq]
      calc _ = (n + 1) * (rowsPerCall c true + rowsPerCall c false) := by ring
        _ ≤ _ := Nat.mul_le_mul_right _ hn
    have hloop := fun ω => one_loop_full (env ω) (hD.lawful ω) c hc _ hs data false [] ["model_trainer", "update_model"] Eq (quietPre_nil _ c _ data) (quietMid_train _ c _ hs data) (w ω) (w' ω)
      (hr2 ω) _ (hw.inv ω) (hw.len ω) (by rw [Function.update_self, hw.cur]) (hfit ω)
    choose b1 b2 w1 w2 w4 m' hgap hb1 hb2 hx inv hlen' ht1 ht2 hp hp' inv2 using hloop
    have hx1 : ∀ ω, w1 ω = w ω := fun ω => completes_nil.1 (hx ω).1
    have hk1 : ∀ ω, (w1 ω).key = trainedKey n c.nEpochs key := fun ω => by rw [hx1, hw.key]
    simp only [Function.update_idem, Function.update_self] at inv inv2 hp
    -- the local block
    have hb1' : ∀ ω, LocalBlock (env ω) c data (trainedKey n c.nEpochs key) (w ω).xs (b1 ω) (w2 ω).xs := fun ω => by have := hb1 ω; rwa [hk1 ω, hx1 ω] at this
    have c1 : ∀ i < c.nChains, ∀ j < rowsPerCall c true, Q fun ω => (cellOf (b1 ω).rows i j).map (·.pos) := fun i hi j hj =>
      hD.loc _ (fun a ha => hU a (kL a ha)) _ b1 _ hb1' i (hw.xs i hi) j hj
    have hws : ∀ ω, WellSized c.nChains (rowsPerCall c) (log ω) := fun ω => by have := (hw.inv ω).sized false; rwa [Function.update_self] at this
    have hws1 : ∀ ω, WellSized c.nChains (rowsPerCall c) (log ω ++ [b1 ω]) := fun ω => by have := (inv2 ω).sized false; rwa [Function.update_self] at this
    have hws2 : ∀ ω, WellSized c.nChains (rowsPerCall c) (log ω ++ [b1 ω, b2 ω]) := fun ω => by have := (inv ω).sized false; rwa [Function.update_self] at this
    have x2 : ∀ i < c.nChains, Q fun ω => (w2 ω).xs[i]? := fun i hi =>
      lastRow_pred (n := rowsPerCall c true) b1 _ (fun ω => (hb1' ω).2.1) i (fun ω r hr => by have := ((hws1 ω) (b1 ω) (by simp)).2 r hr; rwa [ht1] at this) (c1 i hi _ (by have := rowsPerCall_pos' hc true; omega))
    have cells1 := hw.cells.snoc hws hw.rows true b1 c1
    have bl1 : ∀ ω, blocksLen (rowsPerCall c) (log ω ++ [b1 ω]) = n * (rowsPerCall c true + rowsPerCall c false) + rowsPerCall c true := fun ω => by
      rw [blocksLen_append, hw.rows]; simp [blocksLen, ht1]
    -- the training
    obtain ⟨b, hb, hsh, hcell⟩ := bufferRows_meas w2 (fun ω => log ω ++ [b1 ω]) inv2 bl1 hD.meas cells1
    obtain ⟨m, hm, hmG, hmr, hmg⟩ := hw.model
    obtain ⟨o, ho, hor⟩ := hw.optim
    have hk2 : ∀ ω, (w2 ω).key = .child (trainedKey n c.nEpochs key) 0 := fun ω => by rw [(hx ω).2.1, hk1]
    have fr2 : ∀ ω n, ¬ IsSampleBuffer n → (w2 ω).heap.res n = (w ω).heap.res n := fun ω n hn => by rw [(hx ω).2.2.1 n hn, hx1]
    obtain ⟨m1, o1, hm1, ho1, hG1, r1, r2, r3⟩ := trainCall_meas hT hfin c _ hs data _ w2 w4 (fun ω => (hx ω).2.2.2.1) hk2 (hU _ kC) (fun j hj => hU _ (kT j hj)) m hm hmG
      (fun ω => by rw [fr2 ω _ (not_isSampleBuffer (by decide)), hmr]) o ho (fun ω => by rw [fr2 ω _ (not_isSampleBuffer (by decide)), hor]) b hb _ _ hsh hcell
    have hm' : m' = m1 := funext fun ω => r3 ω _ (hx ω).2.2.2.2.1
    subst hm'
    have fr4 : ∀ ω n, ¬ IsSampleBuffer n → (w' ω).heap.res n = (w4 ω).heap.res n := fun ω => (hx ω).2.2.2.2.2.2.1
    have hk' : ∀ ω, (w' ω).key = trainedKey (n + 1) c.nEpochs key := fun ω => by
      have := trained_key (env ω) c data (n + 1) (w0 ω) (w' ω) (hrun ω)
      rw [this, h0.key]; rfl
    have hk4 : ∀ ω, (w4 ω).key = trainOut (.child (trainedKey n c.nEpochs key) 0) c.nEpochs := fun ω => by
      have e := (hx ω).2.2.2.2.2.1
      rw [hk' ω, trainedKey, Function.iterate_succ_apply', ← trainedKey] at e
      injection e with e _
      exact e.symm
    -- the global block
    have hb2' : ∀ ω, GlobalBlock (env ω) c data (trainOut (.child (trainedKey n c.nEpochs key) 0) c.nEpochs) (m' ω) (w2 ω).xs (b2 ω) (w' ω).xs := fun ω => by have := hb2 ω; rwa [hk4 ω] at this
    have c2 : ∀ i < c.nChains, ∀ j < rowsPerCall c false, Q fun ω => (cellOf (b2 ω).rows i j).map (·.pos) := fun i hi j hj =>
      hD.glob m' hm1 hG1 _ (fun a ha => hU a (kG a ha)) _ b2 _ hb2' i (x2 i hi) j hj
    have x' : ∀ i < c.nChains, Q fun ω => (w' ω).xs[i]? := fun i hi =>
      lastRow_pred (n := rowsPerCall c false) b2 _ (fun ω => (hb2' ω).2.1) i (fun ω r hr => by have := ((hws2 ω) (b2 ω) (by simp)).2 r hr; rwa [ht2] at this) (c2 i hi _ (by have := rowsPerCall_pos' hc false; omega))
    have cells2 := cells1.snoc hws1 bl1 false b2 c2
    have bl2 : ∀ ω, blocksLen (rowsPerCall c) (log ω ++ [b1 ω, b2 ω]) = (n + 1) * (rowsPerCall c true + rowsPerCall c false) := fun ω => by
      rw [blocksLen_append, hw.rows]; simp [blocksLen, ht1, ht2]; ring
    refine ⟨fun ω => log ω ++ [b1 ω, b2 ω], inv, hk', hlen', hp, bl2, x', ?_, ⟨m', hm1, hG1, fun ω => by rw [fr4 ω _ (not_isSampleBuffer (by decide)), r1], fun ω => ?_⟩,
      ⟨o1, ho1, fun ω => by rw [fr4 ω _ (not_isSampleBuffer (by decide)), r2]⟩⟩
    · have e : n * (rowsPerCall c true + rowsPerCall c false) + rowsPerCall c true + rowsPerCall c false = (n + 1) * (rowsPerCall c true + rowsPerCall c false) := by ring
      rw [e] at cells2
      simpa only [List.append_assoc, List.cons_append, List.nil_append] using cells2
    · rw [fr4 ω _ (not_isSampleBuffer (by decide)), (hx ω).2.2.2.2.1]

/-- The start of a run with fixed resources. -/
theorem trainedMeas_fresh (c : BundleCfg F D d M O) (hG : c.flow ∈ G) (key : Key) (xs : Ω → List (Pos F d)) (hx : ∀ ω, (xs ω).length = c.nChains) (hm : ∀ i < c.nChains, Q fun ω => (xs ω)[i]?) :
    TrainedMeas Q c G key 0 (fun ω => ⟨key, xs ω, ⟨bundleResources c, fun _ => 0⟩⟩) (fun _ => []) where
  inv := fun ω => by
    have := bundleInv_fresh c ⟨bundleResources c, fun _ => 0⟩ (fun _ _ => rfl)
    rwa [Function.update_eq_self]
  key := fun _ => rfl
  len := hx
  cur := fun _ => rfl
  rows := fun _ => by simp [blocksLen]
  xs := hm
  cells := fun i _ j hj => by simp at hj
  model := ⟨fun _ => c.flow, measurable_const, fun _ => hG, fun _ => rfl, fun _ => rfl⟩
  optim := ⟨fun _ => c.mkOptim c.flow, measurable_const, fun _ => rfl⟩

/-- Training from fresh resources, and the switch to production. -/
theorem training_meas (hT : TrainSetup U env G step stats big) (hfin : MeasurableSet {x : F | BufNum.isFinite x = true}) (c : BundleCfg F D d M O) (hc : GoodCfg c)
    (data : Data D) (hD : BlockMeas Q U env c data G) (key : Key)
    (hU : ∀ a, ¬ Desc (trainedKey c.nTrainLoops c.nEpochs key) a → U a) (hflow : c.flow ∈ G) (init : Ω → List (Pos F d)) (hx : ∀ ω, (init ω).length = c.nChains)
    (hX : ∀ i < c.nChains, Q fun ω => (init ω)[i]?) (w : Ω → World F D d M O)
    (hw : ∀ ω, Completes (env ω) (malaBundle c).strategies.lookup data (repeatPhase c.nTrainLoops trainingPhase ++ ["reset_steppers", "update_state"])
      ⟨key, init ω, ⟨(malaBundle c).resources, fun _ => 0⟩⟩ (w ω)) :
    ∃ m : Ω → M, Measurable m ∧ (∀ ω, m ω ∈ G) ∧ (∀ ω, (w ω).heap.res "global_sampler" = some (.kernel (.nf (m ω) c.nfBatch))) ∧
      ∀ i < c.nChains, Q fun ω => (w ω).xs[i]? := by
  have hsw := fun ω => by have := hw ω; rw [completes_append] at this; exact this
  choose v hv1 hv2 using hsw
  obtain ⟨log, hl⟩ := trainingLoops_meas hT hfin c hc data hD key hU _ (trainedMeas_fresh c hflow key init hx hX) c.nTrainLoops le_rfl v hv1
  have hsame : ∀ ω, (w ω).xs = (v ω).xs ∧ (w ω).heap.res "global_sampler" = (v ω).heap.res "global_sampler" := by
    intro ω
    have h2 := hv2 ω
    simp only [malaBundle, completes_cons, completes_nil, bundleStrategies, Option.some.injEq] at h2
    obtain ⟨_, k2, x2, g2, rfl, r2, _, k3, x3, g3, rfl, r3, e⟩ := h2
    simp only [Strategy.run, runLambda, resetSteppers, Prod.mk.injEq, Except.ok.injEq] at r2
    obtain ⟨⟨rfl, rfl⟩, rfl⟩ := r2
    obtain ⟨st, hst, -⟩ := (hl.inv ω).state
    simp only [Strategy.run, UpdateState.run, updateStateStrat, Heap.getState, Heap.get, Heap.setPos, hst] at r3
    simp only [Prod.mk.injEq, Except.ok.injEq] at r3
    obtain ⟨⟨rfl, rfl⟩, rfl⟩ := r3
    rw [e]
    exact ⟨rfl, by simp [Heap.setRes, dictSet]⟩
  obtain ⟨m, hm, hG, -, hmg⟩ := hl.model
  refine ⟨m, hm, hG, fun ω => by rw [(hsame ω).2]; exact hmg ω, fun i hi => ?_⟩
  have e : (fun ω => (w ω).xs[i]?) = fun ω => (v ω).xs[i]? := funext fun ω => by rw [(hsame ω).1]
  rw [e]; exact hl.xs i hi

theorem DrawSetup.blocks [BufNum ℝ] {U : Key → Prop} {env : Ω → Env ℝ D d M O} {push : M → Z → Pos ℝ d} {lnf : M → Pos ℝ d → ℝ} {G : Set M} (hD : DrawSetup U env push lnf G) (c : BundleCfg ℝ D d M O) (hc : GoodCfg c)
    (hig : IgnoresNSteps c.logpdf) (data : Data D) (ht : Measurable (fun x => c.logpdf.val x data)) (hg : Measurable (fun x => c.logpdf.grad x data)) : BlockMeas MV U env c data G :=
  ⟨hD.lawful, fun _ h => h, fun k hk xs b ys hb i hX j hj => hD.localBlock c hc data ht hg k hk xs b ys hb i hX j hj,
    fun m hm hG k hk xs b ys hb i hX j hj => hD.globalBlock c hc hig data ht m hm hG k hk xs b ys hb i hX j hj⟩

end FlowMC
