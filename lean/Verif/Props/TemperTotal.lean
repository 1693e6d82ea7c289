import Verif.Props.Totality
import Verif.Props.TemperBundle
import Verif.Props.Walls
/-
C66 for `RQSpline_MALA_PT_Bundle`: a run with valid settings never raises.
-/
set_option linter.unusedSectionVars false
namespace FlowMC
open Spec

variable {F D : Type} {d : Nat} {M O V : Type}
variable [Zero F] [One F] [Add F] [Mul F] [Div F] [Sub F] [Neg F] [NatCast F] [Transc F] [FCmp F] [BufNum F]

/-- What happens before every local block completes, keeps positions in `G`, and keeps what it needs the next time (`J`). -/
structure PreTotal (env : Env F D d M O) (c : BundleCfg F D d M O) (strats : String → Option (Strategy F D d M O)) (data : Data D) (pre : List String)
    (gap : List (Pos F d) → List (Pos F d) → Prop) (G : Pos F d → Prop) (J : World F D d M O → Prop) : Prop where
  quiet : QuietPre env c strats data pre gap
  total : ∀ w, J w → w.xs.length = c.nChains → (∀ x ∈ w.xs, G x) → ∃ w1, Completes env strats data pre w w1 ∧ J w1 ∧ (∀ x ∈ w1.xs, G x) ∧
    ∀ n ∈ ["model", "optimizer", "loss_buffer"], w1.heap.res n = w.heap.res n
  keep : ∀ names : List String, (∀ n ∈ names, n ∈ trainingPhase ++ ["reset_steppers", "update_state"]) → ∀ w w', Completes env strats data names w w' → J w → J w'

/-- Any number of training loops completes. -/
theorem training_total_pre (env : Env F D d M O) (hl : env.ops.Lawful) (c : BundleCfg F D d M O) (hc : GoodCfg c) (strats : String → Option (Strategy F D d M O))
    (hs : HasCore c strats) (data : Data D) (hn : 0 < c.nChains) (hb : 0 < c.batchSize) (G : Pos F d → Prop) (hG : StaysIn env c data G)
    (pre : List String) (gap : List (Pos F d) → List (Pos F d) → Prop) (J : World F D d M O → Prop) (hP : PreTotal env c strats data pre gap G J) (w : World F D d M O)
    (hJ : J w) (inv : BundleInv c false w.heap (fun _ => [])) (hx : w.xs.length = c.nChains) (hxG : ∀ x ∈ w.xs, G x)
    (hcur : w.heap.pos "local_stepper" = 0) (hready : TrainReady c w.heap 0) (n : Nat) (hnl : n ≤ c.nTrainLoops) :
    ∃ w' log, Completes env strats data (repeatPhase n (pre ++ trainingPhase)) w w' ∧ TrainReady c w'.heap (n * c.nEpochs) ∧ J w' ∧ (∀ x ∈ w'.xs, G x) ∧
      w'.xs.length = c.nChains ∧ BundleInv c false w'.heap (Function.update (fun _ => []) false log) ∧ (∀ b ∈ log, BlockIn G b) ∧
      blocksLen (rowsPerCall c) log = n * (rowsPerCall c true + rowsPerCall c false) ∧ w'.heap.pos "local_stepper" = blocksLen (rowsPerCall c) log := by
  induction n with
  | zero =>
    refine ⟨w, [], .done _, by simpa using hready, hJ, hxG, hx, ?_, by simp, by simp [blocksLen], by simp [hcur, blocksLen]⟩
    rw [show Function.update (fun _ => ([] : List (Block F d))) false [] = fun _ => [] from Function.update_eq_self _ _]
    exact inv
  | succ n ih =>
    obtain ⟨w0, log, h0, hr0, hJ0, hxG0, hx0, inv0, hlogG, hbl0, hp0⟩ := ih (by omega)
    obtain ⟨w1, h1, hJ1, hxG1, hfr1⟩ := hP.total w0 hJ0 hx0 hxG0
    obtain ⟨-, hx1, hpos1, hres1⟩ := hP.quiet _ _ h1 hx0
    have inv1 : BundleInv c false w1.heap (Function.update (fun _ => []) false log) := inv0.congr (fun n hn _ => hres1 n hn) (by rw [hres1 _ (by decide)]; exact inv0.flow)
    have hr1 : TrainReady c w1.heap (n * c.nEpochs) := by
      obtain ⟨⟨m, hm⟩, ⟨o, ho⟩, lg, ⟨lb, hlb, hlr⟩, hlen⟩ := hr0
      exact ⟨⟨m, by rw [hfr1 _ (by decide), hm]⟩, ⟨o, by rw [hfr1 _ (by decide), ho]⟩, lg, ⟨lb, by rw [hfr1 _ (by decide), hlb], hlr⟩, hlen⟩
    have hmid := quietMid_train env c strats hs data
    have hfit : blocksLen (rowsPerCall c) (Function.update (fun _ => []) false log false) + (rowsPerCall c true + rowsPerCall c false) ≤ capacity c false := by
      rw [Function.update_self, hbl0, capacity_eq]
      calc _ = (n + 1) * (rowsPerCall c true + rowsPerCall c false) := by ring
        _ ≤ _ := Nat.mul_le_mul_right _ hnl
    have hused : n * c.nEpochs + c.nEpochs ≤ c.nTrainLoops * c.nEpochs := by
      calc _ = (n + 1) * c.nEpochs := by ring
        _ ≤ _ := Nat.mul_le_mul_right _ hnl
    have hmidT : ∀ b1 w2, LocalBlock env c data w1.key w1.xs b1 w2.xs → w2.xs.length = c.nChains →
        BundleInv c false w2.heap (Function.update (Function.update (fun _ => []) false log) false (Function.update (fun _ => []) false log false ++ [b1])) →
        (∀ n, ¬ IsSampleBuffer n → w2.heap.res n = w1.heap.res n) →
        ∃ w4, Completes env strats data ["model_trainer", "update_model"] w2 w4 ∧ TrainReady c w4.heap (n * c.nEpochs + c.nEpochs) := by
      intro b1 w2 hb1 hx2 inv2 hfr
      rw [Function.update_idem, Function.update_self] at inv2
      obtain ⟨b, hbuf, hsh, -, hcell⟩ := (inv2.recs false).pos
      have hsz := inv2.sized false
      rw [Function.update_self] at hcell hsz
      have hin : ∀ b ∈ log ++ [b1], BlockIn G b := by
        intro b' hb'
        simp only [List.mem_append, List.mem_singleton] at hb'
        rcases hb' with hb' | rfl
        · exact hlogG b' hb'
        · exact localBlock_in hG hc.localThin hb1 hxG1
      obtain ⟨q, hq, hqle⟩ := finiteRows_uniform hG.finite hsz hin b.data hcell
      have hbl1 : blocksLen (rowsPerCall c) (log ++ [b1]) = blocksLen (rowsPerCall c) log + rowsPerCall c true := by
        rw [blocksLen_append]; simp [blocksLen, hb1.1]
      have hpos := rowsPerCall_pos' hc true
      rw [Function.update_self] at hfit
      refine trainer_total env c strats hs data hn hb w2 (n * c.nEpochs) ?_ hused b _ q hbuf hsh hq (by omega) inv2.flow
      obtain ⟨⟨m, hm⟩, ⟨o, ho⟩, lg, ⟨lb, hlb, hlr⟩, hlen⟩ := hr1
      refine ⟨⟨m, ?_⟩, ⟨o, ?_⟩, lg, ⟨lb, ?_, hlr⟩, hlen⟩
      · rw [hfr _ (not_isSampleBuffer (by decide)), hm]
      · rw [hfr _ (not_isSampleBuffer (by decide)), ho]
      · rw [hfr _ (not_isSampleBuffer (by decide)), hlb]
    obtain ⟨w4, w', h2, hR, hfr⟩ := loop_total env hl c hc strats hs data false ["model_trainer", "update_model"] hmid w1 _ inv1 hx1
      (by rw [Function.update_self, hpos1]; exact hp0) hfit
      (fun w => TrainReady c w.heap (n * c.nEpochs + c.nEpochs)) hmidT
    have h2' : Completes env strats data (pre ++ trainingPhase) w0 w' := by rw [completes_append]; exact ⟨w1, h1, h2⟩
    obtain ⟨b1, b2, v1, v2, v4, m, -, hb1, hb2, ⟨hv1, -⟩, inv2, hx2, ht1, ht2, hp2, -⟩ := one_loop env hl c hc strats hs data false pre ["model_trainer", "update_model"] gap
      hP.quiet hmid w0 w' h2' _ inv0 hx0 (by rw [Function.update_self]; exact hp0) hfit
    have hv : v1 = w1 := completes_det hv1 h1
    subst hv
    have g1 := localBlock_in hG hc.localThin hb1 hxG1
    have g2 := globalBlock_in hG hc.globalThin hb2 (lastRows_in hb1.2.1 g1)
    rw [Function.update_self, Function.update_idem] at inv2
    rw [Function.update_self] at hp2
    refine ⟨w', log ++ [b1, b2], by rw [repeatPhase_succ, completes_append]; exact ⟨w0, h0, h2'⟩, ?_,
      hP.keep trainingPhase (fun n hn => List.mem_append_left _ hn) _ _ h2 hJ1, lastRows_in hb2.2.1 g2, hx2, inv2, ?_, ?_, hp2⟩
    · obtain ⟨⟨m, hm⟩, ⟨o, ho⟩, lg, ⟨lb, hlb, hlr⟩, hlen⟩ := hR
      refine ⟨⟨m, ?_⟩, ⟨o, ?_⟩, lg, ⟨lb, ?_, hlr⟩, by rw [hlen]; ring⟩
      · rw [hfr _ (not_isSampleBuffer (by decide)), hm]
      · rw [hfr _ (not_isSampleBuffer (by decide)), ho]
      · rw [hfr _ (not_isSampleBuffer (by decide)), hlb]
    · intro b hb
      simp only [List.mem_append, List.mem_cons, List.not_mem_nil, or_false] at hb
      rcases hb with hb | rfl | rfl
      · exact hlogG b hb
      · exact g1
      · exact g2
    · rw [blocksLen_append, hbl0]
      simp [blocksLen, ht1, ht2]
      ring

/-- Any number of production loops completes. -/
theorem production_total_pre (env : Env F D d M O) (hl : env.ops.Lawful) (c : BundleCfg F D d M O) (hc : GoodCfg c) (strats : String → Option (Strategy F D d M O))
    (hs : HasCore c strats) (data : Data D) (G : Pos F d → Prop) (hG : StaysIn env c data G)
    (pre : List String) (gap : List (Pos F d) → List (Pos F d) → Prop) (J : World F D d M O → Prop) (hP : PreTotal env c strats data pre gap G J) (w : World F D d M O)
    (hJ : J w) (logs : Bool → List (Block F d)) (hlogs : logs true = []) (inv : BundleInv c true w.heap logs) (hx : w.xs.length = c.nChains) (hxG : ∀ x ∈ w.xs, G x)
    (hcur : w.heap.pos "local_stepper" = 0) (n : Nat) (hnl : n ≤ c.nProdLoops) :
    ∃ w' log, Completes env strats data (repeatPhase n (pre ++ productionPhase)) w w' ∧ J w' ∧ (∀ x ∈ w'.xs, G x) ∧ w'.xs.length = c.nChains ∧
      BundleInv c true w'.heap (Function.update logs true log) ∧
      blocksLen (rowsPerCall c) log = n * (rowsPerCall c true + rowsPerCall c false) ∧ w'.heap.pos "local_stepper" = blocksLen (rowsPerCall c) log := by
  induction n with
  | zero =>
    refine ⟨w, [], .done _, hJ, hxG, hx, ?_, by simp [blocksLen], by simp [hcur, blocksLen]⟩
    rw [← hlogs, Function.update_eq_self]
    exact inv
  | succ n ih =>
    obtain ⟨w0, log, h0, hJ0, hxG0, hx0, inv0, hbl0, hp0⟩ := ih (by omega)
    obtain ⟨w1, h1, hJ1, hxG1, hfr1⟩ := hP.total w0 hJ0 hx0 hxG0
    obtain ⟨-, hx1, hpos1, hres1⟩ := hP.quiet _ _ h1 hx0
    have inv1 : BundleInv c true w1.heap (Function.update logs true log) := inv0.congr (fun n hn _ => hres1 n hn) (by rw [hres1 _ (by decide)]; exact inv0.flow)
    have hmid := quietMid_nil env c strats data
    have hfit : blocksLen (rowsPerCall c) (Function.update logs true log true) + (rowsPerCall c true + rowsPerCall c false) ≤ capacity c true := by
      rw [Function.update_self, hbl0, capacity_eq]
      calc _ = (n + 1) * (rowsPerCall c true + rowsPerCall c false) := by ring
        _ ≤ _ := Nat.mul_le_mul_right _ hnl
    obtain ⟨-, w', h2, -⟩ := loop_total env hl c hc strats hs data true [] hmid w1 _ inv1 hx1 (by rw [Function.update_self, hpos1]; exact hp0) hfit
      (fun _ => True) (fun _ w2 _ _ _ _ => ⟨w2, .done _, trivial⟩)
    have h2' : Completes env strats data (pre ++ productionPhase) w0 w' := by rw [completes_append]; exact ⟨w1, h1, h2⟩
    obtain ⟨b1, b2, v1, v2, v4, m, -, hb1, hb2, ⟨hv1, -⟩, inv2, hx2, ht1, ht2, hp2, -⟩ := one_loop env hl c hc strats hs data true pre [] gap
      hP.quiet hmid w0 w' h2' _ inv0 hx0 (by rw [Function.update_self]; exact hp0) hfit
    have hv : v1 = w1 := completes_det hv1 h1
    subst hv
    have g1 := localBlock_in hG hc.localThin hb1 hxG1
    have g2 := globalBlock_in hG hc.globalThin hb2 (lastRows_in hb1.2.1 g1)
    rw [Function.update_self, Function.update_idem] at inv2
    rw [Function.update_self] at hp2
    refine ⟨w', log ++ [b1, b2], by rw [repeatPhase_succ, completes_append]; exact ⟨w0, h0, h2'⟩,
      hP.keep productionPhase (by decide) _ _ h2 hJ1, lastRows_in hb2.2.1 g2, hx2, inv2, ?_, hp2⟩
    rw [blocksLen_append, hbl0]
    simp [blocksLen, ht1, ht2]
    ring

/-- A whole run completes. -/
theorem order_total_pre (env : Env F D d M O) (hl : env.ops.Lawful) (c : BundleCfg F D d M O) (hc : GoodCfg c) (strats : String → Option (Strategy F D d M O))
    (hs : HasCore c strats) (data : Data D) (hn : 0 < c.nChains) (hb : 0 < c.batchSize) (G : Pos F d → Prop) (hG : StaysIn env c data G)
    (pre : List String) (gap : List (Pos F d) → List (Pos F d) → Prop) (J : World F D d M O → Prop) (hP : PreTotal env c strats data pre gap G J) (w : World F D d M O)
    (hJ : J w) (inv : BundleInv c false w.heap (fun _ => [])) (hx : w.xs.length = c.nChains) (hxG : ∀ x ∈ w.xs, G x)
    (hcur : w.heap.pos "local_stepper" = 0) (hready : TrainReady c w.heap 0) :
    ∃ w2 w', Completes env strats data (repeatPhase c.nTrainLoops (pre ++ trainingPhase) ++ ["reset_steppers", "update_state"]) w w2 ∧
      Completes env strats data (repeatPhase c.nProdLoops (pre ++ productionPhase)) w2 w' := by
  obtain ⟨wT, log, h1, -, hJ1, hxG1, hx1, inv1, -⟩ := training_total_pre env hl c hc strats hs data hn hb G hG pre gap J hP w hJ inv hx hxG hcur hready c.nTrainLoops le_rfl
  obtain ⟨w2, h2⟩ := switch_total env c _ hs data wT _ inv1
  obtain ⟨hx2, -, inv2, hp2, -, -, -⟩ := switch_step env c _ hs data wT w2 h2 _ inv1
  obtain ⟨w', -, h3, -⟩ := production_total_pre env hl c hc strats hs data G hG pre gap J hP w2 (hP.keep _ (by decide) _ _ h2 hJ1) _ (by simp) inv2 (by rw [hx2, hx1])
    (by rw [hx2]; exact hxG1) hp2 c.nProdLoops le_rfl
  exact ⟨w2, w', by rw [completes_append]; exact ⟨wT, h1, h2⟩, h3⟩

/-! ### the tempering strategy -/

/-- What a tempering call needs, the replicas are in `G`, and the ladder satisfies `L`. -/
structure TemperReady (c : BundleCfg F D d M O) (p : PTCfg F D d) (L : List F → Prop) (G : Pos F d → Prop) (w : World F D d M O) : Prop where
  inv : PTInv c p w
  temps : ∃ tb, w.heap.res "temperatures" = some (.buffer tb) ∧ L (ladder tb (p.nTemps - 1))
  reps : ∃ pb, w.heap.res "tempered_positions" = some (.buffer pb) ∧ ∀ i < c.nChains, ∀ j < p.nTemps - 1, G (row3 pb.data i j)

/-- The steps of the local kernel at any temperature of a ladder with `L` stay in `G`, and `L` is kept when the ladder adapts. -/
structure TemperStays (env : Env F D d M O) (c : BundleCfg F D d M O) (p : PTCfg F D d) (data : Data D) (L : List F → Prop) (G : Pos F d → Prop) : Prop where
  adapt : ∀ Ts accs, accs.length = c.nChains → L Ts → L (adaptTemperature Ts accs)
  stays : ∀ Ts, L Ts → ∀ T ∈ Ts, ∀ vs k x, G x → G (individualStep (fun k x lp t data => malaKernel env.rng c.stepSize k x lp t data) ⟨⟨c.logpdf, vs⟩, p.logprior⟩ data (temperedSteps c p) k x T)

theorem walkers_in {env : Env F D d M O} {c : BundleCfg F D d M O} {p : PTCfg F D d} {data : Data D} {L : List F → Prop} {G : Pos F d → Prop} (hT : TemperStays env c p data L G)
    (k : Key) (xs : List (Pos F d)) (m : Nat) (pb tb : Buffer F) (vs : List Variable) (htb : L (ladder tb m)) (hxs : ∀ x ∈ xs, G x) (hpb : ∀ i < xs.length, ∀ j < m, G (row3 pb.data i j)) :
    ∀ e ∈ temperedWalkers env.rng (ptStrat c p) k xs data m pb tb (fun k x lp t data => malaKernel env.rng c.stepSize k x lp t data) ⟨⟨c.logpdf, vs⟩, p.logprior⟩,
      ∀ x ∈ e.1.positions, G x := by
  intro e he x hx
  simp only [temperedWalkers, List.mem_map, Prod.exists] at he
  obtain ⟨r, i, hr, rfl⟩ := he
  have hx' := (C30_exchange_permutes env.rng _ data _ _ _).1.mem_iff.1 hx
  simp only [ensembleStep, List.mem_map, Prod.exists] at hx'
  obtain ⟨k', y, T, hy, rfl⟩ := hx'
  refine hT.stays _ htb T (List.of_mem_zip (List.of_mem_zip hy).2).2 vs k' y ?_
  have hyr : y ∈ r := (List.of_mem_zip (List.of_mem_zip hy).2).1
  have hr' : r ∈ xs.zipIdx.map (fun xi => xi.1 :: (List.range m).map (fun j => (row3 pb.data xi.2 j : Pos F d))) := by
    obtain ⟨h1, h2, h3⟩ := List.mem_zipIdx hr
    rw [h3]
    exact List.getElem_mem _
  simp only [List.mem_map, Prod.exists] at hr'
  obtain ⟨x0, i0, hx0, rfl⟩ := hr'
  obtain ⟨-, h2, h3⟩ := List.mem_zipIdx hx0
  simp only [List.mem_cons, List.mem_map, List.mem_range] at hyr
  rcases hyr with rfl | ⟨j, hj, rfl⟩
  · rw [h3]; exact hxs _ (List.getElem_mem _)
  · exact hpb i0 (by omega) j hj

theorem temper_total {env : Env F D d M O} {c : BundleCfg F D d M O} {p : PTCfg F D d} {data : Data D} {L : List F → Prop} {G : Pos F d → Prop} (hT : TemperStays env c p data L G)
    (hn : 1 ≤ p.nTemps) (w : World F D d M O) (hw : TemperReady c p L G w) (hxs : ∀ x ∈ w.xs, G x) :
    ∃ w1, Completes env (ptStrategies c p).lookup data ["parallel_tempering"] w w1 ∧ TemperReady c p L G w1 ∧ (∀ x ∈ w1.xs, G x) ∧
      ∀ n, n ≠ "tempered_positions" → n ≠ "temperatures" → w1.heap.res n = w.heap.res n := by
  obtain ⟨pb0, hpb0, hG0⟩ := hw.reps
  obtain ⟨pb, tb, q, vs, site, hq, hone, hdim⟩ := hw.inv.site hn env
  have hpbe : pb0 = pb := by
    have := site.posBuf
    rw [hpb0] at this
    simpa using this
  subst hpbe
  obtain ⟨tb0, htb0, hL0⟩ := hw.temps
  have htbe : tb0 = tb := by
    have := site.tempBuf
    rw [htb0] at this
    simpa using this
  subst htbe
  have hin := walkers_in hT w.key w.xs (p.nTemps - 1) pb0 tb0 vs hL0 hxs (by rw [hw.inv.chains]; exact hG0)
  have hlen := temperedWalkers_length env.rng (ptStrat c p) w.key w.xs data (p.nTemps - 1) pb0 tb0 (fun k x lp t data => malaKernel env.rng c.stepSize k x lp t data)
    ⟨⟨c.logpdf, vs⟩, p.logprior⟩
  have hlook : (ptStrategies c p).lookup "parallel_tempering" = some (.parallelTempering (ptStrat c p)) := rfl
  have hcold : ∀ x ∈ (temperedWalkers env.rng (ptStrat c p) w.key w.xs data (p.nTemps - 1) pb0 tb0 (fun k x lp t data => malaKernel env.rng c.stepSize k x lp t data)
      ⟨⟨c.logpdf, vs⟩, p.logprior⟩).filterMap (fun e => e.1.positions.head?), G x := by
    intro x hx
    obtain ⟨e, he, hx⟩ := List.mem_filterMap.1 hx
    exact hin e he x (List.mem_of_head? hx)
  cases q with
  | true =>
    have r := C35_frozen env _ w.key w.xs data _ _ _ _ pb0 tb0 _ _ _ site rfl
    have hinv := ptInv_step env c p hn data "parallel_tempering" _ w _ _ _ hlook hw.inv (by simp only [Strategy.run]; exact r)
    exact ⟨_, .next hlook (by simp only [Strategy.run]; exact r) (.done _), ⟨hinv, ⟨tb0, htb0, hL0⟩, pb0, hpb0, hG0⟩, hcold, fun _ _ _ => rfl⟩
  | false =>
    obtain ⟨h2, pb', tb', r2, fr, -, hpb, -, -, hd, hsh, hcell, htb, -, -, -, -, hlad⟩ := C35_training env _ w.key w.xs data _ _ _ _ pb0 tb0 _ _ _ site rfl
    have hinv := ptInv_step env c p hn data "parallel_tempering" _ w _ _ _ hlook hw.inv (by simp only [Strategy.run]; exact r2)
    refine ⟨_, .next hlook (by simp only [Strategy.run]; exact r2) (.done _), ⟨hinv, ⟨tb', htb, by rw [hlad]; exact hT.adapt _ _ (by rw [List.length_map, hlen.1, hw.inv.chains]) hL0⟩, pb', hpb, ?_⟩, hcold, fun n h1 h2 => fr n h1 h2⟩
    intro i hi j hj
    obtain ⟨hl1, hl2⟩ := hlen
    have hi' : i < (temperedWalkers env.rng (ptStrat c p) w.key w.xs data (p.nTemps - 1) pb0 tb0 (fun k x lp t data => malaKernel env.rng c.stepSize k x lp t data)
      ⟨⟨c.logpdf, vs⟩, p.logprior⟩).length := by rw [hl1, hw.inv.chains]; exact hi
    have he := List.getElem_mem hi'
    have hj' := hl2 _ he
    have hrow : (row3 pb'.data i j : Pos F d) = ((temperedWalkers env.rng (ptStrat c p) w.key w.xs data (p.nTemps - 1) pb0 tb0
        (fun k x lp t data => malaKernel env.rng c.stepSize k x lp t data) ⟨⟨c.logpdf, vs⟩, p.logprior⟩)[i]).1.positions[j + 1]'(by rw [hj']; omega) := by
      funext a
      exact hcell i j _ _ (List.getElem?_eq_getElem hi') (List.getElem?_eq_getElem (by rw [hj']; omega)) a
    rw [hrow]
    exact hin _ he _ (List.getElem_mem _)

theorem preTotal_tempering (env : Env F D d M O) (c : BundleCfg F D d M O) (p : PTCfg F D d) (hn : 1 ≤ p.nTemps) (data : Data D) (L : List F → Prop) (G : Pos F d → Prop)
    (hT : TemperStays env c p data L G) :
    PreTotal env c (ptStrategies c p).lookup data ["parallel_tempering"] (TemperingCall env c p data) G (TemperReady c p L G) where
  quiet := quietPre_tempering env c p data
  total := by
    intro w hw _ hxs
    obtain ⟨w1, h1, h2, h3, h4⟩ := temper_total hT hn w hw hxs
    exact ⟨w1, h1, h2, h3, fun n hn => h4 n (by rintro rfl; revert hn; decide) (by rintro rfl; revert hn; decide)⟩
  keep := by
    intro names hnames
    refine completes_keeps (I := TemperReady c p L G) names ?_
    intro name hname s w k' xs' h' hs hi hr
    obtain ⟨q, st, hst, hp, -⟩ := hi.inv.phase
    have hf : ∀ n ∈ ["tempered_positions", "temperatures"], h'.res n = w.heap.res n := by
      intro n hn
      have := strat_frame env c _ (.pt p) q name s hs w.key w.xs data w.heap ⟨st, hst, hp⟩ n (by
        have := hnames name hname
        simp only [trainingPhase, List.cons_append, List.nil_append, List.mem_cons, List.not_mem_nil, or_false] at this hn
        rcases hn with rfl | rfl <;> rcases this with rfl | rfl | rfl | rfl | rfl | rfl | rfl | rfl <;> cases q <;> decide)
      rw [hr] at this
      exact this
    refine ⟨ptInv_step env c p hn data name s w k' xs' h' hs hi.inv hr, ?_, ?_⟩
    · obtain ⟨tb, h1, h2⟩ := hi.temps
      exact ⟨tb, by rw [← h1]; exact hf _ (by decide), h2⟩
    · obtain ⟨pb, h1, h2⟩ := hi.reps
      exact ⟨pb, by rw [← h1]; exact hf _ (by decide), h2⟩

/-- Steps at a temperature keep coordinates finite if the tempered density is NaN or `-inf` wherever a coordinate is not finite. -/
theorem individual_finite [Ieee F] (env : Env F D d M O) (c : BundleCfg F D d M O) (p : PTCfg F D d) (data : Data D) (T : F) (vs : List Variable)
    (hbad : ∀ x i, BufNum.isFinite (x i) = false → Ieee.Bad (((⟨⟨c.logpdf, vs⟩, p.logprior⟩ : TemperedPDF F D d).tempered T).val x data)) (k : Key) (x : Pos F d)
    (hx : ∀ i, BufNum.isFinite (x i) = true) :
    ∀ i, BufNum.isFinite (individualStep (fun k x lp t data => malaKernel env.rng c.stepSize k x lp t data) ⟨⟨c.logpdf, vs⟩, p.logprior⟩ data (temperedSteps c p) k x T i) = true := by
  set K : LocalKernel F D d := fun k x lp t data => malaKernel env.rng c.stepSize k x lp t data
  set t := (⟨⟨c.logpdf, vs⟩, p.logprior⟩ : TemperedPDF F D d).tempered T with ht
  have hgood : ∀ y : Pos F d, ¬ Ieee.Bad (t.val y data) → ∀ i, BufNum.isFinite (y i) = true := by
    intro y hy i
    by_contra hf
    exact hy (hbad y i (by simpa using hf))
  suffices h : ∀ n k y lp, (∀ i, BufNum.isFinite (y i) = true) → ∀ i, BufNum.isFinite ((scanN (localBody K t data) n (k, y, lp)).1.2.1 i) = true from h _ k x _ hx
  intro n
  induction n with
  | zero => intro k y lp hy; exact hy
  | succ n ih =>
    intro k y lp hy
    simp only [scanN]
    refine ih _ _ _ ?_
    show ∀ i, BufNum.isFinite ((K (split k).2 y lp t data).pos i) = true
    cases hacc : (K (split k).2 y lp t data).acc with
    | true => exact hgood _ (C20_kernel env.rng (.mala c.stepSize : KernelRes F d M) K rfl _ y lp t data hacc)
    | false => rw [local?_stays env.rng (.mala c.stepSize : KernelRes F d M) K rfl _ y lp t data hacc]; exact hy

theorem temperStays_prior [Ieee F] (env : Env F D d M O) (c : BundleCfg F D d M O) (p : PTCfg F D d) (data : Data D)
    (hprior : ∀ x i, BufNum.isFinite (x i) = false → Ieee.Bad (p.logprior.val x data)) :
    TemperStays env c p data (fun _ => True) (fun x => ∀ i, BufNum.isFinite (x i) = true) where
  adapt _ _ _ _ := trivial
  stays := by
    intro Ts _ T _ vs k x hx
    refine individual_finite env c p data T vs ?_ k x hx
    intro y i hi
    show Ieee.Bad (_ + p.logprior.val y data)
    rcases hprior y i hi with hb | hb
    · exact Or.inl (Ieee.nan_add _ _ (Or.inr hb))
    · rw [hb]
      exact (Ieee.add_negInf _).symm

/-- The initial copy of the positions to the replicas. -/
theorem initTempered_total (env : Env F D d M O) (c : BundleCfg F D d M O) (p : PTCfg F D d) (hn : 1 ≤ p.nTemps) (data : Data D) (L : List F → Prop) (G : Pos F d → Prop) (w : World F D d M O)
    (hw : PTInv c p w) (hL : ∃ tb, w.heap.res "temperatures" = some (.buffer tb) ∧ L (ladder tb (p.nTemps - 1))) (hxs : ∀ x ∈ w.xs, G x) :
    ∃ h1, (Strategy.lambda (initTempered p)).run env w.key w.xs data w.heap = (.ok (w.key, w.xs), h1) ∧ TemperReady c p L G ⟨w.key, w.xs, h1⟩ ∧
      (∀ n, n ≠ "tempered_positions" → h1.res n = w.heap.res n) ∧ h1.pos = w.heap.pos := by
  obtain ⟨pb, hp1, hp2, hp3⟩ := hw.reps
  obtain ⟨b', hb, -, -, hbd, hbs, hcell⟩ := replaceAll w.heap "tempered_positions" pb hp1
    (arr3 BufNum.negInf w.xs.length (p.nTemps - 1) (w.xs.map (fun x => List.replicate (p.nTemps - 1) x)))
    (by simp [arr3, hp2, hw.chains]) (by rw [hp2, hp3]; simp)
  have hrun : (Strategy.lambda (initTempered p)).run env w.key w.xs data w.heap = (.ok (w.key, w.xs), w.heap.setRes "tempered_positions" (.buffer b')) := by
    simp only [Strategy.run, runLambda, initTempered, hb]
  have hlook : (ptStrategies c p).lookup "initialize_tempered_positions" = some (.lambda (initTempered p)) := rfl
  refine ⟨_, hrun, ⟨ptInv_step env c p hn data "initialize_tempered_positions" _ w _ _ _ hlook hw hrun, ?_, b', by simp [Heap.setRes, dictSet], ?_⟩, ?_, rfl⟩
  · obtain ⟨tb, h1, h2⟩ := hL
    exact ⟨tb, by simpa [Heap.setRes, dictSet] using h1, h2⟩
  · intro i hi j hj
    have hi' : i < w.xs.length := by rw [hw.chains]; exact hi
    have : (row3 b'.data i j : Pos F d) = w.xs[i] := by
      funext a
      show b'.data.get [i, j, a.val] = _
      rw [hcell [i, j, a.val] (by simp [hp2, InBounds, hi, hj])]
      simp [arr3, List.getElem?_map, List.getElem?_eq_getElem hi', hj]
    rw [this]
    exact hxs _ (List.getElem_mem _)
  · intro n h
    simp [Heap.setRes, dictSet, h]

/-- A run of the tempered bundle completes if both bundles' steps stay in the positions with finite coordinates. -/
theorem temper_sample_total [Ieee F] (env : Env F D d M O) (hl : env.ops.Lawful) (c : BundleCfg F D d M O) (hc : GoodCfg c) (p : PTCfg F D d) (hT : 1 ≤ p.nTemps)
    (hn : 0 < c.nChains) (hb : 0 < c.batchSize)
    (data : Data D) (hig : IgnoresNSteps c.logpdf) (hbad : ∀ x i, BufNum.isFinite (x i) = false → Ieee.Bad (c.logpdf.val x data))
    (L : List F → Prop) (hstay : TemperStays env c p data L (fun x => ∀ i, BufNum.isFinite (x i) = true))
    (hL : L ((List.range p.nTemps).map (linspace1 p.maxTemp p.nTemps)))
    (n nc : Nat) (key : Key) (kw : List (String × V)) (s : Sampler F D d M O V) (hs : Sampler.new n nc key none none none (some (ptBundle c p)) kw = .ok s)
    (init : InitPos F d) (hx : init.atleast2d.length = c.nChains) (hinit : ∀ x ∈ init.atleast2d, ∀ i, BufNum.isFinite (x i) = true) :
    ∃ s', s.sample env init data = (.ok (), s') := by
  simp only [Sampler.new, Except.ok.injEq] at hs
  subst hs
  have hG := staysIn_finite env hl c hc data hig hbad
  have hP := preTotal_tempering env c p hT data L _ hstay
  have hfresh := ptInv_fresh c p hT key init.atleast2d hx (fun _ => 0)
  obtain ⟨h1, hr1, hJ1, hfr1, hpos1⟩ := initTempered_total env c p hT data L (fun x => ∀ i, BufNum.isFinite (x i) = true) _ hfresh ⟨_, rfl, by
    have : ladder ({ (Buffer.new "temperature" [p.nTemps] 0 : Buffer F) with data := arr1 BufNum.negInf ((List.range p.nTemps).map (linspace1 p.maxTemp p.nTemps)) } : Buffer F)
        (p.nTemps - 1) = (List.range p.nTemps).map (linspace1 p.maxTemp p.nTemps) := by
      unfold ladder
      rw [Nat.sub_add_cancel hT]
      apply List.map_congr_left
      intro i hi
      rw [List.mem_range] at hi
      simp [arr1, hi]
    rw [this]; exact hL⟩ hinit
  have hready : TrainReady c h1 0 := by
    refine ⟨⟨c.flow, by rw [hfr1 _ (by decide)]; rfl⟩, ⟨c.mkOptim c.flow, by rw [hfr1 _ (by decide)]; rfl⟩, [], ⟨_, by rw [hfr1 _ (by decide)]; rfl, rfl, rfl, rfl, by simp⟩, rfl⟩
  have inv := bundleInv_fresh c h1 (fun n hn => by
      rw [hfr1 n (by rintro rfl; revert hn; decide)]
      simp only [coreNames, List.mem_cons, List.not_mem_nil, or_false] at hn
      rcases hn with rfl | rfl | rfl | rfl | rfl | rfl | rfl | rfl | rfl | rfl | rfl | rfl <;> rfl)
  obtain ⟨w, w', h2, h3⟩ := order_total_pre env hl c hc _ (pt_hasCore c p) data hn hb _ hG _ _ _ hP ⟨key, init.atleast2d, h1⟩ hJ1 inv hx hinit (by simp only [hpos1]) hready
  have h4 : Completes env (ptStrategies c p).lookup data (ptOrder c) ⟨key, init.atleast2d, ⟨ptResources c p, fun _ => 0⟩⟩ w' := by
    have h5 : Completes env (ptStrategies c p).lookup data (loopOrder c ["parallel_tempering"]) ⟨key, init.atleast2d, h1⟩ w' := by
      rw [loopOrder, completes_append]; exact ⟨w, h2, h3⟩
    exact .next (s := .lambda (initTempered p)) rfl hr1 h5
  have h6 := completes_sample h4
  refine ⟨_, Prod.ext ?_ rfl⟩
  unfold Sampler.sample
  simp only [ptBundle]
  rw [show (ptStrategies c p).cursors = fun _ => 0 from rfl]
  rw [h6]

/-- **C66, tempered bundle.** `Sampler(rqs_mala_pt_bundle).sample` never raises either: with valid settings as in `C66_never_raises`, at least one temperature, and a
log-density and a log-prior that are NaN or `-inf` wherever a coordinate is not finite — for every maximal temperature and however the temperatures adapt. -/
theorem C66_tempered_never_raises [Ieee F] (env : Env F D d M O) (hl : env.ops.Lawful) (c : BundleCfg F D d M O) (hc : GoodCfg c) (p : PTCfg F D d) (hT : 1 ≤ p.nTemps)
    (hn : 0 < c.nChains) (hb : 0 < c.batchSize)
    (data : Data D) (hig : IgnoresNSteps c.logpdf) (hbad : ∀ x i, BufNum.isFinite (x i) = false → Ieee.Bad (c.logpdf.val x data))
    (hprior : ∀ x i, BufNum.isFinite (x i) = false → Ieee.Bad (p.logprior.val x data))
    (n nc : Nat) (key : Key) (kw : List (String × V)) (s : Sampler F D d M O V) (hs : Sampler.new n nc key none none none (some (ptBundle c p)) kw = .ok s)
    (init : InitPos F d) (hx : init.atleast2d.length = c.nChains) (hinit : ∀ x ∈ init.atleast2d, ∀ i, BufNum.isFinite (x i) = true) :
    ∃ s', s.sample env init data = (.ok (), s') := by
  exact temper_sample_total env hl c hc p hT hn hb data hig hbad _ (temperStays_prior env c p data hprior) trivial n nc key kw s hs init hx hinit

/-! ### any prior, over the reals with infinities -/

/-- All temperatures are real numbers of at least 1, and those below the top do not decrease. -/
def Spec.HotLadder (Ts : List XR) : Prop := ∃ Rs : List ℝ, Ts = Rs.map XR.fin ∧ (∀ r ∈ Rs, 1 ≤ r) ∧ List.IsChain (· ≤ ·) Rs.dropLast

theorem damping_fin (accs : List (List Bool)) (h : 0 < accs.length) (i : Nat) : ∃ r : ℝ, (damping accs i : XR) = .fin r := by
  have hn : ((accs.length : ℕ) : ℝ) ≠ 0 := by positivity
  refine ⟨(100 : ℕ) / (accs.length : ℝ) * (accRate accs i - accRate accs (i + 1)), ?_⟩
  have hr : ∀ i, (accRate accs i : XR) = .fin (accRate accs i : ℝ) := by
    intro i
    unfold accRate
    rw [XR.nat_eq, XR.nat_eq, XR.fin_div _ _ hn]
  unfold damping
  rw [hr, hr, XR.nat_eq, XR.nat_eq, XR.fin_div _ _ hn, XR.fin_sub, XR.fin_mul]

theorem adaptLoop_hot (accs : List (List Bool)) (h : 0 < accs.length) (rs : List ℝ) : ∀ (i : Nat) (prev told : ℝ), 1 ≤ prev → (∀ r ∈ rs, 1 ≤ r) →
    List.IsChain (· ≤ ·) (told :: rs).dropLast → ∃ rs' : List ℝ, adaptLoop accs i (XR.fin prev) (XR.fin told) (rs.map XR.fin) = rs'.map XR.fin ∧ (∀ r ∈ rs', 1 ≤ r) ∧
      List.IsChain (· ≤ ·) (prev :: rs').dropLast := by
  induction rs with
  | nil => intro i prev told _ _ _; exact ⟨[], rfl, by simp, by simp⟩
  | cons t ts ih =>
    intro i prev told hprev hall hchain
    cases ts with
    | nil => exact ⟨[t], rfl, hall, by simp⟩
    | cons t' ts =>
      obtain ⟨r, hr⟩ := damping_fin accs h (i - 1)
      have hle : told ≤ t := by
        simp only [List.dropLast_cons_cons, List.isChain_cons_cons] at hchain
        exact hchain.1
      have hge : prev ≤ prev + (t - told) * Real.exp r := by
        have := mul_nonneg (sub_nonneg.2 hle) (Real.exp_pos r).le
        linarith
      have hchain' : List.IsChain (· ≤ ·) (t :: t' :: ts).dropLast := by
        simp only [List.dropLast_cons_cons, List.isChain_cons_cons] at hchain ⊢
        exact hchain.2
      obtain ⟨rs', h1, h2, h3⟩ := ih (i + 1) (prev + (t - told) * Real.exp r) t (hprev.trans hge) (fun r hr => hall r (List.mem_cons_of_mem _ hr)) hchain'
      refine ⟨(prev + (t - told) * Real.exp r) :: rs', ?_, ?_, ?_⟩
      · simp only [List.map_cons, adaptLoop, hr]
        have e : XR.fin prev + (XR.fin t - XR.fin told) * Transc.exp (XR.fin r) = XR.fin (prev + (t - told) * Real.exp r) := by
          rw [XR.fin_sub]
          show XR.fin prev + XR.fin (t - told) * XR.fin (Real.exp r) = _
          rw [XR.fin_mul, XR.fin_add]
        rw [e]
        simp only [List.map_cons] at h1
        rw [h1]
      · intro x hx
        rcases List.mem_cons.1 hx with rfl | hx
        · exact hprev.trans hge
        · exact h2 x hx
      · cases rs' with
        | nil => simp
        | cons a as =>
          simp only [List.dropLast_cons_cons] at h3 ⊢
          exact List.isChain_cons_cons.2 ⟨hge, h3⟩

theorem hotLadder_adapt (Ts : List XR) (accs : List (List Bool)) (h : 0 < accs.length) (hT : HotLadder Ts) : HotLadder (adaptTemperature Ts accs) := by
  obtain ⟨Rs, rfl, h1, h2⟩ := hT
  cases Rs with
  | nil => exact ⟨[], rfl, by simp, by simp⟩
  | cons r rs =>
    obtain ⟨rs', e, h3, h4⟩ := adaptLoop_hot accs h rs 1 r r (h1 r List.mem_cons_self) (fun x hx => h1 x (List.mem_cons_of_mem _ hx)) h2
    refine ⟨r :: rs', ?_, ?_, h4⟩
    · simp only [List.map_cons, adaptTemperature, e]
    · intro x hx
      rcases List.mem_cons.1 hx with rfl | hx
      · exact h1 _ List.mem_cons_self
      · exact h3 x hx

theorem bad_div_temperature (r : ℝ) (hr : 1 ≤ r) (a b : XR) (ha : Ieee.Bad a) : Ieee.Bad (1 / XR.fin r * a + b) := by
  have h1 : (1 : XR) / XR.fin r = .fin (1 / r) := by rw [XR.one_eq, XR.fin_div _ _ (by linarith)]
  have hpos : 0 < 1 / r := by positivity
  have h2 : Ieee.Bad (XR.fin (1 / r) * a) := by
    rcases ha with ha | ha
    · left
      have : a = .nan := ha
      subst this
      rfl
    · right
      have : a = .ninf := ha
      subst this
      show XR.mul (XR.fin (1 / r)) XR.ninf = .ninf
      simp only [XR.mul]
      rw [if_neg hpos.ne', if_pos hpos]
  rw [h1]
  rcases h2 with h2 | h2
  · exact Or.inl (Ieee.nan_add _ _ (Or.inl h2))
  · rw [h2]; exact (Ieee.negInf_add _).symm

theorem temperStays_hot (env : Env XR D d M O) [BufNum XR] (c : BundleCfg XR D d M O) (hn : 0 < c.nChains) (p : PTCfg XR D d) (data : Data D)
    (hbad : ∀ x i, BufNum.isFinite (x i) = false → Ieee.Bad (c.logpdf.val x data)) :
    TemperStays env c p data HotLadder (fun x => ∀ i, BufNum.isFinite (x i) = true) where
  adapt Ts accs hlen hT := hotLadder_adapt Ts accs (by omega) hT
  stays := by
    rintro Ts ⟨Rs, rfl, h1, -⟩ T hT vs k x hx
    obtain ⟨r, hr, rfl⟩ := List.mem_map.1 hT
    refine individual_finite env c p data _ vs ?_ k x hx
    intro y i hi
    exact bad_div_temperature r (h1 r hr) _ _ (hbad y i hi)

theorem hotLadder_initial (M : ℝ) (hM : 1 ≤ M) (n : Nat) : HotLadder ((List.range n).map (linspace1 (XR.fin M) n)) := by
  have key : ∀ i, i < n → ∃ r : ℝ, linspace1 (XR.fin M) n i = .fin r ∧ 1 ≤ r ∧ (i + 1 < n → r = 1 + (i : ℝ) / ((n - 1 : ℕ) : ℝ) * (M - 1)) := by
    intro i hi
    unfold linspace1
    by_cases h0 : i = 0
    · subst h0
      exact ⟨1, by rw [if_pos rfl]; rfl, le_refl _, fun _ => by simp⟩
    · rw [if_neg h0]
      by_cases h1 : i + 1 = n
      · exact ⟨M, by rw [if_pos h1], hM, fun h => by omega⟩
      · rw [if_neg h1]
        have hn : ((n - 1 : ℕ) : ℝ) ≠ 0 := by
          have : n - 1 ≠ 0 := by omega
          exact_mod_cast this
        refine ⟨1 + (i : ℝ) / ((n - 1 : ℕ) : ℝ) * (M - 1), ?_, ?_, fun _ => rfl⟩
        · rw [XR.nat_eq, XR.nat_eq, XR.one_eq, XR.fin_div _ _ hn, XR.fin_sub, XR.fin_mul, XR.fin_add]
        · have h2 : (0 : ℝ) ≤ (i : ℝ) / ((n - 1 : ℕ) : ℝ) := by positivity
          have : 0 ≤ (i : ℝ) / ((n - 1 : ℕ) : ℝ) * (M - 1) := mul_nonneg h2 (by linarith)
          linarith
  have key' : ∀ i, ∃ r : ℝ, i < n → linspace1 (XR.fin M) n i = .fin r ∧ 1 ≤ r ∧ (i + 1 < n → r = 1 + (i : ℝ) / ((n - 1 : ℕ) : ℝ) * (M - 1)) := by
    intro i
    by_cases h : i < n
    · obtain ⟨r, hr⟩ := key i h
      exact ⟨r, fun _ => hr⟩
    · exact ⟨0, fun h' => absurd h' h⟩
  choose f hf using key'
  refine ⟨(List.range n).map f, ?_, ?_, ?_⟩
  · rw [List.map_map]; exact List.map_congr_left fun i hi => (hf i (List.mem_range.1 hi)).1
  · intro r hr
    obtain ⟨i, hi, rfl⟩ := List.mem_map.1 hr
    exact (hf i (List.mem_range.1 hi)).2.1
  · cases n with
    | zero => simp
    | succ n =>
      rw [List.range_succ, List.map_append, List.map_singleton, List.dropLast_concat]
      rw [List.isChain_iff_getElem]
      intro i hi
      simp only [List.length_map, List.length_range] at hi
      simp only [List.getElem_map, List.getElem_range]
      rw [(hf i (by omega)).2.2 (by omega), (hf (i + 1) (by omega)).2.2 (by omega)]
      have hnp : (0 : ℝ) ≤ ((n + 1 - 1 : ℕ) : ℝ) := by positivity
      have : (i : ℝ) / ((n + 1 - 1 : ℕ) : ℝ) ≤ ((i + 1 : ℕ) : ℝ) / ((n + 1 - 1 : ℕ) : ℝ) := div_le_div_of_nonneg_right (by push_cast; linarith) hnp
      nlinarith

/-- **C66, tempered bundle, any prior.** In exact arithmetic with NaN and infinities the condition on the prior is not needed when `max_temperature ≥ 1`: the
temperatures stay real numbers of at least 1, so a tempered density is NaN or `-inf` wherever the log-density is.  In particular for a constant prior. -/
theorem C66_tempered_any_prior [BufNum XR] (env : Env XR D d M O) (hl : env.ops.Lawful) (c : BundleCfg XR D d M O) (hc : GoodCfg c) (p : PTCfg XR D d) (hT : 1 ≤ p.nTemps)
    (hn : 0 < c.nChains) (hb : 0 < c.batchSize) (mt : ℝ) (hmax : p.maxTemp = .fin mt) (hmt : 1 ≤ mt)
    (data : Data D) (hig : IgnoresNSteps c.logpdf) (hbad : ∀ x i, BufNum.isFinite (x i) = false → Ieee.Bad (c.logpdf.val x data))
    (n nc : Nat) (key : Key) (kw : List (String × V)) (s : Sampler XR D d M O V) (hs : Sampler.new n nc key none none none (some (ptBundle c p)) kw = .ok s)
    (init : InitPos XR d) (hx : init.atleast2d.length = c.nChains) (hinit : ∀ x ∈ init.atleast2d, ∀ i, BufNum.isFinite (x i) = true) :
    ∃ s', s.sample env init data = (.ok (), s') :=
  temper_sample_total env hl c hc p hT hn hb data hig hbad _ (temperStays_hot env c hn p data hbad) (by rw [hmax]; exact hotLadder_initial mt hmt _) n nc key kw s hs init hx hinit

end FlowMC
