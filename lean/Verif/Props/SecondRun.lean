import Verif.Props.TemperBundle
import Verif.Props.Keys
import Verif.Lemmas.Toy
/-
C11 (a second `sample()`), C36 (targets of the tempering bundle), C65 (production tempering), and non-vacuity of the bundle theorems.
-/
set_option linter.unusedSectionVars false
namespace FlowMC
open Spec

variable {F D : Type} {d : Nat} {M O V : Type}

section
variable [Zero F] [One F] [Add F] [Mul F] [Div F] [Sub F] [Neg F] [NatCast F] [Transc F] [FCmp F] [BufNum F]

/-! ### C11, randomness -/

theorem keyTrace_det (env env' : Env F D d M O) (strats : String → Option (Strategy F D d M O)) (data data' : Data D) (names : List String) :
    ∀ (w w' : World F D d M O) (keys keys' : List Key), w.key = w'.key → KeyTrace env strats data names w keys →
    KeyTrace env' strats data' names w' keys' → keys = keys' := by
  induction names with
  | nil =>
    intro w w' keys keys' hk h h'
    cases h; cases h'
    rw [hk]
  | cons a as ih =>
    intro w w' keys keys' hk h h'
    cases h with
    | next hs hb hr rest =>
    cases h' with
    | next hs' hb' hr' rest' =>
    rw [hs] at hs'
    simp only [Option.some.injEq] at hs'
    subst hs'
    rw [hk]
    congr 1
    refine ih _ _ _ _ ?_ rest rest'
    show _ = _
    rw [(C29_next_key _ _ hb _ _ _ _ _ _ _ hr).1, (C29_next_key _ _ hb' _ _ _ _ _ _ _ hr').1, hk]

/-- **C11 is false (randomness).** Let `sample` be called a second time on the same sampler, whatever the first call did to the resources and
whatever start positions and data the second call gets.  The second call starts from the same key and hands every strategy exactly the same key
as the first call did. -/
theorem C11_reuses_keys (env : Env F D d M O) (s s' : Sampler F D d M O V) (init init' : InitPos F d) (data data' : Data D)
    (hfirst : s.sample env init data = (.ok (), s')) (order : List String) (ho : s.strategyOrder = some order) (keys keys' : List Key)
    (h1 : KeyTrace env s.strategies data order ⟨s.rngKey, init.atleast2d, s.heap⟩ keys)
    (h2 : KeyTrace env s'.strategies data' order ⟨s'.rngKey, init'.atleast2d, s'.heap⟩ keys') :
    s'.rngKey = s.rngKey ∧ s'.strategyOrder = some order ∧ keys' = keys := by
  obtain ⟨k, xs, -, hs'⟩ := sample_completes env s s' order ho init data hfirst
  have e1 : s'.rngKey = s.rngKey := by rw [hs']
  have e2 : s'.strategies = s.strategies := by rw [hs']
  have e3 : s'.strategyOrder = s.strategyOrder := by rw [hs']
  rw [e2] at h2
  exact ⟨e1, by rw [e3, ho], keyTrace_det env env s.strategies data' data order _ _ _ _ e1 h2 h1⟩

/-! ### C11, production buffers -/

/-- **C11 is false (training rows).** After a complete run of a bundle the state still points at the production buffers, so during a second run of the
same order (any part of it, finished or not) the training sample buffers never change: nothing the second run records can go there. -/
theorem C11_training_rows_misplaced (env : Env F D d M O) (c : BundleCfg F D d M O) (b : Bundle F D d M O) (hb : LibraryBundle c b) (data data' : Data D)
    (k k₂ : Key) (xs xs' : List (Pos F d)) (w : World F D d M O)
    (hrun : Completes env b.strategies.lookup data b.strategyOrder ⟨k, xs, ⟨b.resources, b.strategies.cursors⟩⟩ w)
    (names rest : List String) (_ho : b.strategyOrder = names ++ rest) (n : String)
    (hn : n ∈ ["positions_training", "log_prob_training", "local_accs_training", "global_accs_training"]) :
    (runOrder env b.strategies.lookup names k₂ xs' data' w.heap).2.res n = w.heap.res n := by
  have hw : InPhase w.heap true := by
    obtain ⟨first, pre, ho, hf, hp⟩ := order_shape c b hb
    rw [ho, completes_append] at hrun
    obtain ⟨w1, h1, h2⟩ := hrun
    obtain ⟨q, hq⟩ := completes_keeps (I := fun w => ∃ q, InPhase w.heap q) _
      (fun name _ s w k' xs' h' hs hq hr => by
        have := inPhase_any env c _ hb.isBundle name s hs w.key w.xs data w.heap hq
        rw [hr] at this; exact this) _ _ h1 ⟨false, inPhase_fresh c b hb _⟩
    rw [completes_cons] at h2
    obtain ⟨s, k1, xs1, hh1, e, r, h2⟩ := h2
    rw [hb.isBundle.hasCore.update] at e
    simp only [Option.some.injEq] at e
    subst e
    have h3 := inPhase_update env w1.key w1.xs data w1.heap q hq
    rw [r] at h3
    refine completes_keeps (I := fun w => InPhase w.heap true) _ (fun name hname s w k' xs' h' hs hq hr => ?_) _ _ h2 h3
    have := inPhase_step env c _ hb.isBundle true name
      (by
        rintro rfl
        have := mem_repeatPhase hname
        revert this; rcases hp with rfl | rfl <;> decide) s hs w.key w.xs data w.heap hq
    rw [hr] at this; exact this
  refine (runOrder_keeps (I := fun h' => InPhase h' true ∧ h'.res n = w.heap.res n) names ?_ k₂ xs' w.heap ⟨hw, rfl⟩).2
  rintro name hname s k xs h' hs ⟨hq', he⟩
  have hph : InPhase (s.run env k xs data' h').2 true := by
    by_cases hu : name = "update_state"
    · subst hu
      rw [hb.isBundle.hasCore.update] at hs
      simp only [Option.some.injEq] at hs
      subst hs
      exact inPhase_update env k xs data' h' true hq'
    · exact inPhase_step env c _ hb.isBundle true name hu s hs k xs data' h' hq'
  refine ⟨hph, ?_⟩
  rw [← he]
  obtain ⟨st, hst, hp, -⟩ := hq'
  refine strat_frame env c _ hb.isBundle true name s hs k xs data' h' ⟨st, hst, hp⟩ n ?_
  simp only [List.mem_cons, List.not_mem_nil, or_false] at hn
  simp only [writes]
  repeat' split
  all_goals (rcases hn with rfl | rfl | rfl | rfl <;> decide)

theorem updateBuffer_clamp (h : Heap F D d M O) (name : String) (b : Buffer F) (hb : h.res name = some (.buffer b)) (upd : NDArr F) (c c' : Int)
    (hc : clampStart c (b.data.shape.getD b.cursorDim 0) (upd.shape.getD b.cursorDim 0) = clampStart c' (b.data.shape.getD b.cursorDim 0) (upd.shape.getD b.cursorDim 0)) :
    h.updateBuffer name upd c = h.updateBuffer name upd c' := by
  simp only [Heap.updateBuffer, Heap.getBuffer_of hb, Buffer.updateBuffer, dynUpdateSliceInDim, hc]

theorem updateBuffer_setPos (h : Heap F D d M O) (name id : String) (upd : NDArr F) (c : Int) (q : Nat) :
    (h.setPos id q).updateBuffer name upd c = ((h.updateBuffer name upd c).1, (h.updateBuffer name upd c).2.setPos id q) := by
  have hg : (h.setPos id q).getBuffer name = h.getBuffer name := rfl
  unfold Heap.updateBuffer
  rw [hg]
  cases h.getBuffer name with
  | error e => rfl
  | ok b =>
    dsimp only
    cases b.updateBuffer upd c <;> rfl

/-- A step call whose write does not fit behaves, on the resources, like one that starts earlier so that it just fits. -/
theorem commit_clamp (s : TakeSteps) (n T : Nat) (p : StepPlan F d) (h : Heap F D d M O) (bP bL bA : Buffer F)
    (hr : Recorders h n T p.posName p.lpName p.accName bP bL bA) (hov : T < h.pos s.ident + s.nRows) (hle : s.nRows ≤ T) :
    (s.commit n p h).1 = (s.commit n p (h.setPos s.ident (T - s.nRows))).1 ∧
    (s.commit n p h).2.res = (s.commit n p (h.setPos s.ident (T - s.nRows))).2.res := by
  obtain ⟨n1, n2, n3⟩ := hr.ne
  have hc : clampStart (h.pos s.ident : Nat) T s.nRows = clampStart ((T - s.nRows : Nat) : Int) T s.nRows := by
    rw [clampStart_overflow _ _ _ hle hov, clampStart_fits _ _ _ (by omega)]
  have hfit : T - s.nRows + s.nRows ≤ T := by omega
  obtain ⟨bP', u1, r1⟩ := update3 h p.posName bP hr.resP n T hr.shapeP hr.dimP BufNum.negInf s.nRows (T - s.nRows)
    (p.rows.map (fun r => r.map (·.pos))) hfit
  have hL : (h.setRes p.posName (.buffer bP')).res p.lpName = some (.buffer bL) := by simp [Heap.setRes, dictSet, n1.symm, hr.resL]
  obtain ⟨bL', u2, r2⟩ := update2 (h.setRes p.posName (.buffer bP')) p.lpName bL hL n T hr.shapeL hr.dimL BufNum.negInf s.nRows (T - s.nRows)
    (p.rows.map (fun r => r.map (·.logp))) hfit
  have hA : ((h.setRes p.posName (.buffer bP')).setRes p.lpName (.buffer bL')).res p.accName = some (.buffer bA) := by
    simp [Heap.setRes, dictSet, n2.symm, n3.symm, hr.resA]
  obtain ⟨bA', u3, r3⟩ := update2 ((h.setRes p.posName (.buffer bP')).setRes p.lpName (.buffer bL')) p.accName bA hA n T hr.shapeA hr.dimA
    BufNum.negInf s.nRows (T - s.nRows) (p.rows.map (fun r => r.map (fun o => BufNum.ofBool o.acc))) hfit
  have v1 := u1
  rw [← updateBuffer_clamp h p.posName bP hr.resP _ (h.pos s.ident : Nat) _ (by rw [hr.shapeP, hr.dimP]; simpa [arr3] using hc)] at v1
  have v2 := u2
  rw [← updateBuffer_clamp _ p.lpName bL hL _ (h.pos s.ident : Nat) _ (by rw [hr.shapeL, hr.dimL]; simpa [arr2] using hc)] at v2
  have v3 := u3
  rw [← updateBuffer_clamp _ p.accName bA hA _ (h.pos s.ident : Nat) _ (by rw [hr.shapeA, hr.dimA]; simpa [arr2] using hc)] at v3
  have hpos : (h.setPos s.ident (T - s.nRows)).pos s.ident = T - s.nRows := by simp [Heap.setPos]
  simp only [TakeSteps.commit, posArr, lpArr, accArr, hpos, updateBuffer_setPos, u1, u2, u3, v1, v2, v3]
  cases lastRows p.rows <;> exact ⟨rfl, rfl⟩

/-- **C11 is false (corruption).** Let a fresh `RQSpline_MALA_Bundle` sampler complete a run and call `sample` again (start positions `xs'`, one per
chain).  The very first strategy of the second run, the *training* local stepper, overwrites the last rows of `positions_production` — the production
samples of the first run — with the rows it has just computed. -/
theorem C11_overwrites_production (env : Env F D d M O) (hl : env.ops.Lawful) (c : BundleCfg F D d M O) (hc : GoodCfg c) (hp : 0 < c.nProdLoops)
    (data data' : Data D) (k k₂ : Key) (xs xs' : List (Pos F d)) (hx : xs.length = c.nChains) (hx' : xs'.length = c.nChains) (w : World F D d M O)
    (hrun : Completes env (malaBundle c).strategies.lookup data (malaBundle c).strategyOrder ⟨k, xs, ⟨(malaBundle c).resources, (malaBundle c).strategies.cursors⟩⟩ w) :
    ∃ k2 ys h2 b2, (localStepper c).run env k₂ xs' data' w.heap = (.ok (k2, ys), h2) ∧ h2.res "positions_production" = some (.buffer b2) ∧
      c.nLocal / c.localThin ≤ c.nProdSteps ∧
      ∀ i j x o, xs'[i]? = some x → j < c.nLocal / c.localThin →
        (everyNth c.localThin (serialSample (fun k x lp t data => malaKernel env.rng c.stepSize k x lp t data) c.logpdf data' c.nLocal
          (.child (.child k₂ 1) i) x))[j]? = some o →
        ∀ a : Fin d, b2.data.get [i, c.nProdSteps - c.nLocal / c.localThin + j, a] = o.pos a := by
  obtain ⟨logT, logP, wT, -, -, -, -, inv, hcur, -⟩ := bundle_run env hl c hc _ (bundle_hasCore c) data [] Eq (quietPre_nil env c _ data) _ _ hrun
    (bundleInv_fresh c _ (fun _ _ => rfl)) hx rfl
  obtain ⟨bP, bL, bA, hrec⟩ := inv.recorders true true
  obtain ⟨st, hst, hp1, hp2, hp3, hp4⟩ := inv.state
  obtain ⟨vs, hd⟩ := inv.density
  have hlen : ceilDiv' c.nLocal c.localThin = c.nLocal / c.localThin := ceilDiv'_dvd _ _ hc.localThin hc.localDvd
  have hrpos : 0 < c.nLocal / c.localThin := Nat.div_pos (Nat.le_of_dvd hc.nLocal hc.localDvd) hc.localThin
  have hle : c.nLocal / c.localThin ≤ c.nProdSteps := by
    simp only [BundleCfg.nProdSteps]
    exact le_trans (Nat.le_mul_of_pos_right _ hp) (Nat.le_add_right _ _)
  have hle' : (localStepper c).nRows ≤ capacity c true := by simp only [TakeSteps.nRows, localStepper, hlen]; exact hle
  rw [← hx'] at hrec
  set h' := w.heap.setPos "local_stepper" (capacity c true - (localStepper c).nRows) with hh'
  have hrec' : Recorders h' xs'.length (capacity c true) (posName true) (logpName true) (accName true true) bP bL bA :=
    ⟨hrec.resP, hrec.resL, hrec.resA, hrec.shapeP, hrec.shapeL, hrec.shapeA, hrec.dimP, hrec.dimL, hrec.dimA, hrec.ne⟩
  have hpos' : h'.pos "local_stepper" = capacity c true - (localStepper c).nRows := by simp [hh', Heap.setPos]
  obtain ⟨ys, h2, r1, he, hy, hys⟩ := serial_call env (localStepper c) k₂ xs' data' h' (capacity c true) (posName true) (logpName true) (accName true true)
    bP bL bA ⟨st, _, _, _, _, hst, rfl, hp1, hp2, hp3⟩ hrec' (by
      show h'.pos "local_stepper" + (localStepper c).nRows ≤ _
      rw [hpos']; omega)
    (.mala c.stepSize) (fun k x lp t data => malaKernel env.rng c.stepSize k x lp t data) c.logpdf
    ⟨rfl, inv.kernel, rfl, ⟨_, hd, rfl⟩⟩ hc.localThin hc.nLocal
  have hplan : (localStepper c).plan env k₂ xs' data' w.heap = (localStepper c).plan env k₂ xs' data' h' := rfl
  have hkey : ((localStepper c).run env k₂ xs' data' w.heap).1 = ((localStepper c).run env k₂ xs' data' h').1 ∧
      ((localStepper c).run env k₂ xs' data' w.heap).2.res = ((localStepper c).run env k₂ xs' data' h').2.res := by
    have hpe := plan_eq env (localStepper c) k₂ xs' data' w.heap (posName true) (logpName true) (accName true true) bP bL bA
      ⟨st, _, _, _, _, hst, rfl, hp1, hp2, hp3⟩ hrec.resP hrec.resL hrec.resA _ _ inv.kernel hd
    unfold TakeSteps.run
    rw [← hplan]
    cases hpl : (localStepper c).plan env k₂ xs' data' w.heap with
    | error e => exact ⟨rfl, rfl⟩
    | ok p =>
      have hnames : p.posName = posName true ∧ p.lpName = logpName true ∧ p.accName = accName true true := by
        rw [hpe _ rfl] at hpl
        split at hpl
        · simp at hpl
        · split at hpl
          · simp at hpl
          · simp only [Except.ok.injEq] at hpl; subst hpl; exact ⟨rfl, rfl, rfl⟩
      refine commit_clamp (localStepper c) xs'.length (capacity c true) p w.heap bP bL bA (by rw [hnames.1, hnames.2.1, hnames.2.2]; exact hrec) ?_ hle'
      show capacity c true < w.heap.pos "local_stepper" + (localStepper c).nRows
      rw [hcur]
      simp only [TakeSteps.nRows, localStepper, hlen, capacity, if_true]
      omega
  rw [r1] at hkey
  obtain ⟨b2, hb2, hin⟩ := he.pos
  refine ⟨Key.child k₂ 0, ys, ((localStepper c).run env k₂ xs' data' w.heap).2, b2, ?_, ?_, hle, ?_⟩
  · exact Prod.ext hkey.1 rfl
  · rw [hkey.2]; exact hb2
  · intro i j x o hi hj ho a
    have hi' : i < xs'.length := (List.getElem?_eq_some_iff.1 hi).1
    have := hin.inside i j (o.pos) hi' (by show j < ceilDiv' c.nLocal c.localThin; rw [hlen]; exact hj) (by
      simp only [cellOf, List.getElem?_map, serialRows_cell, hi, Option.map_some, Option.bind_some]
      show Option.map _ ((everyNth c.localThin (serialSample _ c.logpdf data' c.nLocal _ x))[j]?) = _
      rw [ho]; rfl) a
    rw [show h'.pos (localStepper c).ident = capacity c true - (localStepper c).nRows from hpos'] at this
    simp only [TakeSteps.nRows, localStepper, hlen, capacity, if_true] at this
    exact this

/-! ### C65 -/

/-- **C65, production.** A tempering call outside training leaves the replica buffer exactly as it was: the next call starts its replicas again from
the same positions, whatever this call computed for them. -/
theorem C65_replicas_reset (env : Env F D d M O) (s : ParallelTempering) (k k2 : Key) (xs xs2 : List (Pos F d)) (data data2 : Data D) (h : Heap F D d M O)
    (m : Nat) (P T : String) (pb tb : Buffer F) (K : LocalKernel F D d) (l : TemperedPDF F D d) (v : SVal)
    (site : TemperSite s h env.rng xs.length m P T pb tb K l v) (hv : v.truthy = false) (hlen : xs2.length = xs.length) :
    (s.run env k2 xs2 data2 (s.run env k xs data h).2).1 = .ok (Key.child (Key.child (Key.child k2 0) 0) 0,
      (temperedWalkers env.rng s k2 xs2 data2 m pb tb K l).filterMap (fun e => e.1.positions.head?)) := by
  rw [C35_frozen env s k xs data h m P T pb tb K l v site hv]
  rw [← hlen] at site
  rw [C35_frozen env s k2 xs2 data2 h m P T pb tb K l v site hv]

end

/-- **C65 is false.** There is a tempering call with `training` off whose hot replicas move, but whose new positions are not what the replica buffer
holds afterwards. -/
theorem C65_replicas_not_continued : ∃ (e : ExchCarry Int 1 × List Bool) (pb : Buffer Int) (k' : Key) (ys : List (Pos Int 1)) (h' : Heap Int Unit 1 Int Int),
    Toy.temperStrat.run Toy.env (.root 0) Toy.start Toy.data (Toy.temperHeap false) = (.ok (k', ys), h') ∧ h'.res "P" = some (.buffer pb) ∧
    (temperedWalkers Toy.rng Toy.temperStrat (.root 0) Toy.start Toy.data 2 (Buffer.new "P" [2, 2, 1] 2)
      { (Buffer.new "T" [3] 0 : Buffer Int) with data := arr1 0 [1, 2, 3] } (fun k x lp t data => grwKernel Toy.rng 1 k x lp t data)
      ⟨⟨Toy.target, []⟩, Toy.target⟩)[0]? = some e ∧
    (e.1.positions[1]?).map (fun x => x 0) ≠ some (pb.data.get [0, 0, 0]) := by
  refine ⟨_, _, _, _, _, rfl, rfl, rfl, ?_⟩
  decide +kernel

/-! ### C36 -/

/-- The log-density the cold replica of the bundle is moved with: the tempered density at the first temperature, 1 (C61). -/
noncomputable def Spec.coldTarget (l : TemperedPDF ℝ D d) : Target ℝ D d := l.tempered 1

/-- **C36.** In the tempering bundle, the local and the global stepper evaluate the density stored under `logpdf`, the cold replica the tempered density
stored under `tempered_logpdf` at temperature 1.  These two define the same distribution (log-densities equal up to a constant) if and only if the
prior the user supplied is constant. -/
theorem C36_same_target_iff [BufNum ℝ] (c : BundleCfg ℝ D d M O) (p : PTCfg ℝ D d) (data : Data D) :
    ∃ lp l, (ptBundle c p).resources "logpdf" = some (.logpdf lp) ∧ (ptBundle c p).resources "tempered_logpdf" = some (.tempered l) ∧
      (localStepper c).logpdfName = "logpdf" ∧ (globalStepper c).logpdfName = "logpdf" ∧ (ptStrat c p).temperedLogpdfName = "tempered_logpdf" ∧
      ((∃ C, ∀ x, (coldTarget l).val x data = lp.logPdf.val x data + C) ↔ ∃ C, ∀ x, p.logprior.val x data = C) := by
  refine ⟨_, _, rfl, rfl, rfl, rfl, rfl, ?_⟩
  constructor
  · rintro ⟨C, h⟩
    refine ⟨C, fun x => ?_⟩
    have := h x
    simp only [coldTarget, TemperedPDF.tempered, div_one, one_mul] at this
    exact add_left_cancel this
  · rintro ⟨C, h⟩
    refine ⟨C, fun x => ?_⟩
    simp only [coldTarget, TemperedPDF.tempered, div_one, one_mul, h x]
    rfl

/-- **C36 is false**: with a standard normal prior the cold replica and the steppers target different distributions, for every density of the user. -/
theorem C36_different_targets [BufNum ℝ] (c : BundleCfg ℝ D 1 M O) (p : PTCfg ℝ D 1) (hp : ∀ x data, p.logprior.val x data = -(x 0) ^ 2 / 2) (data : Data D) :
    ∃ lp l, (ptBundle c p).resources "logpdf" = some (.logpdf lp) ∧ (ptBundle c p).resources "tempered_logpdf" = some (.tempered l) ∧
      ¬ ∃ C, ∀ x, (coldTarget l).val x data = lp.logPdf.val x data + C := by
  obtain ⟨lp, l, h1, h2, -, -, -, h3⟩ := C36_same_target_iff c p data
  refine ⟨lp, l, h1, h2, fun h => ?_⟩
  obtain ⟨C, hC⟩ := h3.1 h
  have a := hC (fun _ => 0)
  have b := hC (fun _ => 1)
  rw [hp] at a b
  norm_num at a b
  linarith

/-! ### non-vacuity -/

/-- The toy bundles run to completion, so the hypotheses of C57–C61 and C11 are met. -/
theorem Toy.mala_completes : Toy.succeeded (runOrder Toy.env (malaBundle Toy.cfg).strategies.lookup (malaBundle Toy.cfg).strategyOrder (.root 1) Toy.start
    Toy.data ⟨(malaBundle Toy.cfg).resources, (malaBundle Toy.cfg).strategies.cursors⟩) = true := by decide +kernel

theorem Toy.pt_completes : Toy.succeeded (runOrder Toy.env (ptBundle Toy.cfg Toy.ptCfg).strategies.lookup (ptBundle Toy.cfg Toy.ptCfg).strategyOrder (.root 1)
    Toy.start Toy.data ⟨(ptBundle Toy.cfg Toy.ptCfg).resources, (ptBundle Toy.cfg Toy.ptCfg).strategies.cursors⟩) = true := by decide +kernel

example : ∃ w, Completes Toy.env (malaBundle Toy.cfg).strategies.lookup Toy.data (malaBundle Toy.cfg).strategyOrder
    ⟨.root 1, Toy.start, ⟨(malaBundle Toy.cfg).resources, (malaBundle Toy.cfg).strategies.cursors⟩⟩ w := by
  have h := Toy.mala_completes
  cases hr : runOrder Toy.env (malaBundle Toy.cfg).strategies.lookup (malaBundle Toy.cfg).strategyOrder (.root 1) Toy.start Toy.data
    ⟨(malaBundle Toy.cfg).resources, (malaBundle Toy.cfg).strategies.cursors⟩ with
  | mk r hp =>
    rw [hr] at h
    cases r with
    | error e => simp [Toy.succeeded] at h
    | ok a => exact ⟨_, (C08_sequential _ _ _ _ _ _ _ _ _ _).1 hr⟩

example : GoodCfg Toy.cfg := ⟨by decide, by decide, by decide, by decide, by decide, by decide, by decide⟩

example : Toy.start.length = Toy.cfg.nChains := rfl

example : Toy.env.ops.Lawful := fun _ _ _ => by simp [Toy.env, Toy.ops]

end FlowMC
