import Verif.Spec.WallAverages
import Verif.Lemmas.LoopAverages
import Verif.Props.WallAdaptive
/-
C100: averages over an adaptive run on a target with hard boundaries converge to the means under the truncated target.
-/
open MeasureTheory ProbabilityTheory Filter
open scoped ENNReal Topology
set_option linter.unusedSectionVars false
namespace FlowMC
open Spec
noncomputable section
open Classical

variable {Ω D M O V Z : Type} {d : ℕ}
variable {S : Set (Fin d → ℝ)} {lp : (Fin d → ℝ) → ℝ} {g : (Fin d → ℝ) → Fin d → ℝ} {data : Data D}
variable {past : MeasurableSpace Ω} {sig : Key → MeasurableSpace Ω} [mΩ : MeasurableSpace Ω] {P : Measure Ω} [IsProbabilityMeasure P] {env : Ω → Env ℝ D d M O} {env' : Ω → Env XR D d M O} {T : Key → Prop}
  [MeasurableSpace M] [MeasurableSpace O] [MeasurableSpace Z] {ν : Measure Z} {push : M → Z → Pos ℝ d} {lnf : M → Pos ℝ d → ℝ} {G : Set M} [BufNum XR]

omit [MeasurableSpace O] [BufNum XR] in
theorem none_mem_prodSet (k : Key) (l : ℕ) : none ∈ prodSet k l := by
  induction l with
  | zero => simp [prodSet]
  | succ l ih => exact Or.inl (Or.inl ih)

omit [MeasurableSpace O] in
/-- The rows of one chain of production inside the walls, with any flow known before. -/
theorem wall_loopRows {k : Key} (hTc : ∀ a, T a → ∀ b, Desc a b → T b) (h : IdealOn T past sig P env) {c : BundleCfg XR D d M O} (hE : AdaptiveWallBundle T P sig env env' S lp g c data ν push lnf G) {a : ℝ} (ha : a ≠ 0)
    (has : c.stepSize = .fin a) {m : Ω → M} (hm : Measurable[past] m) (hG : ∀ ω, m ω ∈ G) {X : Ω → Pos ℝ d} (hX : Measurable[past] X) (hXS : ∀ ω, X ω ∈ S)
    {logs : Ω → Bool → List (Block XR d)} {n : ℕ} {w : ℕ → Ω → World XR D d M O} {zs : ℕ → Ω → List (Pos XR d)} {b1 b2 : ℕ → Ω → Block XR d}
    (R : ProdRun env' c data m k logs n w zs b1 b2) (i : ℕ) (hT : ∀ l, T (.child (.child (carryKey k l) 1) i)) (hstart : ∀ ω, (w 0 ω).xs[i]? = some (emb (X ω))) :
    ∃ St Y, LoopRows P (noise d) (ν.prod unif) (fun _ : PastOf past => freeStep S (malaQ g a) (malaR lp g a)) (pushBy (wallFlowStep S lp lnf) push (fun ω : PastOf past => m ω)) (toPast past) (loopsSteps c) (rowPre c)
        (P.map fun ω => (toPast past ω, X ω)) n (rowsPerCall c true + rowsPerCall c false) St Y ∧
      (∀ l < n, ∀ r < rowsPerCall c true + rowsPerCall c false, ∀ ω, rowCell c b1 b2 i l r ω = some (emb (Y l r ω)) ∧ Y l r ω ∈ S) ∧
      ∀ l < n, ∀ r < rowsPerCall c true + rowsPerCall c false, Measurable[info past sig (prodSet k (l + 1))] (Y l r) := by
  have hid := toPast_measurable past
  set Q := rowsPerCall c true + rowsPerCall c false with hQ
  have law := wall_family_rowLawsOn hTc h env' c data hE a ha has (fun ω : PastOf past => m ω) hm (toPast past) hG (P.map fun ω => (toPast past ω, X ω))
  obtain ⟨lawX, lawR⟩ := R.lawsOn law 0 [] i hT ⟨hid.mono (past_le_info (by simp [prodSet])) le_rfl, X, fun ω => ⟨hstart ω, hXS ω⟩, hX.mono (past_le_info (by simp [prodSet])) le_rfl, rfl⟩
  simp only [Nat.zero_add, List.append_nil] at lawX lawR
  have hst : ∀ l, ∃ X' : Ω → Pos ℝ d, l ≤ n → (∀ ω, (w l ω).xs[i]? = some (emb (X' ω)) ∧ X' ω ∈ S) ∧ Measurable[info past sig (prodSet k l)] X' ∧
      P.map (fun ω => (toPast past ω, X' ω)) = histLaw (stepLaw (noise d) (onSndAt fun _ : PastOf past => freeStep S (malaQ g a) (malaR lp g a)))
        (stepLaw (ν.prod unif) (onSndAt (pushBy (wallFlowStep S lp lnf) push (fun ω : PastOf past => m ω)))) (loopsSteps c l) (P.map fun ω => (toPast past ω, X ω)) := by
    intro l
    by_cases hl : l ≤ n
    · obtain ⟨-, X', e1, e2, e3⟩ := lawX l hl
      exact ⟨X', fun _ => ⟨e1, e2, e3⟩⟩
    · exact ⟨fun _ _ => 0, fun h => absurd h hl⟩
  have hrow : ∀ l r, ∃ Y : Ω → Pos ℝ d, l < n → r < Q → (∀ ω, rowCell c b1 b2 i l r ω = some (emb (Y ω)) ∧ Y ω ∈ S) ∧ Measurable[info past sig (prodSet k (l + 1))] Y ∧
      P.map (fun ω => (toPast past ω, Y ω)) = histLaw (stepLaw (noise d) (onSndAt fun _ : PastOf past => freeStep S (malaQ g a) (malaR lp g a)))
        (stepLaw (ν.prod unif) (onSndAt (pushBy (wallFlowStep S lp lnf) push (fun ω : PastOf past => m ω)))) (rowPre c r ++ loopsSteps c l) (P.map fun ω => (toPast past ω, X ω)) := by
    intro l r
    by_cases hl : l < n
    · by_cases hr : r < Q
      · obtain ⟨-, Y, e1, e2, e3⟩ := lawR l hl r hr
        exact ⟨Y, fun _ _ => ⟨e1, e2, e3⟩⟩
      · exact ⟨fun _ _ => 0, fun _ h => absurd h hr⟩
    · exact ⟨fun _ _ => 0, fun h => absurd h hl⟩
  choose St hSt using hst
  choose Y hY using hrow
  have hm' : Measurable fun p : PastOf past × Pos ℝ d => m p.1 := by
    have hm0 : Measurable (fun ω : PastOf past => m ω) := hm
    exact hm0.comp measurable_fst
  -- everything later, given anything known before loop `l`
  have later : ∀ (l : ℕ) (Zp : Ω → PastOf past × Pos ℝ d) (_ : Measurable[info past sig (prodSet k l)] Zp) (_ : ∀ ω, (Zp ω).1 = toPast past ω), ∀ l', l + l' < n → ∀ r < Q,
      P.map (fun ω => (Zp ω, Y (l + l') r ω)) = histLaw (stepLaw (noise d) (onSndAt fun _ : PastOf past × Pos ℝ d => freeStep S (malaQ g a) (malaR lp g a)))
        (stepLaw (ν.prod unif) (onSndAt (fun p : PastOf past × Pos ℝ d => pushBy (wallFlowStep S lp lnf) push (fun ω : PastOf past => m ω) p.1))) (rowPre c r ++ loopsSteps c l') (P.map fun ω => (Zp ω, St l ω)) := by
    intro l Zp hZ hZ1 l' hl r hr
    have hmz : (fun ω => m ((Zp ω).1)) = m := funext fun ω => by rw [hZ1]; rfl
    have law' := wall_family_rowLawsOn hTc h env' c data hE a ha has (fun p : PastOf past × Pos ℝ d => m p.1) hm' Zp (fun ω => hG _) (P.map fun ω => (Zp ω, St l ω))
    rw [hmz] at law'
    have := (R.lawsOn law' l [] i hT ⟨hZ, St l, (hSt l (by omega)).1, (hSt l (by omega)).2.1, rfl⟩).2 l' hl r hr
    rw [List.append_nil] at this
    obtain ⟨-, Y', g1, g2, g3⟩ := this
    obtain rfl : Y' = Y (l + l') r := funext fun ω => by
      have := ((hY (l + l') r hl hr).1 ω).1
      rw [(g1 ω).1, Option.some.injEq] at this
      exact emb_injective this
    exact g3
  have hpast : ∀ l, Measurable[info past sig (prodSet k l)] (toPast past) := fun l => hid.mono (past_le_info (none_mem_prodSet k l)) le_rfl
  refine ⟨St, Y, ⟨fun l hl => (hSt l hl).2.1.mono (h.info_le _) le_rfl, fun l hl r hr => (hY l r hl hr).2.1.mono (h.info_le _) le_rfl, fun l hl => (hSt l hl).2.2, fun l hl r hr => (hY l r hl hr).2.2,
    fun l l' hl r hr => ?_, fun l l' hl r hr r' hr' => ?_⟩, fun l hl r hr => (hY l r hl hr).1, fun l hl r hr => (hY l r hl hr).2.1⟩
  · exact later l (fun ω => (toPast past ω, St l ω)) ((hpast l).prodMk (hSt l (by omega)).2.1) (fun _ => rfl) l' hl r hr
  · exact later (l + 1) (fun ω => (toPast past ω, Y l r ω)) ((hpast (l + 1)).prodMk (hY l r (by omega) hr).2.1) (fun _ => rfl) l' hl r' hr'

omit [MeasurableSpace O] in
/-- Averages over one chain. -/
theorem wall_chain_lln {k : Key} (h : IdealOn (Desc k) past sig P env) (c : BundleCfg XR D d M O) (hE : AdaptiveWallBundle (Desc k) P sig env env' S lp g c data ν push lnf G) {a : ℝ} (ha : a ≠ 0)
    (m : Ω → M) (hm : Measurable[past] m) (hG : ∀ ω, m ω ∈ G) (X : Ω → Pos ℝ d) (hX : Measurable[past] X)
    (f : Pos ℝ d → ℝ) (hf : Measurable f) (hint : Integrable f (normalised (wallMeasure S lp))) (δ ε : ℝ) (hδ : 0 < δ) (hε : 0 < ε) :
    ∃ L, ∀ n, L ≤ n → ∀ St Y, LoopRows P (noise d) (ν.prod unif) (fun _ : PastOf past => freeStep S (malaQ g a) (malaR lp g a)) (pushBy (wallFlowStep S lp lnf) push (fun ω : PastOf past => m ω)) (toPast past)
        (loopsSteps c) (rowPre c) (P.map fun ω => (toPast past ω, X ω)) n (rowsPerCall c true + rowsPerCall c false) St Y →
      P.real {ω | δ < |(∑ l ∈ Finset.range n, ∑ r ∈ Finset.range (rowsPerCall c true + rowsPerCall c false), f (Y l r ω)) / (n * (rowsPerCall c true + rowsPerCall c false : ℕ) : ℝ) -
        ∫ x, f x ∂(normalised (wallMeasure S lp))|} ≤ ε := by
  haveI := hE.flows.prob
  haveI := wall_isProb hE.nonzero hE.finite
  haveI : IsProbabilityMeasure (noise d) := by unfold noise; infer_instance
  have hid : Measurable (toPast past) := (toPast_measurable past).mono h.past_le le_rfl
  have hXm : Measurable X := hX.mono h.past_le le_rfl
  haveI : IsProbabilityMeasure (P.map fun ω : Ω => (toPast past ω, X ω)) := Measure.isProbabilityMeasure_map (hid.prodMk hXm).aemeasurable
  have hpm : ∀ ω, Measurable (push (m ω)) := fun ω => hE.flows.pushMeas.comp (measurable_const.prodMk measurable_id)
  have hlm : ∀ ω, Measurable (lnf (m ω)) := fun ω => hE.flows.lnfMeas.comp (measurable_const.prodMk measurable_id)
  haveI : ∀ ω, IsProbabilityMeasure (ν.map (push (m ω))) := fun ω => Measure.isProbabilityMeasure_map (hpm ω).aemeasurable
  have hM := mala_wallMH hE.walled hE.nonzero hE.finite a ha
  have hF := fun ω => flow_wallMH hE.walled hE.nonzero hE.finite (lnf (m ω)) (hlm ω) (ν.map (push (m ω))) (hE.flows.density _ (hG ω))
  have h1 : Measurable fun p : (PastOf past × Pos ℝ d) × ((Fin d → ℝ) × ℝ) => freeStep S (malaQ g a) (malaR lp g a) p.2 p.1.2 := hM.step_meas.comp ((measurable_snd.comp measurable_fst).prodMk measurable_snd)
  have h2 := wallFlowStep_measurable (Z := Z) (push := push) hE.walled.meas hE.walled.meas_lp hE.flows.pushMeas hE.flows.lnfMeas (fun ω : PastOf past => m ω) hm
  refine loop_lln h1 h2 hid ?_ (fun w => hM.rev.invariant hM.step_meas) (fun (w : Ω) => ?_) ?_ (by have := rowsPerCall_pos hE.good true; omega) hf hint hδ hε
  · intro (w : Ω) x ε hε
    obtain ⟨N, hN⟩ := wall_cycles_near c data hE.walled hE.nonzero hE.finite a ha (ν.map (push (m w))) (lnf (m w)) (hlm w) (hE.flows.density _ (hG w)) 1 (fun _ => Measure.dirac x) (fun _ => inferInstance) ε hε
    refine ⟨N, fun l hl pre => ?_⟩
    rw [histLaw_pushBy hM.step_meas (wallFlowStep S lp lnf) (fun ω : PastOf past => m ω) w (hpm w) (hF w).step_meas]
    exact hN 0 (by omega) l hl pre
  · have e := stepLaw_push (wallFlowStep S lp lnf (m w)) (hF w).step_meas (push (m w)) (hpm w) ν unif (normalised (wallMeasure S lp))
    exact e.trans ((hF w).rev.invariant (hF w).step_meas)
  · rw [Measure.map_map measurable_fst (hid.prodMk hXm)]; rfl

omit [MeasurableSpace O] [BufNum XR] in
theorem sum_loops (n R : ℕ) (a : ℕ → ℝ) : ∑ j ∈ Finset.range (n * R), a j = ∑ l ∈ Finset.range n, ∑ r ∈ Finset.range R, a (l * R + r) := by
  induction n with
  | zero => simp
  | succ n ih => rw [Nat.succ_mul, Finset.sum_range_add, ih, Finset.sum_range_succ]

omit [MeasurableSpace O] in
/-- The average over a chain, in terms of its rows. -/
theorem wallMean_rows {c : BundleCfg XR D d M O} (hc : GoodCfg c) {b1 b2 : ℕ → Ω → Block XR d} (f : Pos ℝ d → ℝ) (i : ℕ) (Y : ℕ → ℕ → Ω → Pos ℝ d)
    (hY : ∀ l < c.nProdLoops, ∀ r < rowsPerCall c true + rowsPerCall c false, ∀ ω, rowCell c b1 b2 i l r ω = some (emb (Y l r ω)) ∧ Y l r ω ∈ S) (b : Ω → Buffer XR)
    (hb : ∀ ω, ∀ j < c.nProdSteps, ∀ Y, rowCell c b1 b2 i (j / (rowsPerCall c true + rowsPerCall c false)) (j % (rowsPerCall c true + rowsPerCall c false)) ω = some Y → ∀ a : Fin d, (b ω).data.get [i, j, a] = Y a) (ω : Ω) :
    (∀ j < c.nProdSteps, ∃ y ∈ S, ∀ a : Fin d, (b ω).data.get [i, j, a] = XR.fin (y a)) ∧
    wallMean f (b ω) i c.nProdSteps = (∑ l ∈ Finset.range c.nProdLoops, ∑ r ∈ Finset.range (rowsPerCall c true + rowsPerCall c false), f (Y l r ω)) /
      (c.nProdLoops * (rowsPerCall c true + rowsPerCall c false : ℕ) : ℝ) := by
  set n := c.nProdLoops with hnn
  set Q := rowsPerCall c true + rowsPerCall c false with hQ
  have hQ0 : 0 < Q := by have := rowsPerCall_pos hc true; omega
  have hcap : c.nProdSteps = n * Q := capacity_eq c true
  constructor
  · intro j hj
    have h1 : j / Q < n := Nat.div_lt_of_lt_mul (by rw [mul_comm, ← hcap]; exact hj)
    have h2 := hY _ h1 _ (Nat.mod_lt j hQ0) ω
    exact ⟨_, h2.2, fun a => hb ω j hj _ h2.1 a⟩
  rw [wallMean, hcap, sum_loops]
  push_cast
  congr 1
  refine Finset.sum_congr rfl fun l hl => Finset.sum_congr rfl fun r hr => ?_
  rw [Finset.mem_range] at hl hr
  congr 1
  funext a
  have e1 : (l * Q + r) / Q = l := by rw [Nat.mul_comm, Nat.mul_add_div hQ0, Nat.div_eq_of_lt hr, Nat.add_zero]
  have e2 : (l * Q + r) % Q = r := by rw [Nat.mul_comm, Nat.mul_add_mod, Nat.mod_eq_of_lt hr]
  have := hb ω (l * Q + r) ?_ (emb (Y l r ω)) ?_ a
  · rw [this]; rfl
  · rw [hcap]
    calc l * Q + r < l * Q + Q := by omega
      _ = (l + 1) * Q := by ring
      _ ≤ n * Q := Nat.mul_le_mul_right _ hl
  · rw [e1, e2]; exact (hY l hl r hr ω).1

omit [MeasurableSpace O] in
/-- **C100 (production).** A run of `RQSpline_MALA_Bundle` on a target with hard boundaries (`-inf` or NaN outside a region `S`, of any shape, of positive and finite mass).  When training is over (`w ω`) the random
key is `k`, the flow in the global sampler is `m ω` and chain `i` is at the finite point `X i ω` inside, where the flow and the positions are *any* functions of what happened before, the flow within a family of flows
whose `log_prob` is the log-density of their samples up to a constant — none of which needs to know about the boundaries.  Then all production rows are finite points inside; and for every measurable `f`
that is integrable under the truncated target, bounded or not, and all `δ, ε > 0` there is an `L` such that with `L` or more production loops the average of `f` over the production rows of every chain is, with
probability at least `1 - ε`, within `δ` of the mean of `f` under the normalised truncated target. -/
theorem C100_production (k : Key) (h : IdealOn (Desc k) past sig P env) (c : BundleCfg XR D d M O) (data : Data D) (hE : AdaptiveWallBundle (Desc k) P sig env env' S lp g c data ν push lnf G)
    (m : Ω → M) (hm : Measurable[past] m) (hG : ∀ ω, m ω ∈ G) (X : ℕ → Ω → Pos ℝ d) (hX : ∀ i < c.nChains, Measurable[past] (X i)) (hXS : ∀ i < c.nChains, ∀ ω, X i ω ∈ S)
    (f : Pos ℝ d → ℝ) (hf : Measurable f) (hint : Integrable f (normalised (wallMeasure S lp))) (δ ε : ℝ) (hδ : 0 < δ) (hε : 0 < ε) :
    ∃ L, ∀ (n : ℕ), L ≤ n → ∀ (key : Ω → Key) (xs : Ω → List (Pos XR d)) (w w' : Ω → World XR D d M O), (∀ ω, (xs ω).length = c.nChains) →
      (∀ ω, Completes (env' ω) (malaBundle (c.withProd n)).strategies.lookup data (repeatPhase c.nTrainLoops trainingPhase ++ ["reset_steppers", "update_state"])
        ⟨key ω, xs ω, ⟨(malaBundle (c.withProd n)).resources, fun _ => 0⟩⟩ (w ω)) →
      (∀ ω, (w ω).key = k) → (∀ ω, (w ω).heap.res "global_sampler" = some (.kernel (.nf (m ω) c.nfBatch))) → (∀ ω, ∀ i < c.nChains, (w ω).xs[i]? = some (emb (X i ω))) →
      (∀ ω, Completes (env' ω) (malaBundle (c.withProd n)).strategies.lookup data (repeatPhase n productionPhase) (w ω) (w' ω)) →
      ∃ b : Ω → Buffer XR, (∀ ω, (w' ω).heap.res "positions_production" = some (.buffer (b ω))) ∧ (∀ ω, RowsInside S (b ω) c.nChains (c.withProd n).nProdSteps) ∧
        P.real {ω | ∃ i < c.nChains, δ < |wallMean f (b ω) i (c.withProd n).nProdSteps - ∫ x, f x ∂(normalised (wallMeasure S lp))|} ≤ ε := by
  obtain ⟨a, ha, has⟩ := hE.step
  have hη : 0 < ε / ((c.nChains : ℝ) + 1) := by positivity
  have each : ∀ i, ∃ L, i < c.nChains → ∀ n, L ≤ n → ∀ St Y, LoopRows P (noise d) (ν.prod unif) (fun _ : PastOf past => freeStep S (malaQ g a) (malaR lp g a))
        (pushBy (wallFlowStep S lp lnf) push (fun ω : PastOf past => m ω)) (toPast past)
        (loopsSteps c) (rowPre c) (P.map fun ω => (toPast past ω, X i ω)) n (rowsPerCall c true + rowsPerCall c false) St Y →
      P.real {ω | δ < |(∑ l ∈ Finset.range n, ∑ r ∈ Finset.range (rowsPerCall c true + rowsPerCall c false), f (Y l r ω)) / (n * (rowsPerCall c true + rowsPerCall c false : ℕ) : ℝ) -
        ∫ x, f x ∂(normalised (wallMeasure S lp))|} ≤ ε / ((c.nChains : ℝ) + 1) := by
    intro i
    by_cases hi : i < c.nChains
    · obtain ⟨L, hL⟩ := wall_chain_lln h c hE ha m hm hG (X i) (hX i hi) f hf hint δ _ hδ hη
      exact ⟨L, fun _ => hL⟩
    · exact ⟨0, fun h => absurd h hi⟩
  choose Li hLi using each
  refine ⟨(Finset.range c.nChains).sup Li, fun n hnL key xs w w' hx htrain hkey hflow hstart hprod => ?_⟩
  have hc' := goodCfg_withProd hE.good n
  have hl' : ∀ ω, (env' ω).ops.Lawful := fun ω => lifts_lawful (hE.lifts ω) (hE.flows.lawful ω)
  obtain ⟨logs, v, zs, b1, b2, e0, en, R⟩ := production_run hc' hl' w w' (fun ω => production_start (env' ω) (hl' ω) (c.withProd n) hc' data (key ω) (xs ω) (hx ω) (w ω) (htrain ω)) hkey hflow hprod
  choose b hb hcell using fun ω => R.buffer ω
  have rows := fun (i : ℕ) (hi : i < c.nChains) => wall_loopRows (fun _ ha _ => desc_trans ha) h (hE.withProd n) ha has hm hG (hX i hi) (hXS i hi) R i
    (fun l => .child i (.child 1 (desc_carryKey k l))) (fun ω => by rw [e0]; exact hstart ω i hi)
  choose St Y hY1 hY2 _ using rows
  have means := fun (i : ℕ) (hi : i < c.nChains) (ω : Ω) => wallMean_rows (S := S) (c := c.withProd n) hc' f i (Y i hi) (hY2 i hi) b (fun ω j hj => hcell ω i hi j hj) ω
  refine ⟨b, fun ω => by rw [← en]; exact hb ω, fun ω i hi => (means i hi ω).1, ?_⟩
  have hset : {ω | ∃ i < c.nChains, δ < |wallMean f (b ω) i (c.withProd n).nProdSteps - ∫ x, f x ∂(normalised (wallMeasure S lp))|} =
      ⋃ i ∈ Finset.range c.nChains, {ω | δ < |wallMean f (b ω) i (c.withProd n).nProdSteps - ∫ x, f x ∂(normalised (wallMeasure S lp))|} := by
    ext ω
    simp only [Set.mem_setOf_eq, Set.mem_iUnion, Finset.mem_range, exists_prop]
  rw [hset]
  refine (measureReal_biUnion_finset_le _ _).trans ?_
  calc _ ≤ ∑ i ∈ Finset.range c.nChains, ε / ((c.nChains : ℝ) + 1) := by
        refine Finset.sum_le_sum fun i hi => ?_
        have hL : Li i ≤ n := le_trans (Finset.le_sup (f := Li) hi) hnL
        rw [Finset.mem_range] at hi
        have hr := hY1 i hi
        have el : loopsSteps (c.withProd n) = loopsSteps c := funext fun l => loopsSteps_withProd c n l
        rw [el] at hr
        have := hLi i hi n hL (St i hi) (Y i hi) hr
        refine le_trans (le_of_eq ?_) this
        congr 1
        ext ω
        rw [Set.mem_setOf_eq, Set.mem_setOf_eq, (means i hi ω).2]
        rfl
    _ = c.nChains * (ε / ((c.nChains : ℝ) + 1)) := by simp
    _ ≤ ε := by rw [mul_div_assoc', div_le_iff₀ (by positivity)]; nlinarith

/-- A whole call, split at the end of training: with any number of production loops it passes through a state with the flow and the positions that training leaves. -/
theorem wall_split (h : IdealDraws past sig P env) (c : BundleCfg XR D d M O) (hn : 0 < c.nChains) (hb : 0 < c.batchSize) (hfin : ∀ x : ℝ, BufNum.isFinite (XR.fin x) = true) (data : Data D)
    (hB : AdaptiveWallBundle (fun _ => True) P sig env env' S lp g c data ν push lnf G) (key : Key) (init : Ω → InitPos XR d) (hx : ∀ ω, (init ω).atleast2d.length = c.nChains)
    (hin : ∀ ω, ∀ x ∈ (init ω).atleast2d, ∃ y ∈ S, x = emb y) (w : Ω → World XR D d M O)
    (hw : ∀ ω, Completes (env' ω) (malaBundle c).strategies.lookup data (repeatPhase c.nTrainLoops trainingPhase ++ ["reset_steppers", "update_state"])
      ⟨key, (init ω).atleast2d, ⟨(malaBundle c).resources, fun _ => 0⟩⟩ (w ω)) (n nd nc : ℕ) (kw : List (String × V)) (s : Sampler XR D d M O V)
    (hs : Sampler.new nd nc key none none none (some (malaBundle (c.withProd n))) kw = .ok s) :
    ∃ (s' : Ω → Sampler XR D d M O V) (v w' : Ω → World XR D d M O), (∀ ω, s.sample (env' ω) (init ω) data = (.ok (), s' ω)) ∧ (∀ ω, (s' ω).heap = (w' ω).heap) ∧
      (∀ ω, Completes (env' ω) (malaBundle (c.withProd n)).strategies.lookup data (repeatPhase c.nTrainLoops trainingPhase ++ ["reset_steppers", "update_state"])
        ⟨key, (init ω).atleast2d, ⟨(malaBundle (c.withProd n)).resources, fun _ => 0⟩⟩ (v ω)) ∧ (∀ ω, (v ω).key = trainedKey c.nTrainLoops c.nEpochs key) ∧
      (∀ ω, (v ω).heap.res "global_sampler" = (w ω).heap.res "global_sampler") ∧ (∀ ω, (v ω).xs = (w ω).xs) ∧
      ∀ ω, Completes (env' ω) (malaBundle (c.withProd n)).strategies.lookup data (repeatPhase n productionPhase) (v ω) (w' ω) := by
  obtain ⟨a, ha, has⟩ := hB.step
  simp only [Sampler.new, Except.ok.injEq] at hs
  subst hs
  have hl : ∀ ω, (env' ω).ops.Lawful := fun ω => lifts_lawful (hB.lifts ω) (hB.flows.lawful ω)
  have hSt : ∀ ω, StaysIn (env' ω) (c.withProd n) data (fun x => ∃ y ∈ S, x = emb y) := fun ω => wall_staysIn (hB.lifts ω) (hB.flows.lawful ω) (c.withProd n) (goodCfg_withProd hB.good n) hB.ignores hB.walled ha has hfin
  choose v w' h1 h2 using fun ω => bundle_total (env' ω) (hl ω) (c.withProd n) (goodCfg_withProd hB.good n) data hn hb _ (hSt ω) key (init ω).atleast2d (hx ω) (hin ω)
  have h3 : ∀ ω, Completes (env' ω) (bundleStrategies (c.withProd n)).lookup data (bundleOrder (c.withProd n)) ⟨key, (init ω).atleast2d, ⟨bundleResources (c.withProd n), fun _ => 0⟩⟩ (w' ω) := fun ω => by
    rw [bundleOrder, completes_append]; exact ⟨v ω, h1 ω, h2 ω⟩
  have h4 := fun ω => completes_sample (h3 ω)
  have hsample : ∀ ω, Sampler.sample (V := V) (env' ω) ⟨nd, nc, key, ⟨bundleResources (c.withProd n), fun _ => 0⟩, (bundleStrategies (c.withProd n)).lookup, some (bundleOrder (c.withProd n)),
      setAttrs kw (fun _ => none)⟩ (init ω) data =
      (.ok (), ⟨nd, nc, key, (w' ω).heap, (bundleStrategies (c.withProd n)).lookup, some (bundleOrder (c.withProd n)), setAttrs kw (fun _ => none)⟩) := by
    intro ω
    simp only [Sampler.sample]
    rw [h4 ω]
  have hsame : ∀ ω, (v ω).heap.res "global_sampler" = (w ω).heap.res "global_sampler" ∧ (v ω).xs = (w ω).xs := by
    intro ω
    have := C85_training (env' ω) none c n data key (init ω).atleast2d
    simp only [libraryBundle, trainingOrder] at this
    rw [completes_sample (hw ω)] at this
    have e : runOrder (env' ω) (malaBundle (c.withProd n)).strategies.lookup (repeatPhase c.nTrainLoops trainingPhase ++ ["reset_steppers", "update_state"]) key (init ω).atleast2d data
        ⟨(malaBundle (c.withProd n)).resources, fun _ => 0⟩ = (.ok ((v ω).key, (v ω).xs), (v ω).heap) := completes_sample (h1 ω)
    have this2 : SameOutcome notProduction (Except.ok ((w ω).key, (w ω).xs), (w ω).heap) (runOrder (env' ω) (malaBundle (c.withProd n)).strategies.lookup
      (repeatPhase c.nTrainLoops trainingPhase ++ ["reset_steppers", "update_state"]) key (init ω).atleast2d data ⟨(malaBundle (c.withProd n)).resources, fun _ => 0⟩) := this
    rw [e] at this2
    obtain ⟨a, b⟩ := this2
    simp only [Except.ok.injEq, Prod.mk.injEq] at a
    exact ⟨(b.1 _ (by simp [notProduction])).symm, a.2.symm⟩
  exact ⟨_, v, w', hsample, fun _ => rfl, h1, fun ω => switch_key (env' ω) (c.withProd n) data _ _ _ (h1 ω), fun ω => (hsame ω).1, fun ω => (hsame ω).2, h2⟩

/-- **C100 (whole `sample` call).** As `C100_production`, for the call `Sampler(...).sample(initial_position, data)` with a bundle of `L` or more production loops: the call returns, every production row is a finite
point inside, and with probability at least `1 - ε` the average of `f` over the production rows of every chain is within `δ` of its mean under the truncated target, whatever training does. -/
theorem C100_sample (h : IdealDraws past sig P env) (c : BundleCfg XR D d M O) (hn : 0 < c.nChains) (hb : 0 < c.batchSize) (hfin : ∀ x : ℝ, BufNum.isFinite (XR.fin x) = true) (data : Data D)
    (hB : AdaptiveWallBundle (fun _ => True) P sig env env' S lp g c data ν push lnf G) (key : Key) (init : Ω → InitPos XR d) (hx : ∀ ω, (init ω).atleast2d.length = c.nChains)
    (hin : ∀ ω, ∀ x ∈ (init ω).atleast2d, ∃ y ∈ S, x = emb y) (w : Ω → World XR D d M O)
    (hw : ∀ ω, Completes (env' ω) (malaBundle c).strategies.lookup data (repeatPhase c.nTrainLoops trainingPhase ++ ["reset_steppers", "update_state"])
      ⟨key, (init ω).atleast2d, ⟨(malaBundle c).resources, fun _ => 0⟩⟩ (w ω))
    (m : Ω → M) (hm : Measurable[before past sig (trainedKey c.nTrainLoops c.nEpochs key)] m) (hG : ∀ ω, m ω ∈ G) (hflow : ∀ ω, (w ω).heap.res "global_sampler" = some (.kernel (.nf (m ω) c.nfBatch)))
    (X : ℕ → Ω → Pos ℝ d) (hX : ∀ i < c.nChains, Measurable[before past sig (trainedKey c.nTrainLoops c.nEpochs key)] (X i)) (hXS : ∀ i < c.nChains, ∀ ω, X i ω ∈ S)
    (hstart : ∀ ω, ∀ i < c.nChains, (w ω).xs[i]? = some (emb (X i ω))) 
    (f : Pos ℝ d → ℝ) (hf : Measurable f) (hint : Integrable f (normalised (wallMeasure S lp))) (δ ε : ℝ) (hδ : 0 < δ) (hε : 0 < ε) :
    ∃ L, ∀ (n : ℕ), L ≤ n → ∀ (nd nc : ℕ) (kw : List (String × V)) (s : Sampler XR D d M O V), Sampler.new nd nc key none none none (some (malaBundle (c.withProd n))) kw = .ok s →
      ∃ (s' : Ω → Sampler XR D d M O V) (b : Ω → Buffer XR), (∀ ω, s.sample (env' ω) (init ω) data = (.ok (), s' ω)) ∧ (∀ ω, (s' ω).heap.res "positions_production" = some (.buffer (b ω))) ∧
        (∀ ω, RowsInside S (b ω) c.nChains (c.withProd n).nProdSteps) ∧
        P.real {ω | ∃ i < c.nChains, δ < |wallMean f (b ω) i (c.withProd n).nProdSteps - ∫ x, f x ∂(normalised (wallMeasure S lp))|} ≤ ε := by
  set k := trainedKey c.nTrainLoops c.nEpochs key with hk
  have hI := idealOn_before h k (fun _ _ => trivial)
  have hE : AdaptiveWallBundle (Desc k) P (after sig k) env env' S lp g c data ν push lnf G :=
    ⟨hB.lifts, hB.good, hB.step, hB.walled, hB.ignores, hB.nonzero, hB.finite, flowFamily_before k (fun _ _ => trivial) hB.flows⟩
  obtain ⟨N, hN⟩ := C100_production k hI c data hE m hm hG X hX hXS f hf hint δ ε hδ hε
  refine ⟨N, fun n hnL nd nc kw s hs => ?_⟩
  obtain ⟨s', v, w', g1, g2, g3, g4, g5, g6, g7⟩ := wall_split h c hn hb hfin data hB key init hx hin w hw n nd nc kw s hs
  obtain ⟨b, hb1, hb2⟩ := hN n hnL (fun _ => key) (fun ω => (init ω).atleast2d) v w' hx g3 g4 (fun ω => by rw [g5]; exact hflow ω) (fun ω i hi => by rw [g6]; exact hstart ω i hi) g7
  exact ⟨s', b, g1, fun ω => by rw [g2]; exact hb1 ω, hb2⟩

/-- **C100 (end to end).** As `C100_sample`, where training is any procedure of the code's shape: its shuffles and choices of examples are drawn with their keys, the optimisation step and the standardisation are any
measurable functions that keep the flow in the family `G`; the initial positions are random, determined by the past, at finite points inside.  Nothing is assumed about what training achieves. -/
theorem C100_adaptive (h : IdealDraws past sig P env) (c : BundleCfg XR D d M O) (hn : 0 < c.nChains) (hb : 0 < c.batchSize) (hfin : ∀ x : ℝ, BufNum.isFinite (XR.fin x) = true) (data : Data D)
    (hB : AdaptiveWallBundle (fun _ => True) P sig env env' S lp g c data ν push lnf G) (hT : OrdinaryTraining sig env' G) (hflow : c.flow ∈ G) (key : Key) (init : Ω → InitPos XR d)
    (hx : ∀ ω, (init ω).atleast2d.length = c.nChains) (hX : ∀ i < c.nChains, ∃ X : Ω → Fin d → ℝ, Measurable[past] X ∧ ∀ ω, (init ω).atleast2d[i]? = some (emb (X ω)) ∧ X ω ∈ S) 
    (f : Pos ℝ d → ℝ) (hf : Measurable f) (hint : Integrable f (normalised (wallMeasure S lp))) (δ ε : ℝ) (hδ : 0 < δ) (hε : 0 < ε) :
    ∃ L, ∀ (n : ℕ), L ≤ n → ∀ (nd nc : ℕ) (kw : List (String × V)) (s : Sampler XR D d M O V), Sampler.new nd nc key none none none (some (malaBundle (c.withProd n))) kw = .ok s →
      ∃ (s' : Ω → Sampler XR D d M O V) (b : Ω → Buffer XR), (∀ ω, s.sample (env' ω) (init ω) data = (.ok (), s' ω)) ∧ (∀ ω, (s' ω).heap.res "positions_production" = some (.buffer (b ω))) ∧
        (∀ ω, RowsInside S (b ω) c.nChains (c.withProd n).nProdSteps) ∧
        P.real {ω | ∃ i < c.nChains, δ < |wallMean f (b ω) i (c.withProd n).nProdSteps - ∫ x, f x ∂(normalised (wallMeasure S lp))|} ≤ ε := by
  obtain ⟨a, ha, has⟩ := hB.step
  have hin : ∀ ω, ∀ x ∈ (init ω).atleast2d, ∃ y ∈ S, x = emb y := by
    intro ω x hxm
    obtain ⟨i, hi⟩ := List.mem_iff_getElem?.1 hxm
    have hic : i < c.nChains := by rw [← hx ω]; exact (List.getElem?_eq_some_iff.1 hi).1
    obtain ⟨X, -, e⟩ := hX i hic
    rw [(e ω).1, Option.some.injEq] at hi
    exact ⟨_, (e ω).2, hi.symm⟩
  have hl : ∀ ω, (env' ω).ops.Lawful := fun ω => lifts_lawful (hB.lifts ω) (hB.flows.lawful ω)
  have hSt : ∀ ω, StaysIn (env' ω) c data (fun x => ∃ y ∈ S, x = emb y) := fun ω => wall_staysIn (hB.lifts ω) (hB.flows.lawful ω) c hB.good hB.ignores hB.walled ha has hfin
  choose w w' h1 h2 using fun ω => bundle_total (env' ω) (hl ω) c hB.good data hn hb _ (hSt ω) key (init ω).atleast2d (hx ω) (hin ω)
  have hfin' : MeasurableSet {x : XR | BufNum.isFinite x = true} := XR.measurable_const _ (Or.inl hfin)
  obtain ⟨m, hm, hG, hmg, hX'⟩ := wall_trained_before h c hfin' data hB hT hflow key (fun ω => (init ω).atleast2d) hx hX w h1
  choose! X hXm hXe using hX'
  exact C100_sample h c hn hb hfin data hB key init hx hin w h1 m hm hG hmg X hXm (fun i hi ω => (hXe i hi ω).2) (fun ω i hi => (hXe i hi ω).1) f hf hint δ ε hδ hε

end
end FlowMC
