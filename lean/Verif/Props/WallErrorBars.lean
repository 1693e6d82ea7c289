import Verif.Lemmas.WallRate
import Verif.Props.ErrorBars
/-
C101: error bars of production averages on a target with hard boundaries, when the flow covers the truncated target.
-/
open MeasureTheory ProbabilityTheory Filter
open scoped ENNReal Topology
set_option linter.unusedSectionVars false
namespace FlowMC
open Spec
noncomputable section
open Classical

variable {Ω D M O V Z : Type} {d : ℕ}
variable {S : Set (Fin d → ℝ)} {lp : (Fin d → ℝ) → ℝ} {g : (Fin d → ℝ) → Fin d → ℝ} {data : Data D}
variable {past : MeasurableSpace Ω} {sig : Key → MeasurableSpace Ω} [mΩ : MeasurableSpace Ω] {P : Measure Ω} [IsProbabilityMeasure P] {env : Ω → Env ℝ D d M O} {env' : Ω → Env XR D d M O} {T : Key → Prop}
  [MeasurableSpace M] [MeasurableSpace O] [MeasurableSpace Z] {ν : Measure Z} {push : M → Z → Pos ℝ d} {lnf : M → Pos ℝ d → ℝ} {G : Set M} [BufNum XR]

omit [MeasurableSpace O] [BufNum XR] in
theorem normalised_wall_ae (hS : MeasurableSet S) : ∀ᵐ x ∂(normalised (wallMeasure S lp)), x ∈ S := by
  have : wallMeasure S lp Sᶜ = 0 := (withDensity_absolutelyContinuous (volume.restrict S) _) (by rw [Measure.restrict_apply hS.compl]; simp)
  have h2 : normalised (wallMeasure S lp) Sᶜ = 0 := by rw [normalised, Measure.smul_apply, this, smul_zero]
  exact h2

omit [MeasurableSpace O] [BufNum XR] [IsProbabilityMeasure P] in
theorem wall_stepMeas {c : BundleCfg XR D d M O} (hE : AdaptiveWallBundle T P sig env env' S lp g c data ν push lnf G) {s : ℝ} (hs : s ≠ 0) :
    Measurable fun p : (PastOf past × Pos ℝ d) × ((Fin d → ℝ) × ℝ) => freeStep S (malaQ g s) (malaR lp g s) p.2 p.1.2 :=
  (mala_wallMH hE.walled hE.nonzero hE.finite s hs).step_meas.comp ((measurable_snd.comp measurable_fst).prodMk measurable_snd)

omit [MeasurableSpace O] [BufNum XR] [IsProbabilityMeasure P] in
theorem wall_flowMeas {c : BundleCfg XR D d M O} (hE : AdaptiveWallBundle T P sig env env' S lp g c data ν push lnf G) {m : Ω → M} (hm : Measurable[past] m) :
    Measurable fun p : (PastOf past × Pos ℝ d) × (Z × ℝ) => pushBy (wallFlowStep S lp lnf) push (fun ω : PastOf past => m ω) p.1.1 p.2 p.1.2 :=
  wallFlowStep_measurable (Z := Z) (push := push) hE.walled.meas hE.walled.meas_lp hE.flows.pushMeas hE.flows.lnfMeas (fun ω : PastOf past => m ω) hm

theorem loopMean_past {Ω N1 N2 : Type} {past : MeasurableSpace Ω} [MeasurableSpace N1] [MeasurableSpace N2] {ν1 : Measure N1} {ν2 : Measure N2} [IsProbabilityMeasure ν1] [IsProbabilityMeasure ν2]
    {s1 : PastOf past → N1 → Pos ℝ d → Pos ℝ d} {s2 : PastOf past → N2 → Pos ℝ d → Pos ℝ d} (loops pre : ℕ → List Bool) (n Q : ℕ)
    (h1 : Measurable fun p : (PastOf past × Pos ℝ d) × N1 => s1 p.1.1 p.2 p.1.2) (h2 : Measurable fun p : (PastOf past × Pos ℝ d) × N2 => s2 p.1.1 p.2 p.1.2) {f : Pos ℝ d → ℝ} (hf : Measurable f)
    {X : Ω → Pos ℝ d} (hX : Measurable[past] X) : Measurable[past] fun ω => loopMean ν1 ν2 s1 s2 loops pre n Q f (toPast past ω) (X ω) := by
  have e := loopMean_measurable (ν1 := ν1) (ν2 := ν2) (s1 := s1) (s2 := s2) (loops := loops) (pre := pre) (n := n) (Q := Q) h1 h2 hf
  have hp : Measurable[past] fun ω => (toPast past ω, X ω) := (toPast_measurable past).prodMk hX
  generalize loopMean ν1 ν2 s1 s2 loops pre n Q f = F at *
  exact e.comp hp

omit [MeasurableSpace O] in
/-- Error bars of all averages over a production run inside the walls. -/
theorem ProdRun.wallErrorBars {c : BundleCfg XR D d M O} {m : Ω → M} {k : Key} {logs : Ω → Bool → List (Block XR d)} {w : ℕ → Ω → World XR D d M O} {zs : ℕ → Ω → List (Pos XR d)}
    {b1 b2 : ℕ → Ω → Block XR d} (R : ProdRun env' c data m k logs c.nProdLoops w zs b1 b2) (h : IdealOn (Desc k) past sig P env)
    (hE : AdaptiveWallBundle (Desc k) P sig env env' S lp g c data ν push lnf G)
    (hC0 : 0 < c.nChains) (hn : 0 < c.nProdLoops) (hm : Measurable[past] m) (hG : ∀ ω, m ω ∈ G) (X : ℕ → Ω → Pos ℝ d) (hX : ∀ i < c.nChains, Measurable[past] (X i)) (hXS : ∀ i < c.nChains, ∀ ω, X i ω ∈ S)
    (hstart : ∀ i < c.nChains, ∀ ω, (w 0 ω).xs[i]? = some (emb (X i ω)))
    {C : ℝ} (hC : 1 ≤ C) (hcov : ∀ m ∈ G, ∀ x ∈ S, wallDensity S lp x ≤ C * density (lnf m) x) {f : Pos ℝ d → ℝ} (hf : Measurable f) {B : ℝ} (hB : ∀ x ∈ S, ∀ y ∈ S, |f x - f y| ≤ B)
    (b : Ω → Buffer XR)
    (hb : ∀ ω, ∀ i < c.nChains, ∀ j < c.nProdSteps, ∀ Y, rowCell c b1 b2 i (j / (rowsPerCall c true + rowsPerCall c false)) (j % (rowsPerCall c true + rowsPerCall c false)) ω = some Y →
      ∀ a : Fin d, (b ω).data.get [i, j, a] = Y a) :
    (∀ ω, RowsInside S (b ω) c.nChains c.nProdSteps) ∧ WallErrorBars P f (∫ x, f x ∂(normalised (wallMeasure S lp))) b c.nChains c.nProdSteps (2 * B / (c.nProdLoops * (1 - loopFactor c C)))
      (B ^ 2 * (1 + 4 / (1 - loopFactor c C)) / c.nProdLoops) := by
  obtain ⟨s, hs0, hss⟩ := hE.step
  haveI := hE.flows.prob
  haveI := wall_isProb hE.nonzero hE.finite
  haveI : IsProbabilityMeasure (noise d) := by unfold noise; infer_instance
  have hSm := hE.walled.meas
  set π := normalised (wallMeasure S lp) with hπ
  have hae : ∀ᵐ x ∂π, x ∈ S := normalised_wall_ae hSm
  set a := ∫ x, f x ∂π with ha
  obtain ⟨y0, hy0⟩ : ∃ y, y ∈ S := hae.exists
  have fint : Integrable f π := Integrable.of_bound hf.aestronglyMeasurable (|f y0| + B) (hae.mono fun x hx => by
    have h1 := abs_le.1 (hB x hx y0 hy0); have := neg_abs_le (f y0); have := le_abs_self (f y0)
    rw [Real.norm_eq_abs, abs_le]; constructor <;> linarith)
  have hB0 : 0 ≤ B := le_trans (abs_nonneg _) (hB y0 hy0 y0 hy0)
  set f0 : Pos ℝ d → ℝ := fun x => if x ∈ S then f x - a else 0 with hf0
  have hf0m : Measurable f0 := Measurable.ite hSm (hf.sub_const a) measurable_const
  have f0b : ∀ x, |f0 x| ≤ B := by
    intro x
    simp only [hf0]
    split_ifs with hx
    · have e : f x - a = ∫ y, (f x - f y) ∂π := by rw [integral_sub (integrable_const _) fint]; simp [ha]
      rw [e]
      have := norm_integral_le_of_norm_le_const (μ := π) (f := fun y => f x - f y) (C := B) (hae.mono fun y hy => by rw [Real.norm_eq_abs]; exact hB x hx y hy)
      simpa using this
    · simpa using hB0
  have f0i : ∫ x, f0 x ∂π = 0 := by
    rw [integral_congr_ae (g := fun x => f x - a) (hae.mono fun x hx => by simp only [hf0]; rw [if_pos hx]), integral_sub fint (integrable_const a)]; simp [ha]
  obtain ⟨hρ0, hρ1⟩ := loopFactor_lt c hC
  set Q := rowsPerCall c true + rowsPerCall c false with hQ
  set n := c.nProdLoops with hnn
  have hQ0 : 0 < Q := by have := rowsPerCall_pos hE.good true; omega
  have hnp : (0 : ℝ) < n := by exact_mod_cast hn
  have hQp : (0 : ℝ) < Q := by exact_mod_cast hQ0
  have hM := mala_wallMH hE.walled hE.nonzero hE.finite s hs0
  set Zf : ℕ → Ω → ℝ := fun i ω => wallMean f (b ω) i c.nProdSteps - a with hZf
  set Φ : ℕ → Ω → ℝ := fun i ω => loopMean (noise d) (ν.prod unif) (fun _ : PastOf past => freeStep S (malaQ g s) (malaR lp g s)) (pushBy (wallFlowStep S lp lnf) push (fun ω : PastOf past => m ω))
    (loopsSteps c) (rowPre c) n Q f0 (toPast past ω) (X i ω) with hΦ
  set bias := 2 * B / (n * (1 - loopFactor c C)) with hbias
  have hb0 : 0 ≤ bias := div_nonneg (by positivity) (mul_nonneg hnp.le (by linarith))
  have Φb : ∀ i ω, |Φ i ω| ≤ bias := fun i ω => loopMean_bias (wall_stepMeas hE hs0) (wall_flowMeas hE hm) (wall_loopsRate hE hs0 hC hcov m hG) hρ0 hρ1 hn hQ0 hf0m f0b f0i _ _
  have Φm : ∀ i < c.nChains, Measurable[past] (Φ i) := by
    intro i hi
    exact loopMean_past (loopsSteps c) (rowPre c) n Q (wall_stepMeas hE hs0) (wall_flowMeas hE hm) hf0m (hX i hi)
  have centre : ∀ i (Y : ℕ → ℕ → Ω → Pos ℝ d), i < c.nChains → (∀ l < n, ∀ r < Q, ∀ ω, rowCell c b1 b2 i l r ω = some (emb (Y l r ω)) ∧ Y l r ω ∈ S) →
      ∀ ω, Zf i ω = (∑ l ∈ Finset.range n, ∑ r ∈ Finset.range Q, f0 (Y l r ω)) / (n * Q : ℝ) := by
    intro i Y hi hY ω
    simp only [hZf]
    rw [(wallMean_rows (S := S) hE.good f i Y hY b (fun ω j hj => hb ω i hi j hj) ω).2, eq_div_iff (by positivity), sub_mul, div_mul_cancel₀ _ (by positivity)]
    have : ∑ l ∈ Finset.range n, ∑ r ∈ Finset.range Q, f0 (Y l r ω) = ∑ l ∈ Finset.range n, ∑ r ∈ Finset.range Q, (f (Y l r ω) - a) := by
      refine Finset.sum_congr rfl fun l hl => Finset.sum_congr rfl fun r hr => ?_
      simp only [hf0]
      rw [if_pos (hY l (Finset.mem_range.1 hl) r (Finset.mem_range.1 hr) ω).2]
    rw [this]
    simp only [Finset.sum_sub_distrib, Finset.sum_const, Finset.card_range, nsmul_eq_mul]
    ring
  -- every chain, given the past
  have one : ∀ i < c.nChains, (∀ ω, ∀ j < c.nProdSteps, ∃ y ∈ S, ∀ a : Fin d, (b ω).data.get [i, j, a] = XR.fin (y a)) ∧ (∀ ω, |Zf i ω| ≤ B) ∧
      Measurable[info past (inside sig (chainKeys k i)) Set.univ] (Zf i) ∧
      (∀ (g : Ω → ℝ) (A : ℝ), Measurable[outside past sig (chainKeys k i)] g → (∀ ω, |g ω| ≤ A) → ∫ ω, g ω * Zf i ω ∂P = ∫ ω, g ω * Φ i ω ∂P) ∧
      ∫ ω, Zf i ω ^ 2 ∂P ≤ B ^ 2 * (1 + 4 / (1 - loopFactor c C)) / n := by
    intro i hi
    have hkeys : ∀ l, chainKeys k i (.child (.child (carryKey k l) 1) i) := fun l => ⟨l, .refl⟩
    have hp := past_le_outside past sig (chainKeys k i)
    obtain ⟨St, Y, hL, hYr, hYm⟩ := wall_loopRows (chainKeys_closed k i) (idealOn_inside h (chainKeys k i) fun _ => chainKeys_desc) (hE.inside (chainKeys k i) fun _ => chainKeys_desc) hs0 hss hm hG (hX i hi) (hXS i hi) R i hkeys
      (hstart i hi)
    obtain ⟨St', Y', hL', hYr', -⟩ := wall_loopRows (chainKeys_closed k i) (idealOn_outside h (chainKeys k i) fun _ => chainKeys_desc) (hE.inside (chainKeys k i) fun _ => chainKeys_desc) hs0 hss (hm.mono hp le_rfl) hG
      ((hX i hi).mono hp le_rfl) (hXS i hi) R i hkeys (hstart i hi)
    have e1 := centre i Y hi hYr
    have e2 := centre i Y' hi hYr'
    refine ⟨fun ω => (wallMean_rows (S := S) hE.good f i Y hYr b (fun ω j hj => hb ω i hi j hj) ω).1, fun ω => ?_, ?_, fun g A hgm hA => ?_, ?_⟩
    · rw [e1, abs_div, abs_of_pos (by positivity : (0 : ℝ) < n * Q), div_le_iff₀ (by positivity)]
      calc _ ≤ ∑ l ∈ Finset.range n, |∑ r ∈ Finset.range Q, f0 (Y l r ω)| := Finset.abs_sum_le_sum_abs _ _
        _ ≤ ∑ l ∈ Finset.range n, ∑ r ∈ Finset.range Q, |f0 (Y l r ω)| := Finset.sum_le_sum fun l _ => Finset.abs_sum_le_sum_abs _ _
        _ ≤ ∑ l ∈ Finset.range n, ∑ r ∈ Finset.range Q, B := Finset.sum_le_sum fun l _ => Finset.sum_le_sum fun r _ => f0b _
        _ = _ := by simp; ring
    · have : Zf i = fun ω => (∑ l ∈ Finset.range n, ∑ r ∈ Finset.range Q, f0 (Y l r ω)) / (n * Q : ℝ) := funext e1
      rw [this]
      refine Measurable.div_const ?_ _
      refine Finset.measurable_sum _ fun l hl => Finset.measurable_sum _ fun r hr => ?_
      exact hf0m.comp ((hYm l (Finset.mem_range.1 hl) r (Finset.mem_range.1 hr)).mono (info_mono (Set.subset_univ _)) le_rfl)
    · simp only [e2]
      have hle : outside past sig (chainKeys k i) ≤ mΩ := h.info_le _
      exact LoopRows.given (g := fun ω : PastOf (outside past sig (chainKeys k i)) => g ω) (wall_stepMeas hE hs0) (wall_flowMeas hE (hm.mono hp le_rfl)) ((toPast_measurable _).mono hle le_rfl) ((hX i hi).mono h.past_le le_rfl) hL' hf0m f0b hgm hA
    · simp only [e1]
      exact LoopRows.square (wall_stepMeas hE hs0) (wall_flowMeas hE hm) ((toPast_measurable _).mono h.past_le le_rfl) hL (wall_loopsRate hE hs0 hC hcov m hG) hρ0 hρ1 hn hQ0 hf0m f0b f0i
  have Zm : ∀ i < c.nChains, Measurable (Zf i) := fun i hi => (one i hi).2.2.1.mono ((idealOn_inside h (chainKeys k i) fun _ => chainKeys_desc).info_le _) le_rfl
  -- two chains
  have cross : ∀ i < c.nChains, ∀ j < c.nChains, i ≠ j → ∫ ω, Zf i ω * Zf j ω ∂P ≤ bias ^ 2 := by
    intro i hi j hj hij
    rw [(one j hj).2.2.2.1 (Zf i) B ((one i hi).2.2.1.mono (info_inside_le past sig (chainKeys_disjoint k hij.symm) _) le_rfl) (one i hi).2.1]
    have := (one i hi).2.2.2.1 (Φ j) bias ((Φm j hj).mono (past_le_outside past sig _) le_rfl) (Φb j)
    simp only [mul_comm (Zf i _)]
    rw [this]
    refine (le_abs_self _).trans (abs_integral_bdd fun ω => ?_)
    rw [abs_mul, sq]
    exact mul_le_mul (Φb j ω) (Φb i ω) (abs_nonneg _) hb0
  refine ⟨fun ω i hi j hj => (one i hi).1 ω j hj, fun i hi => ?_, fun i hi => ?_, fun i hi => (one i hi).2.2.2.2, ?_⟩
  · have := (Zm i hi).add_const a
    simpa [hZf] using this
  · have e : ∫ ω, wallMean f (b ω) i c.nProdSteps ∂P - a = ∫ ω, Zf i ω ∂P := by
      have hi' : Integrable (fun ω => wallMean f (b ω) i c.nProdSteps) P := by
        have := (integrable_bdd (μ := P) (Zm i hi) (one i hi).2.1).add (integrable_const a)
        refine this.congr (ae_of_all _ fun ω => ?_)
        simp [hZf]
      simp only [hZf]
      rw [integral_sub hi' (integrable_const a)]; simp
    have g1 := (one i hi).2.2.2.1 (fun _ => 1) 1 measurable_const (fun _ => by simp)
    simp only [one_mul] at g1
    rw [e, g1]
    exact abs_integral_bdd (Φb i)
  · have hCp : (0 : ℝ) < c.nChains := by exact_mod_cast hC0
    have e : ∀ ω, wallPooledMean f (b ω) c.nChains c.nProdSteps - a = (∑ i ∈ Finset.range c.nChains, Zf i ω) / c.nChains := fun ω => by
      simp only [wallPooledMean, hZf, Finset.sum_sub_distrib, Finset.sum_const, Finset.card_range, nsmul_eq_mul]
      field_simp
    simp only [e]
    exact pooled_square hC0 Zf Zm (fun i hi => (one i hi).2.1) (sq_nonneg _) (fun i hi => (one i hi).2.2.2.2) cross

omit [MeasurableSpace O] in
/-- **C101 (production phase).** A run of `RQSpline_MALA_Bundle` on a target with hard boundaries (`-inf` or NaN outside a region `S`, of positive and finite mass).  When training is over (`w ω`) the random key is
`k`, the flow in the global sampler is `m ω` and chain `i` is at the finite point `X i ω` inside, flow and positions being *any* functions of what happened before; the flow is one of a family of flows whose `log_prob`
is the log-density of their samples up to a constant and whose density is, at every point inside, at least `1/C` times the density of the truncated target.  Let `f` be any measurable function whose values *inside* differ
by at most `B` — on a bounded region, for instance, a parameter itself — and `n` the number of production loops.  Then every production row is a finite point inside, and the average of `f` over the production rows of
any one chain, as an estimate of the mean of `f` under the truncated target, has bias at most `2 B / (n (1 - ρ))` and mean square error at most `B² (1 + 4 / (1 - ρ)) / n`, where `ρ = (1 - 1/C)^p` and `p` is the number of
flow proposals of a loop up to the last recorded one; averaging over all chains divides the mean square error by the number of chains, up to the square of the bias. -/
theorem C101_production (k : Key) (h : IdealOn (Desc k) past sig P env) (c : BundleCfg XR D d M O) (hC0 : 0 < c.nChains) (hn : 0 < c.nProdLoops) (data : Data D)
    (hE : AdaptiveWallBundle (Desc k) P sig env env' S lp g c data ν push lnf G) (C : ℝ) (hC : 1 ≤ C) (hcov : ∀ m ∈ G, ∀ x ∈ S, wallDensity S lp x ≤ C * density (lnf m) x)
    (m : Ω → M) (hm : Measurable[past] m) (hG : ∀ ω, m ω ∈ G) (X : ℕ → Ω → Pos ℝ d) (hX : ∀ i < c.nChains, Measurable[past] (X i)) (hXS : ∀ i < c.nChains, ∀ ω, X i ω ∈ S)
    (f : Pos ℝ d → ℝ) (hf : Measurable f) (B : ℝ) (hB : ∀ x ∈ S, ∀ y ∈ S, |f x - f y| ≤ B)
    (key : Ω → Key) (xs : Ω → List (Pos XR d)) (w w' : Ω → World XR D d M O) (hx : ∀ ω, (xs ω).length = c.nChains)
    (htrain : ∀ ω, Completes (env' ω) (malaBundle c).strategies.lookup data (repeatPhase c.nTrainLoops trainingPhase ++ ["reset_steppers", "update_state"])
      ⟨key ω, xs ω, ⟨(malaBundle c).resources, fun _ => 0⟩⟩ (w ω))
    (hkey : ∀ ω, (w ω).key = k) (hflow : ∀ ω, (w ω).heap.res "global_sampler" = some (.kernel (.nf (m ω) c.nfBatch))) (hstart : ∀ ω, ∀ i < c.nChains, (w ω).xs[i]? = some (emb (X i ω)))
    (hprod : ∀ ω, Completes (env' ω) (malaBundle c).strategies.lookup data (repeatPhase c.nProdLoops productionPhase) (w ω) (w' ω)) :
    ∃ b : Ω → Buffer XR, (∀ ω, (w' ω).heap.res "positions_production" = some (.buffer (b ω))) ∧ (∀ ω, RowsInside S (b ω) c.nChains c.nProdSteps) ∧
      WallErrorBars P f (∫ x, f x ∂(normalised (wallMeasure S lp))) b c.nChains c.nProdSteps (2 * B / (c.nProdLoops * (1 - loopFactor c C)))
        (B ^ 2 * (1 + 4 / (1 - loopFactor c C)) / c.nProdLoops) := by
  have hl' : ∀ ω, (env' ω).ops.Lawful := fun ω => lifts_lawful (hE.lifts ω) (hE.flows.lawful ω)
  obtain ⟨logs, v, zs, b1, b2, e0, en, R⟩ := production_run hE.good hl' w w' (fun ω => production_start (env' ω) (hl' ω) c hE.good data (key ω) (xs ω) (hx ω) (w ω) (htrain ω)) hkey hflow hprod
  choose b hb hcell using fun ω => R.buffer ω
  exact ⟨b, fun ω => by rw [← en]; exact hb ω, R.wallErrorBars h hE hC0 hn hm hG X hX hXS (fun i hi ω => by rw [e0]; exact hstart ω i hi) hC hcov hf hB b hcell⟩

/-- **C101 (the whole run).** A call of `sample` with the MALA bundle, in an ideal random world, on a target with hard boundaries, flow and positions at the end of training being random in any way.  The call returns,
and the production buffer it leaves has all rows inside and the error bars of C101. -/
theorem C101_sample (h : IdealDraws past sig P env) (c : BundleCfg XR D d M O) (hC0 : 0 < c.nChains) (hb : 0 < c.batchSize) (hfin : ∀ x : ℝ, BufNum.isFinite (XR.fin x) = true) (data : Data D)
    (hB : AdaptiveWallBundle (fun _ => True) P sig env env' S lp g c data ν push lnf G) (C : ℝ) (hC : 1 ≤ C) (hcov : ∀ m ∈ G, ∀ x ∈ S, wallDensity S lp x ≤ C * density (lnf m) x)
    (key : Key) (init : Ω → InitPos XR d) (hx : ∀ ω, (init ω).atleast2d.length = c.nChains) (hin : ∀ ω, ∀ x ∈ (init ω).atleast2d, ∃ y ∈ S, x = emb y) (w : Ω → World XR D d M O)
    (hw : ∀ ω, Completes (env' ω) (malaBundle c).strategies.lookup data (repeatPhase c.nTrainLoops trainingPhase ++ ["reset_steppers", "update_state"])
      ⟨key, (init ω).atleast2d, ⟨(malaBundle c).resources, fun _ => 0⟩⟩ (w ω))
    (m : Ω → M) (hm : Measurable[before past sig (trainedKey c.nTrainLoops c.nEpochs key)] m) (hG : ∀ ω, m ω ∈ G) (hflow : ∀ ω, (w ω).heap.res "global_sampler" = some (.kernel (.nf (m ω) c.nfBatch)))
    (X : ℕ → Ω → Pos ℝ d) (hX : ∀ i < c.nChains, Measurable[before past sig (trainedKey c.nTrainLoops c.nEpochs key)] (X i)) (hXS : ∀ i < c.nChains, ∀ ω, X i ω ∈ S)
    (hstart : ∀ ω, ∀ i < c.nChains, (w ω).xs[i]? = some (emb (X i ω)))
    (f : Pos ℝ d → ℝ) (hf : Measurable f) (B : ℝ) (hfB : ∀ x ∈ S, ∀ y ∈ S, |f x - f y| ≤ B) (n : ℕ) (hn : 0 < n) (nd nc : ℕ) (kw : List (String × V)) (s : Sampler XR D d M O V)
    (hs : Sampler.new nd nc key none none none (some (malaBundle (c.withProd n))) kw = .ok s) :
    ∃ (s' : Ω → Sampler XR D d M O V) (b : Ω → Buffer XR), (∀ ω, s.sample (env' ω) (init ω) data = (.ok (), s' ω)) ∧ (∀ ω, (s' ω).heap.res "positions_production" = some (.buffer (b ω))) ∧
      (∀ ω, RowsInside S (b ω) c.nChains (c.withProd n).nProdSteps) ∧
      WallErrorBars P f (∫ x, f x ∂(normalised (wallMeasure S lp))) b c.nChains (c.withProd n).nProdSteps (2 * B / (n * (1 - loopFactor c C))) (B ^ 2 * (1 + 4 / (1 - loopFactor c C)) / n) := by
  set k := trainedKey c.nTrainLoops c.nEpochs key with hk
  have hI := idealOn_before h k (fun _ _ => trivial)
  have hE : AdaptiveWallBundle (Desc k) P (after sig k) env env' S lp g c data ν push lnf G :=
    ⟨hB.lifts, hB.good, hB.step, hB.walled, hB.ignores, hB.nonzero, hB.finite, flowFamily_before k (fun _ _ => trivial) hB.flows⟩
  obtain ⟨s', v, w', g1, g2, g3, g4, g5, g6, g7⟩ := wall_split h c hC0 hb hfin data hB key init hx hin w hw n nd nc kw s hs
  obtain ⟨b, hb1, hb2⟩ := C101_production k hI (c.withProd n) hC0 hn data (hE.withProd n) C hC hcov m hm hG X hX hXS f hf B hfB (fun _ => key) (fun ω => (init ω).atleast2d) v w' hx g3 g4 (fun ω => by rw [g5]; exact hflow ω)
    (fun ω i hi => by rw [g6]; exact hstart ω i hi) g7
  exact ⟨s', b, g1, fun ω => by rw [g2]; exact hb1 ω, hb2⟩

/-- **C101 (end to end).** A call of `sample` with the MALA bundle in an ideal random world, on a target with hard boundaries, with training modelled as in C90, the family of flows being such that every one of them
covers the truncated target up to the factor `C`; the chains start at finite points inside.  The call returns, every production row is a finite point inside, and for every measurable `f` whose values inside differ by at
most `B`, the averages of `f` over the production buffer have the error bars of C101 — for every number of production loops, and whatever training does within the family. -/
theorem C101_adaptive (h : IdealDraws past sig P env) (c : BundleCfg XR D d M O) (hC0 : 0 < c.nChains) (hb : 0 < c.batchSize) (hfin : ∀ x : ℝ, BufNum.isFinite (XR.fin x) = true) (data : Data D)
    (hB : AdaptiveWallBundle (fun _ => True) P sig env env' S lp g c data ν push lnf G) (C : ℝ) (hC : 1 ≤ C) (hcov : ∀ m ∈ G, ∀ x ∈ S, wallDensity S lp x ≤ C * density (lnf m) x)
    (hT : OrdinaryTraining sig env' G) (hflow : c.flow ∈ G) (key : Key) (init : Ω → InitPos XR d)
    (hx : ∀ ω, (init ω).atleast2d.length = c.nChains) (hX : ∀ i < c.nChains, ∃ X : Ω → Fin d → ℝ, Measurable[past] X ∧ ∀ ω, (init ω).atleast2d[i]? = some (emb (X ω)) ∧ X ω ∈ S)
    (f : Pos ℝ d → ℝ) (hf : Measurable f) (B : ℝ) (hfB : ∀ x ∈ S, ∀ y ∈ S, |f x - f y| ≤ B) (n : ℕ) (hn : 0 < n) (nd nc : ℕ) (kw : List (String × V)) (s : Sampler XR D d M O V)
    (hs : Sampler.new nd nc key none none none (some (malaBundle (c.withProd n))) kw = .ok s) :
    ∃ (s' : Ω → Sampler XR D d M O V) (b : Ω → Buffer XR), (∀ ω, s.sample (env' ω) (init ω) data = (.ok (), s' ω)) ∧ (∀ ω, (s' ω).heap.res "positions_production" = some (.buffer (b ω))) ∧
      (∀ ω, RowsInside S (b ω) c.nChains (c.withProd n).nProdSteps) ∧
      WallErrorBars P f (∫ x, f x ∂(normalised (wallMeasure S lp))) b c.nChains (c.withProd n).nProdSteps (2 * B / (n * (1 - loopFactor c C))) (B ^ 2 * (1 + 4 / (1 - loopFactor c C)) / n) := by
  obtain ⟨a, ha, has⟩ := hB.step
  have hin : ∀ ω, ∀ x ∈ (init ω).atleast2d, ∃ y ∈ S, x = emb y := by
    intro ω x hxm
    obtain ⟨i, hi⟩ := List.mem_iff_getElem?.1 hxm
    have hic : i < c.nChains := by rw [← hx ω]; exact (List.getElem?_eq_some_iff.1 hi).1
    obtain ⟨X, -, e⟩ := hX i hic
    rw [(e ω).1, Option.some.injEq] at hi
    exact ⟨_, (e ω).2, hi.symm⟩
  have hl : ∀ ω, (env' ω).ops.Lawful := fun ω => lifts_lawful (hB.lifts ω) (hB.flows.lawful ω)
  have hSt : ∀ ω, StaysIn (env' ω) c data (fun x => ∃ y ∈ S, x = emb y) := fun ω => wall_staysIn (hB.lifts ω) (hB.flows.lawful ω) c hB.good hB.ignores hB.walled ha has hfin
  choose w w' h1 h2 using fun ω => bundle_total (env' ω) (hl ω) c hB.good data hC0 hb _ (hSt ω) key (init ω).atleast2d (hx ω) (hin ω)
  have hfin' : MeasurableSet {x : XR | BufNum.isFinite x = true} := XR.measurable_const _ (Or.inl hfin)
  obtain ⟨m, hm, hG, hmg, hX'⟩ := wall_trained_before h c hfin' data hB hT hflow key (fun ω => (init ω).atleast2d) hx hX w h1
  choose! X hXm hXe using hX'
  exact C101_sample h c hC0 hb hfin data hB C hC hcov key init hx hin w h1 m hm hG hmg X hXm (fun i hi ω => (hXe i hi ω).2) (fun ω i hi => (hXe i hi ω).1) f hf B hfB n hn nd nc kw s hs

omit [MeasurableSpace M] [MeasurableSpace O] [MeasurableSpace Z] [BufNum XR] in
/-- **C101 (from mean square errors to intervals).** Error bars in the sense of C101 for buffers with all rows inside and a function whose values inside differ by at most `B` bound, for every `δ`, the probability that an
average is off by more than `δ`. -/
theorem C101_interval {f : Pos ℝ d → ℝ} (B : ℝ) (hB : ∀ x ∈ S, ∀ y ∈ S, |f x - f y| ≤ B) {a : ℝ} {b : Ω → Buffer XR} {nC n : ℕ} (hin : ∀ ω, RowsInside S (b ω) nC n) {bias v : ℝ}
    (hE : WallErrorBars P f a b nC n bias v) (δ : ℝ) (hδ : 0 < δ) :
    P.real {ω | δ < |wallPooledMean f (b ω) nC n - a|} ≤ (v / nC + bias ^ 2) / δ ^ 2 ∧ ∀ i < nC, P.real {ω | δ < |wallMean f (b ω) i n - a|} ≤ v / δ ^ 2 := by
  obtain ⟨B', h0, hB'⟩ : ∃ B', 0 ≤ B' ∧ ∀ x ∈ S, |f x| ≤ B' := by
    rcases S.eq_empty_or_nonempty with rfl | ⟨y, hy⟩
    · exact ⟨0, le_rfl, by simp⟩
    · refine ⟨|f y| + B, add_nonneg (abs_nonneg _) (le_trans (abs_nonneg _) (hB y hy y hy)), fun x hx => ?_⟩
      have := hB x hx y hy
      calc |f x| = |f y + (f x - f y)| := by ring_nf
        _ ≤ _ := (abs_add_le _ _).trans (by linarith)
  have cb : ∀ i < nC, ∀ ω, |wallMean f (b ω) i n| ≤ B' := by
    intro i hi ω
    rw [wallMean, abs_div, abs_of_nonneg (Nat.cast_nonneg n : (0 : ℝ) ≤ n)]
    refine div_le_of_le_mul₀ (Nat.cast_nonneg n) h0 ?_
    calc _ ≤ ∑ j ∈ Finset.range n, |f (fun a => cellReal ((b ω).data.get [i, j, a]))| := Finset.abs_sum_le_sum_abs _ _
      _ ≤ ∑ j ∈ Finset.range n, B' := Finset.sum_le_sum fun j hj => by
          obtain ⟨y, hy, e⟩ := hin ω i hi j (Finset.mem_range.1 hj)
          simp only [e, cellReal]
          exact hB' y hy
      _ = _ := by simp [mul_comm]
  have pb : ∀ ω, |wallPooledMean f (b ω) nC n| ≤ B' := by
    intro ω
    rw [wallPooledMean, abs_div, abs_of_nonneg (Nat.cast_nonneg nC : (0 : ℝ) ≤ nC)]
    refine div_le_of_le_mul₀ (Nat.cast_nonneg nC) h0 ?_
    calc _ ≤ ∑ i ∈ Finset.range nC, |wallMean f (b ω) i n| := Finset.abs_sum_le_sum_abs _ _
      _ ≤ ∑ i ∈ Finset.range nC, B' := Finset.sum_le_sum fun i hi => cb i (Finset.mem_range.1 hi) ω
      _ = _ := by simp [mul_comm]
  constructor
  · refine chebyshev_mean (P := P) (fun ω => wallPooledMean f (b ω) nC n - a) ?_ (B := B' + |a|) (fun ω => (abs_sub _ _).trans (by linarith [pb ω])) hδ hE.pooled_error
    exact ((Finset.measurable_sum _ fun i hi => hE.meas i (Finset.mem_range.1 hi)).div_const _).sub_const a
  · intro i hi
    exact chebyshev_mean (P := P) (fun ω => wallMean f (b ω) i n - a) ((hE.meas i hi).sub_const a) (B := B' + |a|) (fun ω => (abs_sub _ _).trans (by linarith [cb i hi ω])) hδ (hE.chain_error i hi)

end
end FlowMC
