import Verif.Props.WallErrorBars
import Verif.Props.Visits
import Verif.Spec.WallVisits
/-
C113: no region is missed, with hard boundaries.
-/
open MeasureTheory ProbabilityTheory Filter
open scoped ENNReal Topology
set_option linter.unusedSectionVars false
namespace FlowMC
open Spec
noncomputable section
open Classical

variable {Ω D M O V Z : Type} {d : ℕ}

/-- **C113 (which regions).** A region that meets the inside in positive volume has positive probability under the truncated target, so that the bounds of C113 tend to 0; a ball, or any open set, around an interior
point does. -/
theorem C113_positive (S : Set (Fin d → ℝ)) (lp : (Fin d → ℝ) → ℝ) (hlp : Measurable lp) (h0 : wallMeasure S lp Set.univ ≠ 0) (hfin : wallMeasure S lp Set.univ ≠ ∞) (A : Set (Fin d → ℝ)) (hA : MeasurableSet A) :
    (volume (A ∩ S) ≠ 0 → 0 < (normalised (wallMeasure S lp)).real A) ∧ (IsOpen A → (A ∩ interior S).Nonempty → volume (A ∩ S) ≠ 0) := by
  haveI := wall_isProb h0 hfin
  refine ⟨fun hAS => ?_, fun ho hne => ?_⟩
  · have h1 : wallMeasure S lp A ≠ 0 := fun h => by
      have := withDensity_absolutelyContinuous' (μ := volume.restrict S) (f := fun x => ENNReal.ofReal (Real.exp (lp x))) (by fun_prop) (ae_of_all _ fun x => by simp [Real.exp_pos]) h
      rw [Measure.restrict_apply hA] at this
      exact hAS this
    have h2 : normalised (wallMeasure S lp) A ≠ 0 := by
      rw [normalised, Measure.smul_apply, smul_eq_mul]
      exact mul_ne_zero (ENNReal.inv_ne_zero.2 hfin) h1
    exact ENNReal.toReal_pos h2 (measure_ne_top _ _)
  · intro h
    exact ((ho.inter isOpen_interior).measure_pos volume hne).ne' (measure_mono_null (Set.inter_subset_inter_right _ interior_subset) h)

variable {S : Set (Fin d → ℝ)} {lp : (Fin d → ℝ) → ℝ} {g : (Fin d → ℝ) → Fin d → ℝ} {data : Data D}
variable {past : MeasurableSpace Ω} {sig : Key → MeasurableSpace Ω} [mΩ : MeasurableSpace Ω] {P : Measure Ω} [IsProbabilityMeasure P] {env : Ω → Env ℝ D d M O} {env' : Ω → Env XR D d M O} {T : Key → Prop}
  [MeasurableSpace M] [MeasurableSpace O] [MeasurableSpace Z] {ν : Measure Z} {push : M → Z → Pos ℝ d} {lnf : M → Pos ℝ d → ℝ} {G : Set M} [BufNum XR]

omit [MeasurableSpace O] [BufNum XR] [IsProbabilityMeasure P] in
/-- After the steps `hist`, from any start, a region has at least `1 - (1 - 1/C)^(flow proposals)` times its probability under the truncated target. -/
theorem wall_hits {W : Type} [MeasurableSpace W] {c : BundleCfg XR D d M O} (hE : AdaptiveWallBundle T P sig env env' S lp g c data ν push lnf G) {a : ℝ} (ha : a ≠ 0) {C : ℝ} (hC : 1 ≤ C)
    (hcov : ∀ m ∈ G, ∀ x ∈ S, wallDensity S lp x ≤ C * density (lnf m) x) {A : Set (Pos ℝ d)} (hA : MeasurableSet A) (hist : List Bool) (φ : W → M) (y : W) (hy : φ y ∈ G) (x : Pos ℝ d) :
    (1 - (1 - 1 / C) ^ hist.count false) * (normalised (wallMeasure S lp)).real A ≤
      histMean (stepMean (noise d) (freeStep S (malaQ g a) (malaR lp g a))) (stepMean (ν.prod unif) (pushBy (wallFlowStep S lp lnf) push φ y)) hist (A.indicator fun _ => 1) x := by
  haveI := hE.flows.prob
  haveI := wall_isProb hE.nonzero hE.finite
  haveI : IsProbabilityMeasure (noise d) := by unfold noise; infer_instance
  have hp : Measurable (push (φ y)) := hE.flows.pushMeas.comp (measurable_const.prodMk measurable_id)
  have hl : Measurable (lnf (φ y)) := hE.flows.lnfMeas.comp (measurable_const.prodMk measurable_id)
  haveI : IsProbabilityMeasure (ν.map (push (φ y))) := Measure.isProbabilityMeasure_map hp.aemeasurable
  have hM := mala_wallMH hE.walled hE.nonzero hE.finite a ha
  have hF := flow_wallMH hE.walled hE.nonzero hE.finite (lnf (φ y)) hl (ν.map (push (φ y))) (hE.flows.density _ hy)
  have hst : Measurable fun p : Pos ℝ d × (Z × ℝ) => pushBy (wallFlowStep S lp lnf) push φ y p.2 p.1 := by
    have : Measurable fun p : Pos ℝ d × (Z × ℝ) => (p.1, (push (φ y) p.2.1, p.2.2)) := by fun_prop
    exact hF.step_meas.comp this
  rw [histMean_eq hM.step_meas hst hist (measurable_const.indicator hA) (B := 1) (fun x => by by_cases hx : x ∈ A <;> simp [hx]), histLaw_pushBy hM.step_meas (wallFlowStep S lp lnf) φ y hp hF.step_meas,
    integral_indicator_const _ hA, smul_eq_mul, mul_one]
  refine (histLaw_covered (β := 1 / C) (by positivity) (by rw [div_le_one (by linarith)]; exact hC) (fun μ a ha hμ => ?_) (fun μ a ha hμ => ?_) hist (Measure.dirac x) inferInstance).2 A hA
  · refine ⟨Measure.isProbabilityMeasure_map hM.step_meas.aemeasurable, fun h => ?_⟩
    have := covered_step (β := 0) h ha hM.step_meas (hM.rev.invariant hM.step_meas) (fun x A _ => by rw [zero_mul]; exact (moveProb_mem A x).1)
    rwa [mul_zero, add_zero] at this
  · refine ⟨Measure.isProbabilityMeasure_map hF.step_meas.aemeasurable, fun h => ?_⟩
    exact covered_step h ha hF.step_meas (hF.rev.invariant hF.step_meas)
      (fun x A hA => wall_minorise hE.walled.meas hE.walled.meas_lp hE.nonzero hE.finite (lnf (φ y)) hl _ (hE.flows.density _ hy) C (by linarith) (hcov _ hy) x A hA)

omit [MeasurableSpace O] in
/-- The last recorded rows of the loops of one chain miss `A` with geometrically small probability, whatever is known before. -/
theorem wall_chain_misses (hTc : ∀ a, T a → ∀ b, Desc a b → T b) (h : IdealOn T past sig P env) {c : BundleCfg XR D d M O} (hE : AdaptiveWallBundle T P sig env env' S lp g c data ν push lnf G) {a : ℝ} (ha : a ≠ 0) (has : c.stepSize = .fin a)
    (m : Ω → M) (hm : Measurable[past] m) (hG : ∀ ω, m ω ∈ G) (X : Ω → Pos ℝ d) (hX : Measurable[past] X) (hXS : ∀ ω, X ω ∈ S)
    {k : Key} {logs : Ω → Bool → List (Block XR d)} {n : ℕ} {w : ℕ → Ω → World XR D d M O} {zs : ℕ → Ω → List (Pos XR d)} {b1 b2 : ℕ → Ω → Block XR d}
    (R : ProdRun env' c data m k logs n w zs b1 b2) (i : ℕ) (hT : ∀ l, T (.child (.child (carryKey k l) 1) i)) (hstart : ∀ ω, (w 0 ω).xs[i]? = some (emb (X ω)))
    {C : ℝ} (hC : 1 ≤ C) (hcov : ∀ m ∈ G, ∀ x ∈ S, wallDensity S lp x ≤ C * density (lnf m) x) {A : Set (Pos ℝ d)} (hA : MeasurableSet A) :
    ∃ Y : ℕ → Ω → Pos ℝ d, (∀ l < n, (∀ ω, rowCell c b1 b2 i l (rowsPerCall c true + (rowsPerCall c false - 1)) ω = some (emb (Y l ω)) ∧ Y l ω ∈ S) ∧ Measurable[info past sig (prodSet k (l + 1))] (Y l)) ∧
      ∀ (h' : Ω → ℝ), Measurable[past] h' → (∀ ω, 0 ≤ h' ω) → (∀ ω, h' ω ≤ 1) → ∀ l ≤ n,
        ∫ ω, h' ω * missW A Y l ω ∂P ≤ (1 - (1 - loopFactor c C) * (normalised (wallMeasure S lp)).real A) ^ l * ∫ ω, h' ω ∂P := by
  haveI := hE.flows.prob
  haveI := wall_isProb hE.nonzero hE.finite
  haveI : IsProbabilityMeasure (noise d) := by unfold noise; infer_instance
  have hid := toPast_measurable past
  have hr : rowsPerCall c true + (rowsPerCall c false - 1) < rowsPerCall c true + rowsPerCall c false := by have := rowsPerCall_pos hE.good false; omega
  set r := rowsPerCall c true + (rowsPerCall c false - 1) with hrr
  set δ := (1 - loopFactor c C) * (normalised (wallMeasure S lp)).real A with hδ
  obtain ⟨h0, h1⟩ := loopFactor_lt c hC
  have hδ1 : δ ≤ 1 := mul_le_one₀ (by linarith) measureReal_nonneg measureReal_le_one
  have law := wall_family_rowLawsOn hTc h env' c data hE a ha has (fun ω : PastOf past => m ω) hm (toPast past) hG (P.map fun ω => (toPast past ω, X ω))
  obtain ⟨starts, rows⟩ := R.lawsOn law 0 [] i hT ⟨hid.mono (past_le_info (by simp [prodSet])) le_rfl, X, fun ω => ⟨hstart ω, hXS ω⟩, hX.mono (past_le_info (by simp [prodSet])) le_rfl, rfl⟩
  simp only [Nat.zero_add, List.append_nil] at starts rows
  have hrow : ∀ l, ∃ Y : Ω → Pos ℝ d, l < n → (∀ ω, rowCell c b1 b2 i l r ω = some (emb (Y ω)) ∧ Y ω ∈ S) ∧ Measurable[info past sig (prodSet k (l + 1))] Y := by
    intro l
    by_cases hl : l < n
    · obtain ⟨-, Y, hY, hYm, -⟩ := rows l hl r hr
      exact ⟨Y, fun _ => ⟨hY, hYm⟩⟩
    · exact ⟨fun _ _ => 0, fun h => absurd h hl⟩
  choose Y hY using hrow
  refine ⟨Y, hY, fun h' hg hg0 hg1 l => ?_⟩
  have hf : Measurable (A.indicator fun _ : Pos ℝ d => (1 : ℝ)) := measurable_const.indicator hA
  have hfb : ∀ x, |A.indicator (fun _ : Pos ℝ d => (1 : ℝ)) x| ≤ 1 := fun x => by by_cases hx : x ∈ A <;> simp [hx]
  have mono : ∀ {l l' : ℕ}, l ≤ l' → prodSet k l ⊆ prodSet k l' := fun {l l'} hl => prodSet_mono k hl
  have hH : ∀ l ≤ n, Measurable[info past sig (prodSet k l)] fun ω => h' ω * missW A Y l ω := by
    intro l hl
    refine Measurable.mul (hg.mono (past_le_info (prodSet_mono k (Nat.zero_le l) (by simp [prodSet]))) le_rfl) ?_
    unfold missW
    refine Finset.measurable_prod _ fun l' hl' => ?_
    have hl'' := Finset.mem_range.1 hl'
    exact measurable_const.sub (hf.comp ((hY l' (by omega)).2.mono (info_mono (mono (by omega))) le_rfl))
  have hHm : ∀ l ≤ n, Measurable fun ω => h' ω * missW A Y l ω := fun l hl => (hH l hl).mono (h.info_le _) le_rfl
  have hH0 : ∀ l ω, 0 ≤ h' ω * missW A Y l ω := fun l ω => mul_nonneg (hg0 ω) (missW_mem A Y l ω).1
  have hH1 : ∀ l ω, h' ω * missW A Y l ω ≤ 1 := fun l ω => mul_le_one₀ (hg1 ω) (missW_mem A Y l ω).1 (missW_mem A Y l ω).2
  have hHb : ∀ l ω, |h' ω * missW A Y l ω| ≤ 1 := fun l ω => by rw [abs_of_nonneg (hH0 l ω)]; exact hH1 l ω
  induction l with
  | zero => intro _; simp [missW]
  | succ l ih =>
    intro hl
    obtain ⟨hpm, X', e1, e2, -⟩ := starts l (by omega)
    have hm' : Measurable fun p : PastOf past × ℝ => m p.1 := by
      have hm0 : Measurable (fun ω : PastOf past => m ω) := hm
      exact hm0.comp measurable_fst
    have hW : Measurable[info past sig (prodSet k l)] fun ω => (toPast past ω, h' ω * missW A Y l ω) := hpm.prodMk (hH l (by omega))
    have law' := wall_family_rowLawsOn hTc h env' c data hE a ha has (fun p : PastOf past × ℝ => m p.1) hm' (fun ω => (toPast past ω, h' ω * missW A Y l ω)) hG
      (P.map fun ω => ((toPast past ω, h' ω * missW A Y l ω), X' ω))
    have := (R.lawsOn law' l [] i hT ⟨hW, X', e1, e2, rfl⟩).2 0 (by omega) r hr
    simp only [loopsSteps, List.append_nil, Nat.add_zero] at this
    obtain ⟨-, Y', g1, g2, g3⟩ := this
    obtain rfl : Y' = Y l := funext fun ω => by
      have := ((hY l (by omega)).1 ω).1
      rw [(g1 ω).1, Option.some.injEq] at this
      rw [← unemb_emb (Y' ω), this, unemb_emb]
    set clip1 : ℝ → ℝ := fun t => max 0 (min t 1) with hclip
    have hclipm : Measurable clip1 := measurable_const.max (measurable_id.min measurable_const)
    have hcl : ∀ ω, clip1 (h' ω * missW A Y l ω) = h' ω * missW A Y l ω := fun ω => by
      simp only [hclip]; rw [min_eq_left (hH1 l ω), max_eq_right (hH0 l ω)]
    have h1' : Measurable fun p : ((PastOf past × ℝ) × Pos ℝ d) × ((Fin d → ℝ) × ℝ) => freeStep S (malaQ g a) (malaR lp g a) p.2 p.1.2 :=
      (mala_wallMH hE.walled hE.nonzero hE.finite a ha).step_meas.comp ((measurable_snd.comp measurable_fst).prodMk measurable_snd)
    have h2' := wallFlowStep_measurable (Z := Z) (push := push) hE.walled.meas hE.walled.meas_lp hE.flows.pushMeas hE.flows.lnfMeas (fun p : PastOf past × ℝ => m p.1) hm'
    set H : PastOf past × ℝ → Pos ℝ d → ℝ := fun p x => histMean (stepMean (noise d) (freeStep S (malaQ g a) (malaR lp g a)))
      (stepMean (ν.prod unif) (pushBy (wallFlowStep S lp lnf) push (fun p : PastOf past × ℝ => m p.1) p)) (rowPre c r) (A.indicator fun _ => 1) x with hHdef
    have hmm : Measurable fun p : (PastOf past × ℝ) × Pos ℝ d => H p.1 p.2 :=
      histMean_at_measurable (ν1 := noise d) (ν2 := ν.prod unif) (s1 := fun _ : PastOf past × ℝ => freeStep S (malaQ g a) (malaR lp g a)) h1' h2' (rowPre c r) hf
    have hWX : Measurable fun ω => ((toPast past ω, h' ω * missW A Y l ω), X' ω) := (hW.mono (h.info_le _) le_rfl).prodMk (e2.mono (h.info_le _) le_rfl)
    have hWY : Measurable fun ω => ((toPast past ω, h' ω * missW A Y l ω), Y l ω) := (hW.mono (h.info_le _) le_rfl).prodMk (g2.mono (h.info_le _) le_rfl)
    haveI : IsProbabilityMeasure (P.map fun ω => ((toPast past ω, h' ω * missW A Y l ω), X' ω)) := Measure.isProbabilityMeasure_map hWX.aemeasurable
    have hcm : Measurable fun p : PastOf past × ℝ => clip1 p.2 := hclipm.comp measurable_snd
    have hcb : ∀ p : PastOf past × ℝ, |clip1 p.2| ≤ 1 := fun p => by simp only [hclip]; rw [abs_of_nonneg (le_max_left _ _)]; exact max_le zero_le_one (min_le_right _ _)
    have e : ∫ ω, clip1 (h' ω * missW A Y l ω) * A.indicator (fun _ => 1) (Y l ω) ∂P = ∫ ω, clip1 (h' ω * missW A Y l ω) * H (toPast past ω, h' ω * missW A Y l ω) (X' ω) ∂P := by
      have e' : ∫ ω, clip1 (h' ω * missW A Y l ω) * A.indicator (fun _ => 1) (Y l ω) ∂P =
          ∫ p, clip1 p.1.2 * A.indicator (fun _ => 1) p.2 ∂(P.map fun ω => ((toPast past ω, h' ω * missW A Y l ω), Y l ω)) := by
        rw [integral_map hWY.aemeasurable]
        exact ((hcm.comp measurable_fst).mul (hf.comp measurable_snd)).aestronglyMeasurable
      rw [e', g3, integral_onSndAt (ν1 := noise d) (ν2 := ν.prod unif) (s1 := fun _ : PastOf past × ℝ => freeStep S (malaQ g a) (malaR lp g a)) h1' h2' _ hcm hcb hf hfb, integral_map hWX.aemeasurable]
      exact ((hcm.comp measurable_fst).mul hmm).aestronglyMeasurable
    simp only [hcl] at e
    have hits : ∀ ω, δ ≤ H (toPast past ω, h' ω * missW A Y l ω) (X' ω) := fun ω => by
      have := wall_hits hE ha hC hcov hA (rowPre c r) (fun p : PastOf past × ℝ => m p.1) (toPast past ω, h' ω * missW A Y l ω) (hG ω) (X' ω)
      rw [rowPre_last hE.good] at this
      exact this
    have hY' : Measurable (Y l) := (hY l (by omega)).2.mono (h.info_le _) le_rfl
    have i0 : Integrable (fun ω => h' ω * missW A Y l ω) P := integrable_bdd (hHm l (by omega)) (hHb l)
    have i1 : Integrable (fun ω => h' ω * missW A Y l ω * A.indicator (fun _ => 1) (Y l ω)) P := integrable_bdd ((hHm l (by omega)).mul (hf.comp hY')) (B := 1 * 1) fun ω => by
      show |_ * _| ≤ _
      rw [abs_mul]; exact mul_le_mul (hHb l ω) (hfb _) (abs_nonneg _) zero_le_one
    have hrm : Measurable fun ω => H (toPast past ω, h' ω * missW A Y l ω) (X' ω) := hmm.comp hWX
    have i2 : Integrable (fun ω => h' ω * missW A Y l ω * H (toPast past ω, h' ω * missW A Y l ω) (X' ω)) P :=
      integrable_bdd ((hHm l (by omega)).mul hrm) (B := 1 * 1) fun ω => by
        show |_ * _| ≤ _
        rw [abs_mul]; exact mul_le_mul (hHb l ω) (histMean_bdd _ hfb _) (abs_nonneg _) zero_le_one
    have e3 : ∫ ω, h' ω * missW A Y (l + 1) ω ∂P = ∫ ω, h' ω * missW A Y l ω ∂P - ∫ ω, h' ω * missW A Y l ω * A.indicator (fun _ => 1) (Y l ω) ∂P := by
      rw [← integral_sub i0 i1]
      refine integral_congr_ae (ae_of_all _ fun ω => ?_)
      simp only [missW, Finset.prod_range_succ]; ring
    have e4 : δ * ∫ ω, h' ω * missW A Y l ω ∂P ≤ ∫ ω, h' ω * missW A Y l ω * A.indicator (fun _ => 1) (Y l ω) ∂P := by
      rw [e, ← integral_const_mul]
      refine integral_mono (i0.const_mul _) i2 fun ω => ?_
      simp only
      rw [mul_comm]
      exact mul_le_mul_of_nonneg_left (hits ω) (hH0 l ω)
    rw [e3, pow_succ, mul_comm (_ ^ l), mul_assoc]
    calc _ ≤ (1 - δ) * ∫ ω, h' ω * missW A Y l ω ∂P := by linarith
      _ ≤ _ := mul_le_mul_of_nonneg_left (ih (by omega)) (by linarith)

omit [MeasurableSpace O] in
/-- Regions missed by a production run. -/
theorem ProdRun.wallVisits {c : BundleCfg XR D d M O} {m : Ω → M} {k : Key} {logs : Ω → Bool → List (Block XR d)} {w : ℕ → Ω → World XR D d M O} {zs : ℕ → Ω → List (Pos XR d)}
    {b1 b2 : ℕ → Ω → Block XR d} (R : ProdRun env' c data m k logs c.nProdLoops w zs b1 b2) (h : IdealOn (Desc k) past sig P env) (hE : AdaptiveWallBundle (Desc k) P sig env env' S lp g c data ν push lnf G)
    (hm : Measurable[past] m) (hG : ∀ ω, m ω ∈ G) (X : ℕ → Ω → Pos ℝ d) (hX : ∀ i < c.nChains, Measurable[past] (X i)) (hXS : ∀ i < c.nChains, ∀ ω, X i ω ∈ S)
    (hstart : ∀ i < c.nChains, ∀ ω, (w 0 ω).xs[i]? = some (emb (X i ω)))
    {C : ℝ} (hC : 1 ≤ C) (hcov : ∀ m ∈ G, ∀ x ∈ S, wallDensity S lp x ≤ C * density (lnf m) x) {A : Set (Pos ℝ d)} (hA : MeasurableSet A)
    (b : Ω → Buffer XR)
    (hb : ∀ ω, ∀ i < c.nChains, ∀ j < c.nProdSteps, ∀ Y, rowCell c b1 b2 i (j / (rowsPerCall c true + rowsPerCall c false)) (j % (rowsPerCall c true + rowsPerCall c false)) ω = some Y →
      ∀ a : Fin d, (b ω).data.get [i, j, a] = Y a) :
    let δ := (1 - loopFactor c C) * (normalised (wallMeasure S lp)).real A
    (∀ i < c.nChains, P.real {ω | WallMisses A (b ω) i c.nProdSteps} ≤ (1 - δ) ^ c.nProdLoops) ∧
    P.real {ω | ∀ i < c.nChains, WallMisses A (b ω) i c.nProdSteps} ≤ (1 - δ) ^ (c.nProdLoops * c.nChains) := by
  intro δ
  obtain ⟨s, hs0, hss⟩ := hE.step
  haveI := wall_isProb hE.nonzero hE.finite
  obtain ⟨h0, h1⟩ := loopFactor_lt c hC
  have hδ1 : δ ≤ 1 := mul_le_one₀ (by linarith) measureReal_nonneg measureReal_le_one
  set r := rowsPerCall c true + (rowsPerCall c false - 1) with hr
  set Q := rowsPerCall c true + rowsPerCall c false with hQ
  have hrQ : r < Q := by have := rowsPerCall_pos hE.good false; omega
  have hcap : c.nProdSteps = c.nProdLoops * Q := capacity_eq c true
  -- the miss weight of every chain
  have one : ∀ i, ∃ Z : Ω → ℝ, i < c.nChains → (∀ ω, 0 ≤ Z ω ∧ Z ω ≤ 1) ∧ (∀ ω, WallMisses A (b ω) i c.nProdSteps → Z ω = 1) ∧
      Measurable[info past (inside sig (chainKeys k i)) Set.univ] Z ∧
      ∀ g : Ω → ℝ, Measurable[outside past sig (chainKeys k i)] g → (∀ ω, 0 ≤ g ω) → (∀ ω, g ω ≤ 1) → ∫ ω, g ω * Z ω ∂P ≤ (1 - δ) ^ c.nProdLoops * ∫ ω, g ω ∂P := by
    intro i
    by_cases hi : i < c.nChains
    swap
    · exact ⟨fun _ => 0, fun h => absurd h hi⟩
    have hkeys : ∀ l, chainKeys k i (.child (.child (carryKey k l) 1) i) := fun l => ⟨l, .refl⟩
    have hp := past_le_outside past sig (chainKeys k i)
    obtain ⟨Y, hY, -⟩ := wall_chain_misses (chainKeys_closed k i) (idealOn_inside h (chainKeys k i) fun _ => chainKeys_desc) (hE.inside (chainKeys k i) fun _ => chainKeys_desc) hs0 hss m hm hG (X i) (hX i hi) (hXS i hi) R i hkeys
      (hstart i hi) hC hcov hA
    obtain ⟨Y', hY', hg⟩ := wall_chain_misses (chainKeys_closed k i) (idealOn_outside h (chainKeys k i) fun _ => chainKeys_desc) (hE.inside (chainKeys k i) fun _ => chainKeys_desc) hs0 hss m (hm.mono hp le_rfl) hG (X i)
      ((hX i hi).mono hp le_rfl) (hXS i hi) R i hkeys (hstart i hi) hC hcov hA
    have eY : ∀ l < c.nProdLoops, Y' l = Y l := fun l hl => funext fun ω => by
      have := ((hY l hl).1 ω).1
      rw [((hY' l hl).1 ω).1, Option.some.injEq] at this
      rw [← unemb_emb (Y' l ω), this, unemb_emb]
    have eZ : missW A Y' c.nProdLoops = missW A Y c.nProdLoops := funext fun ω => Finset.prod_congr rfl fun l hl => by rw [eY l (Finset.mem_range.1 hl)]
    refine ⟨missW A Y c.nProdLoops, fun _ => ⟨fun ω => missW_mem A Y _ ω, fun ω hmiss => ?_, missW_meas (idealOn_inside h (chainKeys k i) fun _ => chainKeys_desc) hA fun l hl => (hY l hl).2, fun g hgm hg0 hg1 => ?_⟩⟩
    · refine Finset.prod_eq_one fun l hl => ?_
      have hl' := Finset.mem_range.1 hl
      have hj : l * Q + r < c.nProdSteps := by
        rw [hcap]
        calc l * Q + r < l * Q + Q := by omega
          _ = (l + 1) * Q := by ring
          _ ≤ _ := Nat.mul_le_mul_right _ hl'
      have hd : (l * Q + r) / Q = l := by rw [mul_comm, Nat.mul_add_div (by omega), Nat.div_eq_of_lt hrQ, Nat.add_zero]
      have hmod : (l * Q + r) % Q = r := by rw [mul_comm, Nat.mul_add_mod, Nat.mod_eq_of_lt hrQ]
      have hrow := hb ω i hi (l * Q + r) hj (emb (Y l ω)) (by rw [hd, hmod]; exact ((hY l hl').1 ω).1)
      have hnot : Y l ω ∉ A := fun hA' => hmiss _ hj ⟨Y l ω, hA', hrow⟩
      simp [hnot]
    · rw [← eZ]; exact hg g hgm hg0 hg1 _ le_rfl
  choose Z hZ using one
  have Zm : ∀ i < c.nChains, Measurable (Z i) := fun i hi => (hZ i hi).2.2.1.mono ((idealOn_inside h (chainKeys k i) fun _ => chainKeys_desc).info_le _) le_rfl
  have markov : ∀ (S : Set Ω) (f : Ω → ℝ), Measurable f → (∀ ω, 0 ≤ f ω ∧ f ω ≤ 1) → (∀ ω ∈ S, f ω = 1) → P.real S ≤ ∫ ω, f ω ∂P := by
    intro S f hf hfb hS
    have hi : Integrable f P := integrable_bdd hf (B := 1) fun ω => by rw [abs_of_nonneg (hfb ω).1]; exact (hfb ω).2
    have := mul_meas_ge_le_integral_of_nonneg (ae_of_all P fun ω => (hfb ω).1) hi 1
    rw [one_mul] at this
    exact (measureReal_mono fun ω hω => (by simp [hS ω hω] : (1 : ℝ) ≤ f ω)).trans this
  refine ⟨fun i hi => ?_, ?_⟩
  · refine (markov _ (Z i) (Zm i hi) (hZ i hi).1 fun ω hω => (hZ i hi).2.1 ω hω).trans ?_
    have := (hZ i hi).2.2.2 (fun _ => 1) measurable_const (fun _ => zero_le_one) (fun _ => le_rfl)
    simpa using this
  · have main : ∀ j ≤ c.nChains, ∫ ω, ∏ i ∈ Finset.range j, Z i ω ∂P ≤ (1 - δ) ^ (c.nProdLoops * j) := by
      intro j
      induction j with
      | zero => intro _; simp
      | succ j ih =>
        intro hj
        simp only [Finset.prod_range_succ]
        have hprod : ∀ ω, 0 ≤ ∏ i ∈ Finset.range j, Z i ω ∧ ∏ i ∈ Finset.range j, Z i ω ≤ 1 := fun ω =>
          ⟨Finset.prod_nonneg fun i hi => ((hZ i (by have := Finset.mem_range.1 hi; omega)).1 ω).1,
            Finset.prod_le_one (fun i hi => ((hZ i (by have := Finset.mem_range.1 hi; omega)).1 ω).1) fun i hi => ((hZ i (by have := Finset.mem_range.1 hi; omega)).1 ω).2⟩
        refine ((hZ j (by omega)).2.2.2 (fun ω => ∏ i ∈ Finset.range j, Z i ω) ?_ (fun ω => (hprod ω).1) fun ω => (hprod ω).2).trans ?_
        · refine Finset.measurable_prod _ fun i hi => ?_
          have hi' := Finset.mem_range.1 hi
          exact (hZ i (by omega)).2.2.1.mono (info_inside_le past sig (chainKeys_disjoint k (by omega)) _) le_rfl
        · rw [Nat.mul_succ, pow_add, mul_comm ((1 - δ) ^ (c.nProdLoops * j))]
          exact mul_le_mul_of_nonneg_left (ih (by omega)) (pow_nonneg (by linarith) _)
    refine (markov _ (fun ω => ∏ i ∈ Finset.range c.nChains, Z i ω) (Finset.measurable_prod _ fun i hi => Zm i (Finset.mem_range.1 hi)) (fun ω => ?_) fun ω hω => ?_).trans (main _ le_rfl)
    · exact ⟨Finset.prod_nonneg fun i hi => ((hZ i (Finset.mem_range.1 hi)).1 ω).1,
        Finset.prod_le_one (fun i hi => ((hZ i (Finset.mem_range.1 hi)).1 ω).1) fun i hi => ((hZ i (Finset.mem_range.1 hi)).1 ω).2⟩
    · exact Finset.prod_eq_one fun i hi => (hZ i (Finset.mem_range.1 hi)).2.1 ω (hω i (Finset.mem_range.1 hi))

omit [MeasurableSpace O] in
/-- **C113 (production phase).** A run of `RQSpline_MALA_Bundle` on a target with hard boundaries (`-inf` or NaN outside a region `S`, of positive and finite mass).  When training is over (`w ω`) the random key is
`k`, the flow in the global sampler is `m ω` and chain `i` is at the finite point `X i ω` inside, flow and positions being *any* functions of what happened before (all chains may sit in one corner); the flow is one of a
family of flows whose `log_prob` is the log-density of their samples up to a constant and whose density is, at every point inside, at least `1/C` times the density of the truncated target.  Let `A` be any measurable region.
Then the probability that no row of a given chain of `positions_production` is a point of `A` is at most `(1 - (1 - ρ) π(A))^n` for `n` production loops, where `π` is the truncated target and `ρ` the `loopFactor`; the
probability that no row of any chain is one is at most the `n_chains`-th power of that. -/
theorem C113_production (k : Key) (h : IdealOn (Desc k) past sig P env) (c : BundleCfg XR D d M O) (data : Data D)
    (hE : AdaptiveWallBundle (Desc k) P sig env env' S lp g c data ν push lnf G) (C : ℝ) (hC : 1 ≤ C) (hcov : ∀ m ∈ G, ∀ x ∈ S, wallDensity S lp x ≤ C * density (lnf m) x)
    (m : Ω → M) (hm : Measurable[past] m) (hG : ∀ ω, m ω ∈ G) (X : ℕ → Ω → Pos ℝ d) (hX : ∀ i < c.nChains, Measurable[past] (X i)) (hXS : ∀ i < c.nChains, ∀ ω, X i ω ∈ S)
    (A : Set (Pos ℝ d)) (hA : MeasurableSet A)
    (key : Ω → Key) (xs : Ω → List (Pos XR d)) (w w' : Ω → World XR D d M O) (hx : ∀ ω, (xs ω).length = c.nChains)
    (htrain : ∀ ω, Completes (env' ω) (malaBundle c).strategies.lookup data (repeatPhase c.nTrainLoops trainingPhase ++ ["reset_steppers", "update_state"])
      ⟨key ω, xs ω, ⟨(malaBundle c).resources, fun _ => 0⟩⟩ (w ω))
    (hkey : ∀ ω, (w ω).key = k) (hflow : ∀ ω, (w ω).heap.res "global_sampler" = some (.kernel (.nf (m ω) c.nfBatch))) (hstart : ∀ ω, ∀ i < c.nChains, (w ω).xs[i]? = some (emb (X i ω)))
    (hprod : ∀ ω, Completes (env' ω) (malaBundle c).strategies.lookup data (repeatPhase c.nProdLoops productionPhase) (w ω) (w' ω)) :
    ∃ b : Ω → Buffer XR, (∀ ω, (w' ω).heap.res "positions_production" = some (.buffer (b ω))) ∧
      (∀ i < c.nChains, P.real {ω | WallMisses A (b ω) i c.nProdSteps} ≤ (1 - (1 - loopFactor c C) * (normalised (wallMeasure S lp)).real A) ^ c.nProdLoops) ∧
      P.real {ω | ∀ i < c.nChains, WallMisses A (b ω) i c.nProdSteps} ≤ (1 - (1 - loopFactor c C) * (normalised (wallMeasure S lp)).real A) ^ (c.nProdLoops * c.nChains) := by
  have hl' : ∀ ω, (env' ω).ops.Lawful := fun ω => lifts_lawful (hE.lifts ω) (hE.flows.lawful ω)
  obtain ⟨logs, v, zs, b1, b2, e0, en, R⟩ := production_run hE.good hl' w w' (fun ω => production_start (env' ω) (hl' ω) c hE.good data (key ω) (xs ω) (hx ω) (w ω) (htrain ω)) hkey hflow hprod
  choose b hb hcell using fun ω => R.buffer ω
  exact ⟨b, fun ω => by rw [← en]; exact hb ω, R.wallVisits h hE hm hG X hX hXS (fun i hi ω => by rw [e0]; exact hstart ω i hi) hC hcov hA b hcell⟩

/-- C113 for a call of `sample`, the state after training being given. -/
theorem wallVisits_sample (h : IdealDraws past sig P env) (c : BundleCfg XR D d M O) (hC0 : 0 < c.nChains) (hb : 0 < c.batchSize) (hfin : ∀ x : ℝ, BufNum.isFinite (XR.fin x) = true) (data : Data D)
    (hB : AdaptiveWallBundle (fun _ => True) P sig env env' S lp g c data ν push lnf G) (C : ℝ) (hC : 1 ≤ C) (hcov : ∀ m ∈ G, ∀ x ∈ S, wallDensity S lp x ≤ C * density (lnf m) x)
    (key : Key) (init : Ω → InitPos XR d) (hx : ∀ ω, (init ω).atleast2d.length = c.nChains) (hin : ∀ ω, ∀ x ∈ (init ω).atleast2d, ∃ y ∈ S, x = emb y) (w : Ω → World XR D d M O)
    (hw : ∀ ω, Completes (env' ω) (malaBundle c).strategies.lookup data (repeatPhase c.nTrainLoops trainingPhase ++ ["reset_steppers", "update_state"])
      ⟨key, (init ω).atleast2d, ⟨(malaBundle c).resources, fun _ => 0⟩⟩ (w ω))
    (m : Ω → M) (hm : Measurable[before past sig (trainedKey c.nTrainLoops c.nEpochs key)] m) (hG : ∀ ω, m ω ∈ G) (hflow : ∀ ω, (w ω).heap.res "global_sampler" = some (.kernel (.nf (m ω) c.nfBatch)))
    (X : ℕ → Ω → Pos ℝ d) (hX : ∀ i < c.nChains, Measurable[before past sig (trainedKey c.nTrainLoops c.nEpochs key)] (X i)) (hXS : ∀ i < c.nChains, ∀ ω, X i ω ∈ S)
    (hstart : ∀ ω, ∀ i < c.nChains, (w ω).xs[i]? = some (emb (X i ω)))
    (A : Set (Pos ℝ d)) (hA : MeasurableSet A) (n : ℕ) (nd nc : ℕ) (kw : List (String × V)) (s : Sampler XR D d M O V)
    (hs : Sampler.new nd nc key none none none (some (malaBundle (c.withProd n))) kw = .ok s) :
    ∃ (s' : Ω → Sampler XR D d M O V) (b : Ω → Buffer XR), (∀ ω, s.sample (env' ω) (init ω) data = (.ok (), s' ω)) ∧ (∀ ω, (s' ω).heap.res "positions_production" = some (.buffer (b ω))) ∧
      (∀ i < c.nChains, P.real {ω | WallMisses A (b ω) i (c.withProd n).nProdSteps} ≤ (1 - (1 - loopFactor c C) * (normalised (wallMeasure S lp)).real A) ^ n) ∧
      P.real {ω | ∀ i < c.nChains, WallMisses A (b ω) i (c.withProd n).nProdSteps} ≤ (1 - (1 - loopFactor c C) * (normalised (wallMeasure S lp)).real A) ^ (n * c.nChains) := by
  set k := trainedKey c.nTrainLoops c.nEpochs key with hk
  have hI := idealOn_before h k (fun _ _ => trivial)
  have hE : AdaptiveWallBundle (Desc k) P (after sig k) env env' S lp g c data ν push lnf G :=
    ⟨hB.lifts, hB.good, hB.step, hB.walled, hB.ignores, hB.nonzero, hB.finite, flowFamily_before k (fun _ _ => trivial) hB.flows⟩
  obtain ⟨s', v, w', g1, g2, g3, g4, g5, g6, g7⟩ := wall_split h c hC0 hb hfin data hB key init hx hin w hw n nd nc kw s hs
  obtain ⟨b, hb1, hb2⟩ := C113_production k hI (c.withProd n) data (hE.withProd n) C hC hcov m hm hG X hX hXS A hA (fun _ => key) (fun ω => (init ω).atleast2d) v w' hx g3 g4 (fun ω => by rw [g5]; exact hflow ω)
    (fun ω i hi => by rw [g6]; exact hstart ω i hi) g7
  exact ⟨s', b, g1, fun ω => by rw [g2]; exact hb1 ω, hb2⟩

/-- **C113 (end to end).** A call of `sample` with the MALA bundle in an ideal random world, on a target with hard boundaries, with training modelled as in C90, the family of flows being such that every one of them
covers the truncated target up to the factor `C`; the chains start at finite points inside.  The call returns, and for every measurable region `A`, every number `n` of production loops and every start inside, the
probability that a given chain has no production row in `A` is at most `(1 - (1 - ρ) π(A))^n`, and that no chain has one at most `(1 - (1 - ρ) π(A))^(n n_chains)` — whatever training does within the family. -/
theorem C113_adaptive (h : IdealDraws past sig P env) (c : BundleCfg XR D d M O) (hC0 : 0 < c.nChains) (hb : 0 < c.batchSize) (hfin : ∀ x : ℝ, BufNum.isFinite (XR.fin x) = true) (data : Data D)
    (hB : AdaptiveWallBundle (fun _ => True) P sig env env' S lp g c data ν push lnf G) (C : ℝ) (hC : 1 ≤ C) (hcov : ∀ m ∈ G, ∀ x ∈ S, wallDensity S lp x ≤ C * density (lnf m) x)
    (hT : OrdinaryTraining sig env' G) (hflow : c.flow ∈ G) (key : Key) (init : Ω → InitPos XR d)
    (hx : ∀ ω, (init ω).atleast2d.length = c.nChains) (hX : ∀ i < c.nChains, ∃ X : Ω → Fin d → ℝ, Measurable[past] X ∧ ∀ ω, (init ω).atleast2d[i]? = some (emb (X ω)) ∧ X ω ∈ S)
    (A : Set (Pos ℝ d)) (hA : MeasurableSet A) (n : ℕ) (nd nc : ℕ) (kw : List (String × V)) (s : Sampler XR D d M O V)
    (hs : Sampler.new nd nc key none none none (some (malaBundle (c.withProd n))) kw = .ok s) :
    ∃ (s' : Ω → Sampler XR D d M O V) (b : Ω → Buffer XR), (∀ ω, s.sample (env' ω) (init ω) data = (.ok (), s' ω)) ∧ (∀ ω, (s' ω).heap.res "positions_production" = some (.buffer (b ω))) ∧
      (∀ i < c.nChains, P.real {ω | WallMisses A (b ω) i (c.withProd n).nProdSteps} ≤ (1 - (1 - loopFactor c C) * (normalised (wallMeasure S lp)).real A) ^ n) ∧
      P.real {ω | ∀ i < c.nChains, WallMisses A (b ω) i (c.withProd n).nProdSteps} ≤ (1 - (1 - loopFactor c C) * (normalised (wallMeasure S lp)).real A) ^ (n * c.nChains) := by
  obtain ⟨a, ha, has⟩ := hB.step
  have hin : ∀ ω, ∀ x ∈ (init ω).atleast2d, ∃ y ∈ S, x = emb y := by
    intro ω x hxm
    obtain ⟨i, hi⟩ := List.mem_iff_getElem?.1 hxm
    have hic : i < c.nChains := by rw [← hx ω]; exact (List.getElem?_eq_some_iff.1 hi).1
    obtain ⟨X, -, e⟩ := hX i hic
    rw [(e ω).1, Option.some.injEq] at hi
    exact ⟨_, (e ω).2, hi.symm⟩
  have hl : ∀ ω, (env' ω).ops.Lawful := fun ω => lifts_lawful (hB.lifts ω) (hB.flows.lawful ω)
  have hSt : ∀ ω, StaysIn (env' ω) c data (fun x => ∃ y ∈ S, x = emb y) := fun ω => wall_staysIn (hB.lifts ω) (hB.flows.lawful ω) c hB.good hB.ignores hB.walled ha has hfin
  choose w w' h1 h2 using fun ω => bundle_total (env' ω) (hl ω) c hB.good data hC0 hb _ (hSt ω) key (init ω).atleast2d (hx ω) (hin ω)
  have hfin' : MeasurableSet {x : XR | BufNum.isFinite x = true} := XR.measurable_const _ (Or.inl hfin)
  obtain ⟨m, hm, hG, hmg, hX'⟩ := wall_trained_before h c hfin' data hB hT hflow key (fun ω => (init ω).atleast2d) hx hX w h1
  choose! X hXm hXe using hX'
  exact wallVisits_sample h c hC0 hb hfin data hB C hC hcov key init hx hin w h1 m hm hG hmg X hXm (fun i hi ω => (hXe i hi ω).2) (fun ω i hi => (hXe i hi ω).1) A hA n nd nc kw s hs

end
end FlowMC
