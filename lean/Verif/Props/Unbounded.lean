import Verif.Lemmas.Unbounded
import Verif.Props.ErrorBars
/-
C96: averages of unbounded functions (posterior means of the parameters) over an adaptive run converge.
-/
open MeasureTheory ProbabilityTheory Filter
open scoped ENNReal Topology
set_option linter.unusedSectionVars false
namespace FlowMC
open Spec

variable {Ω D M O V Z : Type} {d : ℕ}
variable {past : MeasurableSpace Ω} {sig : Key → MeasurableSpace Ω} [mΩ : MeasurableSpace Ω] {P : Measure Ω} [IsProbabilityMeasure P] {env : Ω → Env ℝ D d M O} {T : Key → Prop}
  [MeasurableSpace M] [MeasurableSpace Z] {ν : Measure Z} {push : M → Z → Pos ℝ d} {lnf : M → Pos ℝ d → ℝ} {G : Set M} [BufNum ℝ]

theorem histLaw_fixed {X : Type} [MeasurableSpace X] {loc glob : Measure X → Measure X} {π : Measure X} (h1 : loc π = π) (h2 : glob π = π) (h : List Bool) : histLaw loc glob h π = π := by
  induction h with
  | nil => rfl
  | cons b h ih => cases b <;> simp only [histLaw, ih, h1, h2]

/-- Averaged over the target, rows have the target's means. -/
theorem rowsAvg_invariant {c : BundleCfg ℝ D d M O} {data : Data D} (hE : AdaptiveBundle T P sig env c data ν push lnf G) {f : Pos ℝ d → ℝ} (hf : Measurable f) {B : ℝ} (hB : ∀ x, |f x| ≤ B)
    (hist : List Bool) {m : M} (hm : m ∈ G) :
    ∫ x, rowsAvg c data ν push lnf f hist m x ∂(normalised (targetMeasure fun x => c.logpdf.val x data)) = ∫ x, f x ∂(normalised (targetMeasure fun x => c.logpdf.val x data)) := by
  haveI := hE.flows.prob
  haveI := normalised_isProb _ hE.meas hE.finite
  haveI : IsProbabilityMeasure (noise d) := by unfold noise; infer_instance
  have hp : Measurable (push m) := hE.flows.pushMeas.comp (measurable_const.prodMk measurable_id)
  have hl : Measurable (lnf m) := hE.flows.lnfMeas.comp (measurable_const.prodMk measurable_id)
  haveI : IsProbabilityMeasure (ν.map (push m)) := Measure.isProbabilityMeasure_map hp.aemeasurable
  have hL := mala_mhData c.stepSize hE.step c.logpdf data hE.meas hE.gradMeas
  have hF := flow_mhData c.logpdf data hE.meas (lnf m) hl (ν.map (push m)) (hE.flows.density m hm)
  have h1 := localStep_measurable (.mala c.stepSize : KernelRes ℝ d M) c.logpdf data hE.meas hE.gradMeas
  have h2 := flowStep_measurable c.logpdf data (lnf m) hE.meas hl
  have e : ∀ x, rowsAvg c data ν push lnf f hist m x = histMean (stepMean (noise d) (localStep (.mala c.stepSize : KernelRes ℝ d M) c.logpdf data))
      (stepMean ((ν.map (push m)).prod unif) (flowStep c.logpdf data (lnf m))) hist f x := fun x => (histMean_eq h1 h2 hist hf hB x).symm
  simp only [e]
  rw [← integral_histLaw h1 h2 hist hf hB]
  congr 1
  have i1 : stepLaw (noise d) (localStep (.mala c.stepSize : KernelRes ℝ d M) c.logpdf data) (normalised (targetMeasure fun x => c.logpdf.val x data)) = normalised (targetMeasure fun x => c.logpdf.val x data) :=
    hL.reversible.invariant hL.meas
  have i2 : stepLaw ((ν.map (push m)).prod unif) (flowStep c.logpdf data (lnf m)) (normalised (targetMeasure fun x => c.logpdf.val x data)) = normalised (targetMeasure fun x => c.logpdf.val x data) :=
    hF.reversible.invariant hF.meas
  exact histLaw_fixed i1 i2 hist

theorem prod_real {A B : Type} [MeasurableSpace A] [MeasurableSpace B] (μ : Measure A) [IsProbabilityMeasure μ] (π : Measure B) [IsProbabilityMeasure π] (E : Set (A × B)) (hE : MeasurableSet E) :
    (μ.prod π).real E = ∫ a, π.real {y | (a, y) ∈ E} ∂μ := by
  rw [measureReal_def, Measure.prod_apply hE]
  exact (integral_toReal (measurable_measure_prodMk_left hE).aemeasurable (ae_of_all _ fun a => measure_lt_top _ _)).symm

/-- From the `N`-th loop on, rows are dominated by twice the target, on an event of high probability. -/
theorem late_dominated {c : BundleCfg ℝ D d M O} {data : Data D} {m : Ω → M} {k : Key} {logs : Ω → Bool → List (Block ℝ d)} {n : ℕ} {w : ℕ → Ω → World ℝ D d M O} {zs : ℕ → Ω → List (Pos ℝ d)}
    {b1 b2 : ℕ → Ω → Block ℝ d} (R : ProdRun env c data m k logs n w zs b1 b2) (h : IdealOn (Desc k) past sig P env) (hE : AdaptiveBundle (Desc k) P sig env c data ν push lnf G)
    (hm : Measurable[past] m) (hG : ∀ ω, m ω ∈ G) (X : Ω → Pos ℝ d) (hX : Measurable[past] X) (i : ℕ) (hstart : ∀ ω, (w 0 ω).xs[i]? = some (X ω))
    (ε : ℝ) (hε : 0 ≤ ε) (Nω : Ω → ℕ) (N : ℕ)
    (hN0 : ∀ φ a : Ω → ℝ, Measurable φ → Measurable a → (∀ ω, 0 ≤ φ ω ∧ φ ω ≤ 1) → (∀ ω, 0 ≤ a ω ∧ a ω ≤ 1) → (∀ ω, Nω ω ≤ N → |φ ω - a ω| ≤ ε / 2) → |∫ ω, φ ω ∂P - ∫ ω, a ω ∂P| ≤ ε)
    (hNω : ∀ ω l, Nω ω ≤ l → ∀ pre : List Bool, Near (fixedLaw c data ν push lnf (pre ++ loopsSteps c l) (m ω) (X ω)) (normalised (targetMeasure fun x => c.logpdf.val x data)) (ε / 2))
    (Y : ℕ → ℕ → Ω → Pos ℝ d)
    (hY : ∀ l < n, ∀ r < rowsPerCall c true + rowsPerCall c false, (∀ ω, rowCell c b1 b2 i l r ω = some (Y l r ω)) ∧ Measurable[info past sig (prodSet k (l + 1))] (Y l r)) :
    ∃ E, MeasurableSet E ∧ P.real Eᶜ ≤ 2 * ε ∧ ∀ l < n, N ≤ l → ∀ r < rowsPerCall c true + rowsPerCall c false,
      (P.restrict E).map (Y l r) ≤ (2 : ℝ≥0∞) • normalised (targetMeasure fun x => c.logpdf.val x data) := by
  haveI := hE.flows.prob
  haveI := normalised_isProb _ hE.meas hE.finite
  haveI : IsProbabilityMeasure (noise d) := by unfold noise; infer_instance
  set π := normalised (targetMeasure fun x => c.logpdf.val x data) with hπ
  by_cases hNn : N ≤ n
  swap
  · exact ⟨Set.univ, MeasurableSet.univ, by simp; linarith, fun l hl hNl => by omega⟩
  have hid := toPast_measurable past
  have hidm : Measurable (toPast past) := hid.mono h.past_le le_rfl
  haveI : IsProbabilityMeasure (P.map (toPast past)) := Measure.isProbabilityMeasure_map hidm.aemeasurable
  have hpm : ∀ ω, Measurable (push (m ω)) := fun ω => hE.flows.pushMeas.comp (measurable_const.prodMk measurable_id)
  have hlm : ∀ ω, Measurable (lnf (m ω)) := fun ω => hE.flows.lnfMeas.comp (measurable_const.prodMk measurable_id)
  haveI : ∀ ω, IsProbabilityMeasure (ν.map (push (m ω))) := fun ω => Measure.isProbabilityMeasure_map (hpm ω).aemeasurable
  have law := family_rowLaws k h c hE.good data hE.meas hE.gradMeas hE.ignores hE.flows (fun ω : PastOf past => m ω) hm (toPast past) hG (P.map fun ω => (toPast past ω, X ω))
  obtain ⟨lawX, -⟩ := R.laws law 0 [] i ⟨hid.mono (past_le_info (by simp [prodSet])) le_rfl, X, hstart, hX.mono (past_le_info (by simp [prodSet])) le_rfl, rfl⟩
  simp only [Nat.zero_add, List.append_nil] at lawX
  obtain ⟨hpm', X', e1, e2, e3⟩ := lawX N hNn
  have hXm : Measurable X' := e2.mono (h.info_le _) le_rfl
  have hwX : Measurable fun ω => (toPast past ω, X' ω) := hidm.prodMk hXm
  set J := P.map (fun ω => (toPast past ω, X' ω)) with hJ
  haveI : IsProbabilityMeasure J := Measure.isProbabilityMeasure_map hwX.aemeasurable
  have near : Near J ((P.map (toPast past)).prod π) ε := by
    intro E hEm
    obtain ⟨p1, p2⟩ := row_prob h c data hE.meas hE.gradMeas hE.flows m hm X X' hX hXm _ e3 E hEm
    have em : ∫ a, π.real {y | (a, y) ∈ E} ∂(P.map (toPast past)) = ∫ ω, π.real {y | (toPast past ω, y) ∈ E} ∂P :=
      integral_map (f := fun a => π.real {y | (a, y) ∈ E}) hidm.aemeasurable (measurable_measure_prodMk_left hEm).ennreal_toReal.aestronglyMeasurable
    rw [prod_real _ _ E hEm, em, hJ, measureReal_def, Measure.map_apply hwX hEm]
    refine (congrArg (fun t => |t - _|) p2).trans_le (hN0 _ _ p1 ((section_measurable _ E hEm).mono h.past_le le_rfl) (fun ω => ?_) (fun ω => ⟨measureReal_nonneg, measureReal_le_one⟩) (fun ω hω => ?_))
    · haveI := histLaw_prob (ν1 := noise d) (ν2 := (ν.map (push (m ω))).prod unif) (localStep_measurable (.mala c.stepSize : KernelRes ℝ d M) c.logpdf data hE.meas hE.gradMeas)
        (flowStep_measurable c.logpdf data (lnf (m ω)) hE.meas (hlm ω)) (loopsSteps c N) (Measure.dirac (X ω))
      exact ⟨measureReal_nonneg, measureReal_le_one (μ := histLaw _ _ _ _)⟩
    · exact hNω ω N hω [] _ (measurable_prodMk_left hEm)
  obtain ⟨A, hA, hA1, hA2⟩ := half_dominated near
  refine ⟨{ω | (toPast past ω, X' ω) ∈ A}, hwX hA, ?_, fun l hl hNl r hr => ?_⟩
  · rw [hJ, measureReal_def, Measure.map_apply hwX hA.compl] at hA1
    exact hA1
  obtain ⟨l', rfl⟩ : ∃ l', l = N + l' := ⟨l - N, by omega⟩
  have hYr := hY (N + l') hl r hr
  have hYm : Measurable (Y (N + l') r) := hYr.2.mono (h.info_le _) le_rfl
  have hm' : Measurable fun p : PastOf past × Pos ℝ d => m p.1 := by
    have hm0 : Measurable (fun ω : PastOf past => m ω) := hm
    exact hm0.comp measurable_fst
  have law' := family_rowLaws k h c hE.good data hE.meas hE.gradMeas hE.ignores hE.flows (fun p : PastOf past × Pos ℝ d => m p.1) hm' (fun ω => (toPast past ω, X' ω)) hG
    (P.map fun ω => ((toPast past ω, X' ω), X' ω))
  have := (R.laws law' N [] i ⟨hpm'.prodMk e2, X', e1, e2, rfl⟩).2 l' hl r hr
  rw [List.append_nil] at this
  obtain ⟨-, Y', g1, g2, g3⟩ := this
  obtain rfl : Y' = Y (N + l') r := funext fun ω => by
    have := hYr.1 ω
    rw [g1 ω, Option.some.injEq] at this; exact this
  refine Measure.le_iff.2 fun B hB => ?_
  have hf : Measurable (B.indicator (1 : Pos ℝ d → ℝ)) := measurable_one.indicator hB
  have hf1 : ∀ x, |B.indicator (1 : Pos ℝ d → ℝ) x| ≤ 1 := fun x => by by_cases hx : x ∈ B <;> simp [hx]
  have hgA : Measurable (A.indicator (1 : PastOf past × Pos ℝ d → ℝ)) := measurable_one.indicator hA
  have hgA1 : ∀ x, |A.indicator (1 : PastOf past × Pos ℝ d → ℝ) x| ≤ 1 := fun x => by by_cases hx : x ∈ A <;> simp [hx]
  obtain ⟨-, e⟩ := mean_given hE (fun p : PastOf past × Pos ℝ d => m p.1) hm' (fun ω => (toPast past ω, X' ω)) hwX X' (Y (N + l') r) hXm hYm _ g3 hf hf1 hgA hgA1
  set hist := rowPre c r ++ loopsSteps c l' with hhist
  have hq : Measurable fun p : PastOf past × Pos ℝ d => rowsAvg c data ν push lnf (B.indicator 1) hist (m p.1) p.2 :=
    (mean_given hE (fun ω : PastOf past => m ω) hm (toPast past) hidm X' (Y (N + l') r) hXm hYm hist (by
      have pm : Measurable fun p : (PastOf past × Pos ℝ d) × Pos ℝ d => (p.1.1, p.2) := (measurable_fst.comp measurable_fst).prodMk measurable_snd
      have law2 := family_rowLaws k h c hE.good data hE.meas hE.gradMeas hE.ignores hE.flows (fun ω : PastOf past => m ω) hm (toPast past) hG (P.map fun ω => (toPast past ω, X' ω))
      have := (R.laws law2 N [] i ⟨hpm', X', e1, e2, rfl⟩).2 l' hl r hr
      rw [List.append_nil] at this
      obtain ⟨-, Y2, q1, q2, q3⟩ := this
      obtain rfl : Y2 = Y (N + l') r := funext fun ω => by
        have := hYr.1 ω
        rw [q1 ω, Option.some.injEq] at this; exact this
      exact q3) hf hf1 (g := fun _ => (0 : ℝ)) measurable_const (A := 0) (fun _ => by simp)).1
  have hq1 : ∀ p : PastOf past × Pos ℝ d, |rowsAvg c data ν push lnf (B.indicator 1) hist (m p.1) p.2| ≤ 1 := fun p => rowsAvg_bdd hE hf1 _ _ _
  have hq0 : ∀ p : PastOf past × Pos ℝ d, 0 ≤ rowsAvg c data ν push lnf (B.indicator 1) hist (m p.1) p.2 := fun p => integral_nonneg fun x => by by_cases hx : x ∈ B <;> simp [hx]
  have hEs : MeasurableSet {ω | (toPast past ω, X' ω) ∈ A} := hwX hA
  have left : ∫ ω, A.indicator (1 : PastOf past × Pos ℝ d → ℝ) (toPast past ω, X' ω) * B.indicator 1 (Y (N + l') r ω) ∂P = P.real ({ω | (toPast past ω, X' ω) ∈ A} ∩ Y (N + l') r ⁻¹' B) := by
    rw [← integral_indicator_one (hEs.inter (hYm hB))]
    refine integral_congr_ae (ae_of_all _ fun ω => ?_)
    by_cases ha : (toPast past ω, X' ω) ∈ A <;> by_cases hb : Y (N + l') r ω ∈ B <;> simp [Set.indicator, ha, hb]
  have right : ∫ ω, A.indicator (1 : PastOf past × Pos ℝ d → ℝ) (toPast past ω, X' ω) * rowsAvg c data ν push lnf (B.indicator 1) hist (m ω) (X' ω) ∂P ≤ 2 * π.real B := by
    have e5 : ∫ ω, A.indicator (1 : PastOf past × Pos ℝ d → ℝ) (toPast past ω, X' ω) * rowsAvg c data ν push lnf (B.indicator 1) hist (m ω) (X' ω) ∂P =
        ∫ p, A.indicator (fun p => rowsAvg c data ν push lnf (B.indicator 1) hist (m p.1) p.2) p ∂J := by
      rw [hJ, integral_map hwX.aemeasurable (hq.indicator hA).aestronglyMeasurable]
      refine integral_congr_ae (ae_of_all _ fun ω => ?_)
      by_cases ha : (toPast past ω, X' ω) ∈ A
      · simp only [Set.indicator, ha, if_true, Pi.one_apply, one_mul]; rfl
      · simp [Set.indicator, ha]
    haveI : IsFiniteMeasure ((2 : ℝ≥0∞) • (P.map (toPast past)).prod π) := Measure.smul_finite _ (by simp)
    rw [e5, integral_indicator hA]
    refine (integral_mono_measure hA2 (ae_of_all _ hq0) (integrable_bdd hq hq1)).trans (le_of_eq ?_)
    rw [integral_smul_measure, integral_prod _ (integrable_bdd hq hq1)]
    have inner : ∀ y : PastOf past, ∫ x, rowsAvg c data ν push lnf (B.indicator 1) hist (m y) x ∂π = π.real B := fun y => by
      rw [hπ, rowsAvg_invariant hE hf hf1 hist (hG y), integral_indicator_one hB]
    simp only [inner]
    simp
  rw [Measure.map_apply hYm hB, Measure.restrict_apply (hYm hB), Set.inter_comm]
  have fin := left.symm.trans_le (e.trans_le right)
  rw [measureReal_def, measureReal_def] at fin
  have h2 : (2 : ℝ) * (π B).toReal = (2 * π B).toReal := by simp
  rw [h2] at fin
  exact (ENNReal.toReal_le_toReal (measure_ne_top _ _) (ENNReal.mul_ne_top (by simp) (measure_ne_top _ _))).1 fin

/-- One chain: the average of a nonnegative function whose mean under the target is small. -/
theorem ProdRun.tail_mean {c : BundleCfg ℝ D d M O} {data : Data D} {m : Ω → M} {k : Key} {logs : Ω → Bool → List (Block ℝ d)} {w : ℕ → Ω → World ℝ D d M O} {zs : ℕ → Ω → List (Pos ℝ d)}
    {b1 b2 : ℕ → Ω → Block ℝ d} (R : ProdRun env c data m k logs c.nProdLoops w zs b1 b2) (h : IdealOn (Desc k) past sig P env) (hE : AdaptiveBundle (Desc k) P sig env c data ν push lnf G)
    (hm : Measurable[past] m) (hG : ∀ ω, m ω ∈ G) (hn : 0 < c.nProdLoops) (X : Ω → Pos ℝ d) (hX : Measurable[past] X) (i : ℕ) (hstart : ∀ ω, (w 0 ω).xs[i]? = some (X ω)) (b : Ω → Buffer ℝ)
    (hb : ∀ ω, ∀ j < c.nProdSteps, ∀ Y, rowCell c b1 b2 i (j / (rowsPerCall c true + rowsPerCall c false)) (j % (rowsPerCall c true + rowsPerCall c false)) ω = some Y → ∀ a : Fin d, (b ω).data.get [i, j, a] = Y a)
    (ε : ℝ) (hε : 0 ≤ ε) (Nω : Ω → ℕ) (N : ℕ)
    (hN0 : ∀ φ a : Ω → ℝ, Measurable φ → Measurable a → (∀ ω, 0 ≤ φ ω ∧ φ ω ≤ 1) → (∀ ω, 0 ≤ a ω ∧ a ω ≤ 1) → (∀ ω, Nω ω ≤ N → |φ ω - a ω| ≤ ε / 2) → |∫ ω, φ ω ∂P - ∫ ω, a ω ∂P| ≤ ε)
    (hNω : ∀ ω l, Nω ω ≤ l → ∀ pre : List Bool, Near (fixedLaw c data ν push lnf (pre ++ loopsSteps c l) (m ω) (X ω)) (normalised (targetMeasure fun x => c.logpdf.val x data)) (ε / 2))
    (g : Pos ℝ d → ℝ) (hg : Measurable g) (hg0 : ∀ x, 0 ≤ g x) (hgi : Integrable g (normalised (targetMeasure fun x => c.logpdf.val x data))) (K : ℝ) (hK : 0 ≤ K) (η : ℝ) (hη : 0 ≤ η)
    (early : ∀ l < N, ∀ r < rowsPerCall c true + rowsPerCall c false,
      ∀ Λ : Measure (PastOf past × Pos ℝ d), Λ = histLaw (stepLaw (noise d) (onSndAt fun _ : PastOf past => localStep (.mala c.stepSize : KernelRes ℝ d M) c.logpdf data))
        (stepLaw (ν.prod unif) (onSndAt (pushStep c.logpdf data push lnf (fun ω : PastOf past => m ω)))) (rowPre c r ++ loopsSteps c l) (P.map fun ω => (toPast past ω, X ω)) →
      IsProbabilityMeasure Λ → Λ.real {p | K < g p.2} ≤ η)
    (δ : ℝ) (hδ : 0 < δ) (hlarge : N * K / c.nProdLoops ≤ δ / 2) :
    P.real {ω | δ < chainMean g (b ω) i c.nProdSteps} ≤ 2 * ε + N * (rowsPerCall c true + rowsPerCall c false : ℕ) * η + 4 * (∫ x, g x ∂(normalised (targetMeasure fun x => c.logpdf.val x data))) / δ := by
  haveI := hE.flows.prob
  haveI := normalised_isProb _ hE.meas hE.finite
  have hid := toPast_measurable past
  have hidm : Measurable (toPast past) := hid.mono h.past_le le_rfl
  have law := family_rowLaws k h c hE.good data hE.meas hE.gradMeas hE.ignores hE.flows (fun ω : PastOf past => m ω) hm (toPast past) hG (P.map fun ω => (toPast past ω, X ω))
  obtain ⟨-, lawR⟩ := R.laws law 0 [] i ⟨hid.mono (past_le_info (by simp [prodSet])) le_rfl, X, hstart, hX.mono (past_le_info (by simp [prodSet])) le_rfl, rfl⟩
  simp only [Nat.zero_add, List.append_nil] at lawR
  have hrow : ∀ l r, ∃ Y : Ω → Pos ℝ d, l < c.nProdLoops → r < rowsPerCall c true + rowsPerCall c false → (∀ ω, rowCell c b1 b2 i l r ω = some (Y ω)) ∧ Measurable[info past sig (prodSet k (l + 1))] Y ∧
      P.map (fun ω => (toPast past ω, Y ω)) = histLaw (stepLaw (noise d) (onSndAt fun _ : PastOf past => localStep (.mala c.stepSize : KernelRes ℝ d M) c.logpdf data))
        (stepLaw (ν.prod unif) (onSndAt (pushStep c.logpdf data push lnf (fun ω : PastOf past => m ω)))) (rowPre c r ++ loopsSteps c l) (P.map fun ω => (toPast past ω, X ω)) := by
    intro l r
    by_cases hl : l < c.nProdLoops
    · by_cases hr : r < rowsPerCall c true + rowsPerCall c false
      · obtain ⟨-, Y, e1, e2, e3⟩ := lawR l hl r hr
        exact ⟨Y, fun _ _ => ⟨e1, e2, e3⟩⟩
      · exact ⟨fun _ _ => 0, fun _ h => absurd h hr⟩
    · exact ⟨fun _ _ => 0, fun h => absurd h hl⟩
  choose Y hY using hrow
  have Ym : ∀ l < c.nProdLoops, ∀ r < rowsPerCall c true + rowsPerCall c false, Measurable (Y l r) := fun l hl r hr => (hY l r hl hr).2.1.mono (h.info_le _) le_rfl
  obtain ⟨E, hEm, hE1, hE2⟩ := late_dominated R h hE hm hG X hX i hstart ε hε Nω N hN0 hNω Y (fun l hl r hr => ⟨(hY l r hl hr).1, (hY l r hl hr).2.1⟩)
  have hQ0 : 0 < rowsPerCall c true + rowsPerCall c false := by have := rowsPerCall_pos hE.good true; omega
  have key := tail_average (P := P) (normalised (targetMeasure fun x => c.logpdf.val x data)) g hg hg0 hgi c.nProdLoops _ hn hQ0 Y Ym N E hEm hE2 K hK η hη (fun l hl hlN r hr => by
    have hp : Measurable fun ω => (toPast past ω, Y l r ω) := hidm.prodMk (Ym l hl r hr)
    have hs : MeasurableSet {p : PastOf past × Pos ℝ d | K < g p.2} := measurableSet_lt measurable_const (hg.comp measurable_snd)
    have := early l hlN r hr _ (hY l r hl hr).2.2 (Measure.isProbabilityMeasure_map hp.aemeasurable)
    rw [measureReal_def, Measure.map_apply hp hs] at this
    exact this) δ hδ hlarge
  have e : ∀ ω, chainMean g (b ω) i c.nProdSteps = _ := fun ω => chainMean_rows hE.good g i Y (fun l hl r hr => (hY l r hl hr).1) b hb ω
  simp only [e]
  exact key.trans (by linarith)

omit [BufNum ℝ] in
theorem early_levels (c : BundleCfg ℝ D d M O) (data : Data D) (ν : Measure Z) (push : M → Z → Pos ℝ d) (lnf : M → Pos ℝ d → ℝ) (P : Measure Ω) (m : Ω → M) (X : ℕ → Ω → Pos ℝ d) (N : ℕ) {g : Pos ℝ d → ℝ}
    (hg : Measurable g) {η : ℝ} (hη : 0 < η) : ∃ K : ℝ, 0 ≤ K ∧ ∀ i < c.nChains, ∀ l < N, ∀ r < rowsPerCall c true + rowsPerCall c false,
      ∀ Λ : Measure (PastOf past × Pos ℝ d), Λ = histLaw (stepLaw (noise d) (onSndAt fun _ : PastOf past => localStep (.mala c.stepSize : KernelRes ℝ d M) c.logpdf data))
        (stepLaw (ν.prod unif) (onSndAt (pushStep c.logpdf data push lnf (fun ω : PastOf past => m ω)))) (rowPre c r ++ loopsSteps c l) (P.map fun ω => (toPast past ω, X i ω)) →
      IsProbabilityMeasure Λ → Λ.real {p | K < g p.2} ≤ η := by
  have each : ∀ i l r : ℕ, ∃ K : ℝ, 0 ≤ K ∧ ∀ Λ : Measure (PastOf past × Pos ℝ d), Λ = histLaw (stepLaw (noise d) (onSndAt fun _ : PastOf past => localStep (.mala c.stepSize : KernelRes ℝ d M) c.logpdf data))
        (stepLaw (ν.prod unif) (onSndAt (pushStep c.logpdf data push lnf (fun ω : PastOf past => m ω)))) (rowPre c r ++ loopsSteps c l) (P.map fun ω => (toPast past ω, X i ω)) →
      IsProbabilityMeasure Λ → Λ.real {p | K < g p.2} ≤ η := by
    intro i l r
    by_cases hΛ : IsProbabilityMeasure (histLaw (stepLaw (noise d) (onSndAt fun _ : PastOf past => localStep (.mala c.stepSize : KernelRes ℝ d M) c.logpdf data))
        (stepLaw (ν.prod unif) (onSndAt (pushStep c.logpdf data push lnf (fun ω : PastOf past => m ω)))) (rowPre c r ++ loopsSteps c l) (P.map fun ω => (toPast past ω, X i ω)))
    · obtain ⟨K, hK, hK2⟩ := tight_real (histLaw (stepLaw (noise d) (onSndAt fun _ : PastOf past => localStep (.mala c.stepSize : KernelRes ℝ d M) c.logpdf data))
        (stepLaw (ν.prod unif) (onSndAt (pushStep c.logpdf data push lnf (fun ω : PastOf past => m ω)))) (rowPre c r ++ loopsSteps c l) (P.map fun ω => (toPast past ω, X i ω)))
        (g := fun p => g p.2) (hg.comp (measurable_snd (α := PastOf past))) hη
      exact ⟨K, hK, fun Λ e _ => by rw [e]; exact hK2⟩
    · exact ⟨0, le_rfl, fun Λ e hp => absurd (e ▸ hp) hΛ⟩
  choose K hK hK2 using each
  refine ⟨∑ i ∈ Finset.range c.nChains, ∑ l ∈ Finset.range N, ∑ r ∈ Finset.range (rowsPerCall c true + rowsPerCall c false), K i l r,
    Finset.sum_nonneg fun i _ => Finset.sum_nonneg fun l _ => Finset.sum_nonneg fun r _ => hK i l r, fun i hi l hl r hr Λ e hp => ?_⟩
  refine le_trans (measureReal_mono fun p hpK => ?_) (hK2 i l r Λ e hp)
  refine lt_of_le_of_lt ?_ (show _ < g p.2 from hpK)
  calc K i l r ≤ ∑ r ∈ Finset.range (rowsPerCall c true + rowsPerCall c false), K i l r := Finset.single_le_sum (f := fun r => K i l r) (fun r _ => hK i l r) (Finset.mem_range.2 hr)
    _ ≤ ∑ l ∈ Finset.range N, ∑ r ∈ Finset.range (rowsPerCall c true + rowsPerCall c false), K i l r :=
      Finset.single_le_sum (f := fun l => ∑ r ∈ Finset.range (rowsPerCall c true + rowsPerCall c false), K i l r) (fun l _ => Finset.sum_nonneg fun r _ => hK i l r) (Finset.mem_range.2 hl)
    _ ≤ _ := Finset.single_le_sum (f := fun i => ∑ l ∈ Finset.range N, ∑ r ∈ Finset.range (rowsPerCall c true + rowsPerCall c false), K i l r)
      (fun i _ => Finset.sum_nonneg fun l _ => Finset.sum_nonneg fun r _ => hK i l r) (Finset.mem_range.2 hi)

/-- Splitting a function at a level. -/
theorem chainMean_split (f : Pos ℝ d → ℝ) (B : ℝ) (b : Buffer ℝ) (i n : ℕ) :
    |chainMean f b i n - chainMean (fun x => if |f x| ≤ B then f x else 0) b i n| ≤ chainMean (fun x => if |f x| ≤ B then 0 else |f x|) b i n := by
  simp only [chainMean]
  rw [← sub_div, ← Finset.sum_sub_distrib, abs_div, Nat.abs_cast]
  refine div_le_div_of_nonneg_right ((Finset.abs_sum_le_sum_abs _ _).trans (Finset.sum_le_sum fun j _ => ?_)) (Nat.cast_nonneg n)
  split_ifs <;> simp

variable [MeasurableSpace O]

/-- **C96 (production).** As C88, for functions that are integrable under the target but need not be bounded, such as the parameters themselves: with enough production loops, the average of `f` over the
production rows of every chain is, with probability at least `1 - ε`, within `δ` of the mean of `f` under the target. -/
theorem C96_production (k : Key) (h : IdealOn (Desc k) past sig P env) (c : BundleCfg ℝ D d M O) (data : Data D) (hE : AdaptiveBundle (Desc k) P sig env c data ν push lnf G)
    (m : Ω → M) (hm : Measurable[past] m) (hG : ∀ ω, m ω ∈ G) (X : ℕ → Ω → Pos ℝ d) (hX : ∀ i < c.nChains, Measurable[past] (X i))
    (f : Pos ℝ d → ℝ) (hf : Measurable f) (hint : Integrable f (normalised (targetMeasure fun x => c.logpdf.val x data))) (δ ε : ℝ) (hδ : 0 < δ) (hε : 0 < ε) :
    ∃ L, ∀ (n : ℕ), L ≤ n → ∀ (key : Ω → Key) (xs : Ω → List (Pos ℝ d)) (w w' : Ω → World ℝ D d M O), (∀ ω, (xs ω).length = c.nChains) →
      (∀ ω, Completes (env ω) (malaBundle (c.withProd n)).strategies.lookup data (repeatPhase c.nTrainLoops trainingPhase ++ ["reset_steppers", "update_state"])
        ⟨key ω, xs ω, ⟨(malaBundle (c.withProd n)).resources, fun _ => 0⟩⟩ (w ω)) →
      (∀ ω, (w ω).key = k) → (∀ ω, (w ω).heap.res "global_sampler" = some (.kernel (.nf (m ω) c.nfBatch))) → (∀ ω, ∀ i < c.nChains, (w ω).xs[i]? = some (X i ω)) →
      (∀ ω, Completes (env ω) (malaBundle (c.withProd n)).strategies.lookup data (repeatPhase n productionPhase) (w ω) (w' ω)) →
      ∃ b : Ω → Buffer ℝ, (∀ ω, (w' ω).heap.res "positions_production" = some (.buffer (b ω))) ∧
        P.real {ω | ∃ i < c.nChains, δ < |chainMean f (b ω) i (c.withProd n).nProdSteps - ∫ x, f x ∂(normalised (targetMeasure fun x => c.logpdf.val x data))|} ≤ ε := by
  haveI := hE.flows.prob
  haveI := normalised_isProb _ hE.meas hE.finite
  set π := normalised (targetMeasure fun x => c.logpdf.val x data) with hπ
  set C : ℝ := (c.nChains : ℝ) + 1 with hCd
  have hC : 0 < C := by positivity
  obtain ⟨B, hB0, hBt⟩ := tail_integral hf hint (τ := min (δ / 4) (δ * ε / (96 * C))) (lt_min (by positivity) (by positivity))
  set fB : Pos ℝ d → ℝ := fun x => if |f x| ≤ B then f x else 0 with hfB
  set g : Pos ℝ d → ℝ := fun x => if |f x| ≤ B then 0 else |f x| with hgd
  have hs : MeasurableSet {x | |f x| ≤ B} := measurableSet_le hf.abs measurable_const
  have hfBm : Measurable fB := Measurable.ite hs hf measurable_const
  have hgm : Measurable g := Measurable.ite hs measurable_const hf.abs
  have hg0 : ∀ x, 0 ≤ g x := fun x => by simp only [hgd]; split_ifs <;> positivity
  have hgle : ∀ x, g x ≤ |f x| := fun x => by simp only [hgd]; split_ifs <;> first | positivity | exact le_rfl
  have hgi : Integrable g π := hint.abs.mono' hgm.aestronglyMeasurable (ae_of_all _ fun x => by rw [Real.norm_eq_abs, abs_of_nonneg (hg0 x)]; exact hgle x)
  have hfBb : ∀ x, |fB x| ≤ B := fun x => by
    simp only [hfB]; split_ifs with hx
    · exact hx
    · simpa using hB0
  have hmean : |∫ x, fB x ∂π - ∫ x, f x ∂π| ≤ δ / 4 := by
    rw [← integral_sub (integrable_bdd hfBm hfBb) hint]
    refine (abs_integral_le_integral_abs).trans (le_trans (integral_mono_of_nonneg (ae_of_all _ fun x => abs_nonneg _) hgi (ae_of_all _ fun x => ?_)) (hBt.trans (min_le_left _ _)))
    simp only [hfB, hgd]; split_ifs <;> simp
  obtain ⟨L1, hL1⟩ := C88_production k h c data hE m hm hG X hX fB hfBm B hfBb (δ / 2) (ε / 2) (by positivity) (by positivity)
  obtain ⟨Nω, N, hN0, hNω⟩ := loops_needed c data hE m hG X (ε / (12 * C)) (by positivity)
  set Q := rowsPerCall c true + rowsPerCall c false with hQd
  have hη : 0 < ε / (6 * C * ((N : ℝ) * Q + 1)) := by positivity
  obtain ⟨K, hK0, hK⟩ := early_levels (past := past) c data ν push lnf P m X N hgm hη
  obtain ⟨L2, hL2⟩ := exists_nat_ge (8 * N * K / δ)
  refine ⟨max L1 (L2 + 1), fun n hnL key xs w w' hx htrain hkey hflow hstart hprod => ?_⟩
  have hn : 0 < n := by have := le_of_max_le_right hnL; omega
  have hnr : (0 : ℝ) < n := by exact_mod_cast hn
  obtain ⟨b, hb, hbound⟩ := hL1 n (le_of_max_le_left hnL) key xs w w' hx htrain hkey hflow hstart hprod
  have hc' := goodCfg_withProd hE.good n
  have hE' : AdaptiveBundle (Desc k) P sig env (c.withProd n) data ν push lnf G := ⟨hc', hE.step, hE.meas, hE.gradMeas, hE.ignores, hE.finite, hE.flows⟩
  obtain ⟨logs, v, zs, b1, b2, e0, en, R⟩ := production_run hc' hE.flows.lawful w w' (fun ω => production_start (env ω) (hE.flows.lawful ω) (c.withProd n) hc' data (key ω) (xs ω) (hx ω) (w ω) (htrain ω)) hkey hflow hprod
  choose b' hb' hcell using fun ω => R.buffer ω
  obtain rfl : b' = b := funext fun ω => by
    have h1 := hb' ω
    rw [en, hb ω] at h1
    simp only [Option.some.injEq, Resource.buffer.injEq] at h1
    exact h1.symm
  refine ⟨b', hb, ?_⟩
  have hcov : {ω | ∃ i < c.nChains, δ < |chainMean f (b' ω) i (c.withProd n).nProdSteps - ∫ x, f x ∂π|} ⊆
      {ω | ∃ i < c.nChains, δ / 2 < |chainMean fB (b' ω) i (c.withProd n).nProdSteps - ∫ x, fB x ∂π|} ∪
        ⋃ i ∈ Finset.range c.nChains, {ω | δ / 4 < chainMean g (b' ω) i (c.withProd n).nProdSteps} := by
    rintro ω ⟨i, hi, hω⟩
    by_contra hne
    simp only [Set.mem_union, Set.mem_iUnion, Set.mem_setOf_eq, Finset.mem_range, exists_prop, not_or, not_exists, not_and, not_lt] at hne
    have h1 := abs_le.1 (hne.1 i hi)
    have h2 := abs_le.1 ((chainMean_split f B (b' ω) i (c.withProd n).nProdSteps).trans (hne.2 i hi))
    have h3 := abs_le.1 hmean
    refine absurd hω (not_lt.2 (abs_le.2 ⟨?_, ?_⟩)) <;> linarith [h1.1, h1.2, h2.1, h2.2, h3.1, h3.2]
  refine (measureReal_mono hcov).trans ((measureReal_union_le _ _).trans ?_)
  have htail : ∀ i ∈ Finset.range c.nChains, P.real {ω | δ / 4 < chainMean g (b' ω) i (c.withProd n).nProdSteps} ≤ ε / (2 * C) := by
    intro i hi
    rw [Finset.mem_range] at hi
    have hlarge : (N : ℝ) * K / (c.withProd n).nProdLoops ≤ δ / 4 / 2 := by
      have e : ((c.withProd n).nProdLoops : ℝ) = n := rfl
      rw [e, div_le_iff₀ hnr]
      have h1 : (L2 : ℝ) + 1 ≤ n := by exact_mod_cast le_of_max_le_right hnL
      have h2 : 8 * N * K ≤ L2 * δ := (div_le_iff₀ hδ).1 hL2
      nlinarith
    have hb := R.tail_mean h hE' hm hG hn (X i) (hX i hi) i (fun ω => by rw [e0]; exact hstart ω i hi) b' (fun ω j hj => hcell ω i hi j hj) (ε / (12 * C)) (by positivity) Nω N hN0
      (fun ω l hl pre => hNω n i hi ω l hl pre) g hgm hg0 hgi K hK0 _ hη.le (fun l hl r hr Λ e hp => hK i hi l hl r hr Λ (by rw [e, loopsSteps_withProd]; rfl) hp) (δ / 4) (by positivity) hlarge
    refine hb.trans ?_
    have t1 : 2 * (ε / (12 * C)) = ε / (6 * C) := by field_simp; norm_num
    have t2 : (N : ℝ) * (rowsPerCall (c.withProd n) true + rowsPerCall (c.withProd n) false : ℕ) * (ε / (6 * C * ((N : ℝ) * Q + 1))) ≤ ε / (6 * C) := by
      have e : (rowsPerCall (c.withProd n) true + rowsPerCall (c.withProd n) false : ℕ) = Q := rfl
      rw [e, ← div_div, mul_div_assoc', div_le_iff₀ (by positivity)]
      have : 0 ≤ ε / (6 * C) := by positivity
      nlinarith
    have t3 : 4 * (∫ x, g x ∂π) / (δ / 4) ≤ ε / (6 * C) := by
      rw [div_le_iff₀ (by positivity)]
      have : ∫ x, g x ∂π ≤ δ * ε / (96 * C) := hBt.trans (min_le_right _ _)
      calc _ ≤ 4 * (δ * ε / (96 * C)) := by linarith
        _ = ε / (6 * C) * (δ / 4) := by field_simp; norm_num
    calc _ ≤ ε / (6 * C) + ε / (6 * C) + ε / (6 * C) := by rw [t1]; exact add_le_add (add_le_add le_rfl t2) t3
      _ = ε / (2 * C) := by field_simp; norm_num
  have hsum : P.real (⋃ i ∈ Finset.range c.nChains, {ω | δ / 4 < chainMean g (b' ω) i (c.withProd n).nProdSteps}) ≤ ε / 2 := by
    refine (measureReal_biUnion_finset_le _ _).trans ((Finset.sum_le_sum htail).trans ?_)
    rw [Finset.sum_const, Finset.card_range, nsmul_eq_mul, mul_div_assoc', div_le_div_iff₀ (by positivity) (by norm_num)]
    rw [hCd]
    nlinarith
  linarith

/-- **C96 (the whole run).** A call of `sample` with the MALA bundle, in an ideal random world, flow and positions at the end of training being random in any way.  `w` is what training (and the switch
to production) leaves behind — the flow `m` in the global sampler, the positions `X i` of the chains.  For every measurable `f` that is integrable under the target and all `δ, ε > 0` there is `L` such that in a run with `L` or more
production loops the call returns, and with probability at least `1 - ε` the average of `f` over the production rows of every chain is within `δ` of its mean under the target. -/
theorem C96_sample (h : IdealDraws past sig P env) (c : BundleCfg ℝ D d M O) (hn : 0 < c.nChains) (hb : 0 < c.batchSize) (hfin : ∀ x : ℝ, BufNum.isFinite x = true) (data : Data D)
    (hB : AdaptiveBundle (fun _ => True) P sig env c data ν push lnf G) (key : Key) (init : Ω → InitPos ℝ d) (hx : ∀ ω, (init ω).atleast2d.length = c.nChains) (w : Ω → World ℝ D d M O)
    (hw : ∀ ω, Completes (env ω) (malaBundle c).strategies.lookup data (repeatPhase c.nTrainLoops trainingPhase ++ ["reset_steppers", "update_state"])
      ⟨key, (init ω).atleast2d, ⟨(malaBundle c).resources, fun _ => 0⟩⟩ (w ω))
    (m : Ω → M) (hm : Measurable[before past sig (trainedKey c.nTrainLoops c.nEpochs key)] m) (hG : ∀ ω, m ω ∈ G) (hflow : ∀ ω, (w ω).heap.res "global_sampler" = some (.kernel (.nf (m ω) c.nfBatch)))
    (X : ℕ → Ω → Pos ℝ d) (hX : ∀ i < c.nChains, Measurable[before past sig (trainedKey c.nTrainLoops c.nEpochs key)] (X i)) (hstart : ∀ ω, ∀ i < c.nChains, (w ω).xs[i]? = some (X i ω))
    (f : Pos ℝ d → ℝ) (hf : Measurable f) (hint : Integrable f (normalised (targetMeasure fun x => c.logpdf.val x data))) (δ ε : ℝ) (hδ : 0 < δ) (hε : 0 < ε) :
    ∃ L, ∀ (n : ℕ), L ≤ n → ∀ (nd nc : ℕ) (kw : List (String × V)) (s : Sampler ℝ D d M O V), Sampler.new nd nc key none none none (some (malaBundle (c.withProd n))) kw = .ok s →
      ∃ (s' : Ω → Sampler ℝ D d M O V) (b : Ω → Buffer ℝ), (∀ ω, s.sample (env ω) (init ω) data = (.ok (), s' ω)) ∧ (∀ ω, (s' ω).heap.res "positions_production" = some (.buffer (b ω))) ∧
        P.real {ω | ∃ i < c.nChains, δ < |chainMean f (b ω) i (c.withProd n).nProdSteps - ∫ x, f x ∂(normalised (targetMeasure fun x => c.logpdf.val x data))|} ≤ ε := by
  set k := trainedKey c.nTrainLoops c.nEpochs key with hk
  have hI := idealOn_before h k (fun _ _ => trivial)
  have hE : AdaptiveBundle (Desc k) P (after sig k) env c data ν push lnf G :=
    ⟨hB.good, hB.step, hB.meas, hB.gradMeas, hB.ignores, hB.finite, flowFamily_before k (fun _ _ => trivial) hB.flows⟩
  obtain ⟨L, hL⟩ := C96_production k hI c data hE m hm hG X hX f hf hint δ ε hδ hε
  refine ⟨L, fun n hnL nd nc kw s hs => ?_⟩
  obtain ⟨s', v, w', g1, g2, g3, g4, g5, g6, g7⟩ := adaptive_split h c hn hb hfin data hB key init hx w hw n nd nc kw s hs
  obtain ⟨b, hb1, hb2⟩ := hL n hnL (fun _ => key) (fun ω => (init ω).atleast2d) v w' hx g3 g4 (fun ω => by rw [g5]; exact hflow ω) (fun ω i hi => by rw [g6]; exact hstart ω i hi) g7
  exact ⟨s', b, g1, fun ω => by rw [g2]; exact hb1 ω, hb2⟩

/-- **C96 (end to end).** A call of `sample` with the MALA bundle in an ideal random world.  Training is any procedure of the code's shape (as in C83): its shuffles and choices of examples are drawn with their
keys, the optimisation step and the standardisation are any measurable functions that keep the flow in the family `G`; the initial positions are random, determined by the past.  Nothing is assumed about what
training achieves.  For every measurable `f` that is integrable under the target and all `δ, ε > 0` there is `L` such that with `L` or more production loops the call returns, and with probability at least `1 - ε` the average of `f` over
the rows of every chain in the production buffer is within `δ` of the mean of `f` under the target. -/
theorem C96_adaptive (h : IdealDraws past sig P env) (c : BundleCfg ℝ D d M O) (hn : 0 < c.nChains) (hb : 0 < c.batchSize) (hfin : ∀ x : ℝ, BufNum.isFinite x = true) (data : Data D)
    (hB : AdaptiveBundle (fun _ => True) P sig env c data ν push lnf G) (hT : OrdinaryTraining sig env G) (hflow : c.flow ∈ G) (key : Key) (init : Ω → InitPos ℝ d)
    (hx : ∀ ω, (init ω).atleast2d.length = c.nChains) (hX : ∀ i < c.nChains, ∃ X : Ω → Pos ℝ d, Measurable[past] X ∧ ∀ ω, (init ω).atleast2d[i]? = some (X ω))
    (f : Pos ℝ d → ℝ) (hf : Measurable f) (hint : Integrable f (normalised (targetMeasure fun x => c.logpdf.val x data))) (δ ε : ℝ) (hδ : 0 < δ) (hε : 0 < ε) :
    ∃ L, ∀ (n : ℕ), L ≤ n → ∀ (nd nc : ℕ) (kw : List (String × V)) (s : Sampler ℝ D d M O V), Sampler.new nd nc key none none none (some (malaBundle (c.withProd n))) kw = .ok s →
      ∃ (s' : Ω → Sampler ℝ D d M O V) (b : Ω → Buffer ℝ), (∀ ω, s.sample (env ω) (init ω) data = (.ok (), s' ω)) ∧ (∀ ω, (s' ω).heap.res "positions_production" = some (.buffer (b ω))) ∧
        P.real {ω | ∃ i < c.nChains, δ < |chainMean f (b ω) i (c.withProd n).nProdSteps - ∫ x, f x ∂(normalised (targetMeasure fun x => c.logpdf.val x data))|} ≤ ε := by
  have hSt : ∀ ω, StaysIn (env ω) c data (fun _ => True) := fun ω => ⟨fun _ _ _ _ _ => trivial, fun _ _ _ _ _ _ _ _ => trivial, fun x _ i => hfin _⟩
  choose w w' h1 h2 using fun ω => bundle_total (env ω) (hB.flows.lawful ω) c hB.good data hn hb _ (hSt ω) key (init ω).atleast2d (hx ω) (fun _ _ => trivial)
  have hfin' : MeasurableSet {x : ℝ | BufNum.isFinite x = true} := by simp [hfin]
  obtain ⟨m, hm, hG, hmg, hX'⟩ := trained_before h c hB.good hfin' data hB.ignores hB.meas hB.gradMeas hB.flows hT hflow key (fun ω => (init ω).atleast2d) hx hX w h1
  choose! X hXm hXe using hX'
  exact C96_sample h c hn hb hfin data hB key init hx w h1 m hm hG hmg X hXm (fun ω i hi => hXe i hi ω) f hf hint δ ε hδ hε

end FlowMC
