import Verif.Lemmas.ErrorBars
/-
C95: error bars of production averages, when the flow covers the target.
-/
open MeasureTheory ProbabilityTheory Filter
open scoped ENNReal Topology
set_option linter.unusedSectionVars false
namespace FlowMC
open Spec

variable {Ω D M O V Z : Type} {d : ℕ}
variable {past : MeasurableSpace Ω} {sig : Key → MeasurableSpace Ω} [mΩ : MeasurableSpace Ω] {P : Measure Ω} [IsProbabilityMeasure P] {env : Ω → Env ℝ D d M O} {T : Key → Prop}
  [MeasurableSpace M] [MeasurableSpace Z] {ν : Measure Z} {push : M → Z → Pos ℝ d} {lnf : M → Pos ℝ d → ℝ} {G : Set M} [BufNum ℝ]

/-- The average over a chain, in terms of its rows. -/
theorem chainMean_rows {c : BundleCfg ℝ D d M O} (hc : GoodCfg c) {b1 b2 : ℕ → Ω → Block ℝ d} (f : Pos ℝ d → ℝ) (i : ℕ) (Y : ℕ → ℕ → Ω → Pos ℝ d)
    (hY : ∀ l < c.nProdLoops, ∀ r < rowsPerCall c true + rowsPerCall c false, ∀ ω, rowCell c b1 b2 i l r ω = some (Y l r ω)) (b : Ω → Buffer ℝ)
    (hb : ∀ ω, ∀ j < c.nProdSteps, ∀ Y, rowCell c b1 b2 i (j / (rowsPerCall c true + rowsPerCall c false)) (j % (rowsPerCall c true + rowsPerCall c false)) ω = some Y → ∀ a : Fin d, (b ω).data.get [i, j, a] = Y a) (ω : Ω) :
    chainMean f (b ω) i c.nProdSteps = (∑ l ∈ Finset.range c.nProdLoops, ∑ r ∈ Finset.range (rowsPerCall c true + rowsPerCall c false), f (Y l r ω)) /
      (c.nProdLoops * (rowsPerCall c true + rowsPerCall c false : ℕ) : ℝ) := by
  set n := c.nProdLoops with hnn
  set Q := rowsPerCall c true + rowsPerCall c false with hQ
  have hQ0 : 0 < Q := by have := rowsPerCall_pos hc true; omega
  have hcap : c.nProdSteps = n * Q := capacity_eq c true
  rw [chainMean, hcap, sum_range_loops]
  push_cast
  congr 1
  refine Finset.sum_congr rfl fun l hl => Finset.sum_congr rfl fun r hr => ?_
  rw [Finset.mem_range] at hl hr
  congr 1
  funext a
  have e1 : (l * Q + r) / Q = l := by rw [Nat.mul_comm, Nat.mul_add_div hQ0, Nat.div_eq_of_lt hr, Nat.add_zero]
  have e2 : (l * Q + r) % Q = r := by rw [Nat.mul_comm, Nat.mul_add_mod, Nat.mod_eq_of_lt hr]
  refine hb ω (l * Q + r) ?_ (Y l r ω) ?_ a
  · rw [hcap]
    calc l * Q + r < l * Q + Q := by omega
      _ = (l + 1) * Q := by ring
      _ ≤ n * Q := Nat.mul_le_mul_right _ hl
  · rw [e1, e2]; exact hY l hl r hr ω

/-- Rows of chain `i`: the mean of `f` in a row, weighted with anything known before. -/
theorem row_given (hTc : ∀ a, T a → ∀ b, Desc a b → T b) (h : IdealOn T past sig P env) (c : BundleCfg ℝ D d M O) (data : Data D) (hE : AdaptiveBundle T P sig env c data ν push lnf G)
    (m : Ω → M) (hm : Measurable[past] m) (hG : ∀ ω, m ω ∈ G) (X : Ω → Pos ℝ d) (hX : Measurable[past] X)
    {k : Key} {logs : Ω → Bool → List (Block ℝ d)} {n : ℕ} {w : ℕ → Ω → World ℝ D d M O} {zs : ℕ → Ω → List (Pos ℝ d)} {b1 b2 : ℕ → Ω → Block ℝ d}
    (R : ProdRun env c data m k logs n w zs b1 b2) (i : ℕ) (hT : ∀ l, T (.child (.child (carryKey k l) 1) i)) (hstart : ∀ ω, (w 0 ω).xs[i]? = some (X ω))
    (f : Pos ℝ d → ℝ) (hf : Measurable f) (B : ℝ) (hB : ∀ x, |f x| ≤ B)
    (l : ℕ) (hl : l < n) (r : ℕ) (hr : r < rowsPerCall c true + rowsPerCall c false) :
    ∃ Y : Ω → Pos ℝ d, (∀ ω, rowCell c b1 b2 i l r ω = some (Y ω)) ∧ Measurable[info past sig (prodSet k (l + 1))] Y ∧
      (Measurable[past] fun ω => rowsAvg c data ν push lnf f (rowPre c r ++ loopsSteps c l) (m ω) (X ω)) ∧
      ∀ (g : Ω → ℝ) (A : ℝ), Measurable[past] g → (∀ ω, |g ω| ≤ A) → ∫ ω, g ω * f (Y ω) ∂P = ∫ ω, g ω * rowsAvg c data ν push lnf f (rowPre c r ++ loopsSteps c l) (m ω) (X ω) ∂P := by
  have hid := toPast_measurable past
  have law := family_rowLawsOn hTc h c hE.good data hE.meas hE.gradMeas hE.ignores hE.flows (fun ω : PastOf past => m ω) hm (toPast past) hG (P.map fun ω => (toPast past ω, X ω))
  have rows := (R.lawsOn law 0 [] i hT ⟨hid.mono (past_le_info (by simp [prodSet])) le_rfl, X, hstart, hX.mono (past_le_info (by simp [prodSet])) le_rfl, rfl⟩).2 l (by rw [Nat.zero_add]; exact hl) r hr
  rw [List.append_nil, Nat.zero_add] at rows
  obtain ⟨-, Y, hY, hYm, hYl⟩ := rows
  have hYm' : Measurable Y := hYm.mono (h.info_le _) le_rfl
  have given := fun (g : PastOf past → ℝ) (hg : Measurable g) (A : ℝ) (hA : ∀ y, |g y| ≤ A) =>
    mean_given hE (fun ω : PastOf past => m ω) hm (toPast past) (hid.mono h.past_le le_rfl) X Y (hX.mono h.past_le le_rfl) hYm' _ hYl hf hB hg hA
  refine ⟨Y, hY, hYm, ?_, fun g A hg hA => (given g hg A hA).2⟩
  have := (given (fun _ => 0) measurable_const 0 (fun _ => by simp)).1
  have hp : Measurable[past] fun ω : Ω => (toPast past ω, X ω) := hid.prodMk hX
  have e4 : (fun ω => rowsAvg c data ν push lnf f (rowPre c r ++ loopsSteps c l) (m ω) (X ω)) =
      (fun p : PastOf past × Pos ℝ d => rowsAvg c data ν push lnf f (rowPre c r ++ loopsSteps c l) (m p.1) p.2) ∘ (fun ω : Ω => (toPast past ω, X ω)) := rfl
  rw [e4]
  exact @Measurable.comp Ω (PastOf past × Pos ℝ d) ℝ past _ _ (fun p => rowsAvg c data ν push lnf f (rowPre c r ++ loopsSteps c l) (m p.1) p.2) _ this hp

/-- Rows of chain `i`: correlations between loops. -/
theorem rows_correlation {c : BundleCfg ℝ D d M O} {data : Data D} {m : Ω → M} {k : Key} {logs : Ω → Bool → List (Block ℝ d)} {n : ℕ} {w : ℕ → Ω → World ℝ D d M O} {zs : ℕ → Ω → List (Pos ℝ d)}
    {b1 b2 : ℕ → Ω → Block ℝ d} (R : ProdRun env c data m k logs n w zs b1 b2) (h : IdealOn (Desc k) past sig P env) (hE : AdaptiveBundle (Desc k) P sig env c data ν push lnf G)
    (hm : Measurable[past] m) (hG : ∀ ω, m ω ∈ G) (X : Ω → Pos ℝ d) (hX : Measurable[past] X) (i : ℕ) (hstart : ∀ ω, (w 0 ω).xs[i]? = some (X ω))
    {C : ℝ} (hC : 1 ≤ C) (hcov : ∀ m ∈ G, ∀ x, density (fun x => c.logpdf.val x data) x ≤ C * density (lnf m) x) {f : Pos ℝ d → ℝ} (hf : Measurable f) {B : ℝ} (hB : ∀ x, |f x| ≤ B)
    (hf0 : ∫ x, f x ∂(normalised (targetMeasure fun x => c.logpdf.val x data)) = 0) (Y : ℕ → ℕ → Ω → Pos ℝ d)
    (hY : ∀ l < n, ∀ r < rowsPerCall c true + rowsPerCall c false, (∀ ω, rowCell c b1 b2 i l r ω = some (Y l r ω)) ∧ Measurable[info past sig (prodSet k (l + 1))] (Y l r))
    (l l' : ℕ) (hl : l + 1 + l' < n) (r : ℕ) (hr : r < rowsPerCall c true + rowsPerCall c false) (r' : ℕ) (hr' : r' < rowsPerCall c true + rowsPerCall c false) :
    ∫ ω, f (Y l r ω) * f (Y (l + 1 + l') r' ω) ∂P ≤ 2 * B ^ 2 * loopFactor c C ^ l' := by
  have hid := toPast_measurable past
  have law := family_rowLaws k h c hE.good data hE.meas hE.gradMeas hE.ignores hE.flows (fun ω : PastOf past => m ω) hm (toPast past) hG (P.map fun ω => (toPast past ω, X ω))
  obtain ⟨lawX, -⟩ := R.laws law 0 [] i ⟨hid.mono (past_le_info (by simp [prodSet])) le_rfl, X, hstart, hX.mono (past_le_info (by simp [prodSet])) le_rfl, rfl⟩
  simp only [Nat.zero_add, List.append_nil] at lawX
  obtain ⟨hpm, X', e1, e2, -⟩ := lawX (l + 1) (by omega)
  have hYr := hY l (by omega) r hr
  have hYr' := hY (l + 1 + l') hl r' hr'
  have hm' : Measurable fun p : PastOf past × Pos ℝ d => m p.1 := by
    have hm0 : Measurable (fun ω : PastOf past => m ω) := hm
    exact hm0.comp measurable_fst
  have law' := family_rowLaws k h c hE.good data hE.meas hE.gradMeas hE.ignores hE.flows (fun p : PastOf past × Pos ℝ d => m p.1) hm' (fun ω => (toPast past ω, Y l r ω)) hG
    (P.map fun ω => ((toPast past ω, Y l r ω), X' ω))
  have := (R.laws law' (l + 1) [] i ⟨hpm.prodMk hYr.2, X', e1, e2, rfl⟩).2 l' hl r' hr'
  rw [List.append_nil] at this
  obtain ⟨-, Y', g1, g2, g3⟩ := this
  obtain rfl : Y' = Y (l + 1 + l') r' := funext fun ω => by
    have := hYr'.1 ω
    rw [g1 ω, Option.some.injEq] at this; exact this
  obtain ⟨-, e⟩ := mean_given hE (fun p : PastOf past × Pos ℝ d => m p.1) hm' (fun ω => (toPast past ω, Y l r ω)) ((hpm.prodMk hYr.2).mono (h.info_le _) le_rfl) X' (Y (l + 1 + l') r') (e2.mono (h.info_le _) le_rfl)
    (g2.mono (h.info_le _) le_rfl) _ g3 hf hB (g := fun p => f p.2) (hf.comp measurable_snd) (A := B) (fun p => hB p.2)
  rw [e]
  refine (le_abs_self _).trans (abs_integral_bdd fun ω => ?_)
  rw [abs_mul]
  calc |f (Y l r ω)| * |rowsAvg c data ν push lnf f (rowPre c r' ++ loopsSteps c l') (m ω) (X' ω)| ≤ B * (2 * B * loopFactor c C ^ l') :=
        mul_le_mul (hB _) (rowsAvg_small hE hC hcov hf hB hf0 _ l' (hG ω) _) (abs_nonneg _) (le_trans (abs_nonneg _) (hB (Y l r ω)))
    _ = _ := by ring

omit [BufNum ℝ] in
theorem loopFactor_lt {R : Type} (c : BundleCfg R D d M O) {C : ℝ} (hC : 1 ≤ C) : 0 ≤ loopFactor c C ∧ loopFactor c C < 1 := by
  have h0 : 0 ≤ 1 - 1 / C := by rw [sub_nonneg, div_le_one (by linarith)]; exact hC
  have h1 : 1 - 1 / C < 1 := by have : 0 < 1 / C := by positivity
                                linarith
  exact ⟨pow_nonneg h0 _, pow_lt_one₀ h0 h1 (by omega)⟩

theorem rowsAvg_bdd {c : BundleCfg ℝ D d M O} {data : Data D} (hE : AdaptiveBundle T P sig env c data ν push lnf G) {f : Pos ℝ d → ℝ} {B : ℝ} (hB : ∀ x, |f x| ≤ B) (hist : List Bool) (m : M)
    (x : Pos ℝ d) : |rowsAvg c data ν push lnf f hist m x| ≤ B := by
  haveI := hE.flows.prob
  haveI : IsProbabilityMeasure (noise d) := by unfold noise; infer_instance
  have hp : Measurable (push m) := hE.flows.pushMeas.comp (measurable_const.prodMk measurable_id)
  have hl : Measurable (lnf m) := hE.flows.lnfMeas.comp (measurable_const.prodMk measurable_id)
  haveI : IsProbabilityMeasure (ν.map (push m)) := Measure.isProbabilityMeasure_map hp.aemeasurable
  haveI : IsProbabilityMeasure (fixedLaw c data ν push lnf hist m x) :=
    histLaw_prob (ν1 := noise d) (ν2 := (ν.map (push m)).prod unif) (localStep_measurable (.mala c.stepSize : KernelRes ℝ d M) c.logpdf data hE.meas hE.gradMeas)
      (flowStep_measurable c.logpdf data (lnf m) hE.meas hl) hist (Measure.dirac x)
  exact abs_integral_bdd hB

/-- Mean of a chain's average when the flow is `m` and the start `x`. -/
noncomputable def chainExp (c : BundleCfg ℝ D d M O) (data : Data D) (ν : Measure Z) (push : M → Z → Pos ℝ d) (lnf : M → Pos ℝ d → ℝ) (f : Pos ℝ d → ℝ) (m : M) (x : Pos ℝ d) : ℝ :=
  (∑ l ∈ Finset.range c.nProdLoops, ∑ r ∈ Finset.range (rowsPerCall c true + rowsPerCall c false), rowsAvg c data ν push lnf f (rowPre c r ++ loopsSteps c l) m x) /
    (c.nProdLoops * (rowsPerCall c true + rowsPerCall c false : ℕ) : ℝ)

theorem chainExp_small {c : BundleCfg ℝ D d M O} {data : Data D} (hE : AdaptiveBundle T P sig env c data ν push lnf G) (hn : 0 < c.nProdLoops) {C : ℝ} (hC : 1 ≤ C)
    (hcov : ∀ m ∈ G, ∀ x, density (fun x => c.logpdf.val x data) x ≤ C * density (lnf m) x) {f : Pos ℝ d → ℝ} (hf : Measurable f) {B : ℝ} (hB : ∀ x, |f x| ≤ B)
    (hf0 : ∫ x, f x ∂(normalised (targetMeasure fun x => c.logpdf.val x data)) = 0) {m : M} (hm : m ∈ G) (x : Pos ℝ d) :
    |chainExp c data ν push lnf f m x| ≤ 2 * B / (c.nProdLoops * (1 - loopFactor c C)) := by
  obtain ⟨h0, h1⟩ := loopFactor_lt c hC
  set n := c.nProdLoops with hnn
  set Q := rowsPerCall c true + rowsPerCall c false with hQ
  have hQ0 : 0 < Q := by have := rowsPerCall_pos hE.good true; omega
  have hnp : (0 : ℝ) < n := by exact_mod_cast hn
  have hQp : (0 : ℝ) < Q := by exact_mod_cast hQ0
  have hB0 : 0 ≤ B := le_trans (abs_nonneg _) (hB x)
  have h2 : 0 < 1 - loopFactor c C := by linarith
  rw [chainExp, abs_div, abs_of_pos (by positivity : (0 : ℝ) < n * Q), div_le_div_iff₀ (by positivity) (by positivity)]
  have : |∑ l ∈ Finset.range n, ∑ r ∈ Finset.range Q, rowsAvg c data ν push lnf f (rowPre c r ++ loopsSteps c l) m x| ≤ Q * (2 * B) * (1 / (1 - loopFactor c C)) := by
    calc _ ≤ ∑ l ∈ Finset.range n, |∑ r ∈ Finset.range Q, rowsAvg c data ν push lnf f (rowPre c r ++ loopsSteps c l) m x| := Finset.abs_sum_le_sum_abs _ _
      _ ≤ ∑ l ∈ Finset.range n, ∑ r ∈ Finset.range Q, |rowsAvg c data ν push lnf f (rowPre c r ++ loopsSteps c l) m x| := Finset.sum_le_sum fun l _ => Finset.abs_sum_le_sum_abs _ _
      _ ≤ ∑ l ∈ Finset.range n, ∑ r ∈ Finset.range Q, 2 * B * loopFactor c C ^ l := Finset.sum_le_sum fun l _ => Finset.sum_le_sum fun r _ => rowsAvg_small hE hC hcov hf hB hf0 _ l hm x
      _ = Q * (2 * B) * ∑ l ∈ Finset.range n, loopFactor c C ^ l := by simp only [Finset.sum_const, Finset.card_range, nsmul_eq_mul, Finset.mul_sum, mul_assoc]
      _ ≤ _ := mul_le_mul_of_nonneg_left (geom_le h0 h1 n) (by positivity)
  calc _ ≤ Q * (2 * B) * (1 / (1 - loopFactor c C)) * (n * (1 - loopFactor c C)) := mul_le_mul_of_nonneg_right this (by positivity)
    _ = 2 * B * (n * Q) := by field_simp

/-- The average of a chain, weighted with anything known before. -/
theorem chain_given (hTc : ∀ a, T a → ∀ b, Desc a b → T b) (h : IdealOn T past sig P env) (c : BundleCfg ℝ D d M O) (data : Data D) (hE : AdaptiveBundle T P sig env c data ν push lnf G)
    (m : Ω → M) (hm : Measurable[past] m) (hG : ∀ ω, m ω ∈ G) (X : Ω → Pos ℝ d) (hX : Measurable[past] X)
    {k : Key} {logs : Ω → Bool → List (Block ℝ d)} {w : ℕ → Ω → World ℝ D d M O} {zs : ℕ → Ω → List (Pos ℝ d)} {b1 b2 : ℕ → Ω → Block ℝ d}
    (R : ProdRun env c data m k logs c.nProdLoops w zs b1 b2) (i : ℕ) (hT : ∀ l, T (.child (.child (carryKey k l) 1) i)) (hstart : ∀ ω, (w 0 ω).xs[i]? = some (X ω))
    (f : Pos ℝ d → ℝ) (hf : Measurable f) (B : ℝ) (hB : ∀ x, |f x| ≤ B) :
    ∃ Y : ℕ → ℕ → Ω → Pos ℝ d, (∀ l < c.nProdLoops, ∀ r < rowsPerCall c true + rowsPerCall c false,
        (∀ ω, rowCell c b1 b2 i l r ω = some (Y l r ω)) ∧ Measurable[info past sig (prodSet k (l + 1))] (Y l r)) ∧
      (Measurable[past] fun ω => chainExp c data ν push lnf f (m ω) (X ω)) ∧
      ∀ (g : Ω → ℝ) (A : ℝ), Measurable[past] g → (∀ ω, |g ω| ≤ A) →
        ∫ ω, g ω * ((∑ l ∈ Finset.range c.nProdLoops, ∑ r ∈ Finset.range (rowsPerCall c true + rowsPerCall c false), f (Y l r ω)) / (c.nProdLoops * (rowsPerCall c true + rowsPerCall c false : ℕ) : ℝ)) ∂P =
          ∫ ω, g ω * chainExp c data ν push lnf f (m ω) (X ω) ∂P := by
  have hrow : ∀ l r, ∃ Y : Ω → Pos ℝ d, l < c.nProdLoops → r < rowsPerCall c true + rowsPerCall c false → (∀ ω, rowCell c b1 b2 i l r ω = some (Y ω)) ∧ Measurable[info past sig (prodSet k (l + 1))] Y ∧
      (Measurable[past] fun ω => rowsAvg c data ν push lnf f (rowPre c r ++ loopsSteps c l) (m ω) (X ω)) ∧
      ∀ (g : Ω → ℝ) (A : ℝ), Measurable[past] g → (∀ ω, |g ω| ≤ A) → ∫ ω, g ω * f (Y ω) ∂P = ∫ ω, g ω * rowsAvg c data ν push lnf f (rowPre c r ++ loopsSteps c l) (m ω) (X ω) ∂P := by
    intro l r
    by_cases hl : l < c.nProdLoops
    · by_cases hr : r < rowsPerCall c true + rowsPerCall c false
      · obtain ⟨Y, hY⟩ := row_given hTc h c data hE m hm hG X hX R i hT hstart f hf B hB l hl r hr
        exact ⟨Y, fun _ _ => hY⟩
      · exact ⟨fun _ _ => 0, fun _ h => absurd h hr⟩
    · exact ⟨fun _ _ => 0, fun h => absurd h hl⟩
  choose Y hY using hrow
  refine ⟨Y, fun l hl r hr => ⟨(hY l r hl hr).1, (hY l r hl hr).2.1⟩, ?_, fun g A hg hA => ?_⟩
  · unfold chainExp
    refine Measurable.div_const ?_ _
    refine Finset.measurable_sum _ fun l hl => Finset.measurable_sum _ fun r hr => ?_
    exact (hY l r (Finset.mem_range.1 hl) (Finset.mem_range.1 hr)).2.2.1
  · have hgm : Measurable g := hg.mono h.past_le le_rfl
    have i1 : ∀ l < c.nProdLoops, ∀ r < rowsPerCall c true + rowsPerCall c false, Integrable (fun ω => g ω * f (Y l r ω)) P := fun l hl r hr =>
      integrable_bdd (hgm.mul (hf.comp ((hY l r hl hr).2.1.mono (h.info_le _) le_rfl))) (B := A * B) fun ω => by
        simp only [Pi.mul_apply, Function.comp, abs_mul]
        exact mul_le_mul (hA _) (hB _) (abs_nonneg _) (le_trans (abs_nonneg _) (hA ω))
    have i2 : ∀ l < c.nProdLoops, ∀ r < rowsPerCall c true + rowsPerCall c false, Integrable (fun ω => g ω * rowsAvg c data ν push lnf f (rowPre c r ++ loopsSteps c l) (m ω) (X ω)) P := fun l hl r hr =>
      integrable_bdd (hgm.mul ((hY l r hl hr).2.2.1.mono h.past_le le_rfl)) (B := A * B) fun ω => by
        simp only [Pi.mul_apply, abs_mul]
        exact mul_le_mul (hA _) (rowsAvg_bdd hE hB _ _ _) (abs_nonneg _) (le_trans (abs_nonneg _) (hA ω))
    simp only [chainExp, mul_div_assoc', Finset.mul_sum]
    rw [integral_div, integral_div]
    congr 1
    rw [integral_finset_sum _ fun l hl => integrable_finset_sum _ fun r hr => i1 l (Finset.mem_range.1 hl) r (Finset.mem_range.1 hr),
      integral_finset_sum _ fun l hl => integrable_finset_sum _ fun r hr => i2 l (Finset.mem_range.1 hl) r (Finset.mem_range.1 hr)]
    refine Finset.sum_congr rfl fun l hl => ?_
    rw [integral_finset_sum _ fun r hr => i1 l (Finset.mem_range.1 hl) r (Finset.mem_range.1 hr), integral_finset_sum _ fun r hr => i2 l (Finset.mem_range.1 hl) r (Finset.mem_range.1 hr)]
    exact Finset.sum_congr rfl fun r hr => (hY l r (Finset.mem_range.1 hl) (Finset.mem_range.1 hr)).2.2.2 g A hg hA

/-- Mean square error of one chain. -/
theorem chain_error {c : BundleCfg ℝ D d M O} {data : Data D} {m : Ω → M} {k : Key} {logs : Ω → Bool → List (Block ℝ d)} {w : ℕ → Ω → World ℝ D d M O} {zs : ℕ → Ω → List (Pos ℝ d)}
    {b1 b2 : ℕ → Ω → Block ℝ d} (R : ProdRun env c data m k logs c.nProdLoops w zs b1 b2) (h : IdealOn (Desc k) past sig P env) (hE : AdaptiveBundle (Desc k) P sig env c data ν push lnf G)
    (hn : 0 < c.nProdLoops) (hm : Measurable[past] m) (hG : ∀ ω, m ω ∈ G) (X : Ω → Pos ℝ d) (hX : Measurable[past] X) (i : ℕ) (hstart : ∀ ω, (w 0 ω).xs[i]? = some (X ω))
    {C : ℝ} (hC : 1 ≤ C) (hcov : ∀ m ∈ G, ∀ x, density (fun x => c.logpdf.val x data) x ≤ C * density (lnf m) x) {f : Pos ℝ d → ℝ} (hf : Measurable f) {B : ℝ} (hB : ∀ x, |f x| ≤ B)
    (hf0 : ∫ x, f x ∂(normalised (targetMeasure fun x => c.logpdf.val x data)) = 0) (Y : ℕ → ℕ → Ω → Pos ℝ d)
    (hY : ∀ l < c.nProdLoops, ∀ r < rowsPerCall c true + rowsPerCall c false, (∀ ω, rowCell c b1 b2 i l r ω = some (Y l r ω)) ∧ Measurable[info past sig (prodSet k (l + 1))] (Y l r)) :
    ∫ ω, ((∑ l ∈ Finset.range c.nProdLoops, ∑ r ∈ Finset.range (rowsPerCall c true + rowsPerCall c false), f (Y l r ω)) / (c.nProdLoops * (rowsPerCall c true + rowsPerCall c false : ℕ) : ℝ)) ^ 2 ∂P ≤
      B ^ 2 * (1 + 4 / (1 - loopFactor c C)) / c.nProdLoops := by
  obtain ⟨h0, h1⟩ := loopFactor_lt c hC
  have cor0 := rows_correlation R h hE hm hG X hX i hstart hC hcov hf hB hf0 Y hY
  set n := c.nProdLoops with hnn
  set Q := rowsPerCall c true + rowsPerCall c false with hQ
  set ρ := loopFactor c C with hρ
  have hQ0 : 0 < Q := by have := rowsPerCall_pos hE.good true; omega
  have hnp : (0 : ℝ) < n := by exact_mod_cast hn
  have hQp : (0 : ℝ) < Q := by exact_mod_cast hQ0
  have h2 : 0 < 1 - ρ := by linarith
  have Ym : ∀ l < n, ∀ r < Q, Measurable (Y l r) := fun l hl r hr => (hY l hl r hr).2.mono (h.info_le _) le_rfl
  set U : ℕ → Ω → ℝ := fun l ω => ∑ r ∈ Finset.range Q, f (Y l r ω) with hU
  have Um : ∀ l < n, Measurable (U l) := fun l hl => Finset.measurable_sum _ fun r hr => hf.comp (Ym l hl r (Finset.mem_range.1 hr))
  have Ub : ∀ l < n, ∀ ω, |U l ω| ≤ Q * B := fun l hl ω => by
    calc |U l ω| ≤ ∑ r ∈ Finset.range Q, |f (Y l r ω)| := Finset.abs_sum_le_sum_abs _ _
      _ ≤ ∑ r ∈ Finset.range Q, B := Finset.sum_le_sum fun r _ => hB _
      _ = Q * B := by simp
  have ii : ∀ l < n, ∀ l' < n, ∀ r < Q, ∀ r' < Q, Integrable (fun ω => f (Y l r ω) * f (Y l' r' ω)) P := by
    intro l hl l' hl' r hr r' hr'
    refine integrable_bdd ((hf.comp (Ym l hl r hr)).mul (hf.comp (Ym l' hl' r' hr'))) (B := B * B) fun ω => ?_
    simp only [Pi.mul_apply, Function.comp, abs_mul]
    exact mul_le_mul (hB _) (hB _) (abs_nonneg _) (le_trans (abs_nonneg _) (hB (Y l r ω)))
  have corU : ∀ l l', l + 1 + l' < n → ∫ ω, U l ω * U (l + 1 + l') ω ∂P ≤ Q ^ 2 * (2 * B ^ 2) * ρ ^ l' := by
    intro l l' hl'
    have e : ∀ ω, U l ω * U (l + 1 + l') ω = ∑ r ∈ Finset.range Q, ∑ r' ∈ Finset.range Q, f (Y l r ω) * f (Y (l + 1 + l') r' ω) := fun ω => by simp only [hU]; rw [Finset.sum_mul_sum]
    simp only [e]
    rw [integral_finset_sum _ fun r hr => integrable_finset_sum _ fun r' hr' => ii l (by omega) (l + 1 + l') hl' r (Finset.mem_range.1 hr) r' (Finset.mem_range.1 hr')]
    calc _ ≤ ∑ r ∈ Finset.range Q, ∑ r' ∈ Finset.range Q, 2 * B ^ 2 * ρ ^ l' := by
          refine Finset.sum_le_sum fun r hr => ?_
          rw [integral_finset_sum _ fun r' hr' => ii l (by omega) (l + 1 + l') hl' r (Finset.mem_range.1 hr) r' (Finset.mem_range.1 hr')]
          exact Finset.sum_le_sum fun r' hr' => cor0 l l' hl' r (Finset.mem_range.1 hr) r' (Finset.mem_range.1 hr')
      _ = _ := by simp; ring
  have sm := second_moment_geom (P := P) U n Um Ub (by positivity : 0 ≤ (Q : ℝ) ^ 2 * (2 * B ^ 2)) h0 h1 corU
  simp only [div_pow]
  rw [integral_div, div_le_div_iff₀ (by positivity) hnp]
  calc _ ≤ n * ((Q * B) ^ 2 + 2 * (Q ^ 2 * (2 * B ^ 2)) / (1 - ρ)) * n := mul_le_mul_of_nonneg_right sm hnp.le
    _ = _ := by field_simp; ring

/-- Error bars of all averages over a production run. -/
theorem ProdRun.errorBars {c : BundleCfg ℝ D d M O} {data : Data D} {m : Ω → M} {k : Key} {logs : Ω → Bool → List (Block ℝ d)} {w : ℕ → Ω → World ℝ D d M O} {zs : ℕ → Ω → List (Pos ℝ d)}
    {b1 b2 : ℕ → Ω → Block ℝ d} (R : ProdRun env c data m k logs c.nProdLoops w zs b1 b2) (h : IdealOn (Desc k) past sig P env) (hE : AdaptiveBundle (Desc k) P sig env c data ν push lnf G)
    (hC0 : 0 < c.nChains) (hn : 0 < c.nProdLoops) (hm : Measurable[past] m) (hG : ∀ ω, m ω ∈ G) (X : ℕ → Ω → Pos ℝ d) (hX : ∀ i < c.nChains, Measurable[past] (X i))
    (hstart : ∀ i < c.nChains, ∀ ω, (w 0 ω).xs[i]? = some (X i ω))
    {C : ℝ} (hC : 1 ≤ C) (hcov : ∀ m ∈ G, ∀ x, density (fun x => c.logpdf.val x data) x ≤ C * density (lnf m) x) {f : Pos ℝ d → ℝ} (hf : Measurable f) {B : ℝ} (hB : ∀ x y, |f x - f y| ≤ B)
    (b : Ω → Buffer ℝ)
    (hb : ∀ ω, ∀ i < c.nChains, ∀ j < c.nProdSteps, ∀ Y, rowCell c b1 b2 i (j / (rowsPerCall c true + rowsPerCall c false)) (j % (rowsPerCall c true + rowsPerCall c false)) ω = some Y →
      ∀ a : Fin d, (b ω).data.get [i, j, a] = Y a) :
    ErrorBars P f (∫ x, f x ∂(normalised (targetMeasure fun x => c.logpdf.val x data))) b c.nChains c.nProdSteps (2 * B / (c.nProdLoops * (1 - loopFactor c C)))
      (B ^ 2 * (1 + 4 / (1 - loopFactor c C)) / c.nProdLoops) := by
  haveI := normalised_isProb _ hE.meas hE.finite
  set a := ∫ x, f x ∂(normalised (targetMeasure fun x => c.logpdf.val x data)) with ha
  have fint : Integrable f (normalised (targetMeasure fun x => c.logpdf.val x data)) := integrable_bdd hf (B := |f 0| + B) fun x => by
    have h1 := abs_le.1 (hB x 0); have := neg_abs_le (f 0); have := le_abs_self (f 0)
    rw [abs_le]; constructor <;> linarith
  have hB' : ∀ x, |f x - a| ≤ B := fun x => by
    have e : f x - a = ∫ y, (f x - f y) ∂(normalised (targetMeasure fun x => c.logpdf.val x data)) := by
      rw [integral_sub (integrable_const _) fint]; simp [ha]
    rw [e]
    exact abs_integral_bdd fun y => hB x y
  have hf0 : ∫ x, (f x - a) ∂(normalised (targetMeasure fun x => c.logpdf.val x data)) = 0 := by
    rw [integral_sub fint (integrable_const a)]; simp [ha]
  have hfm : Measurable fun x => f x - a := hf.sub_const a
  obtain ⟨hρ0, hρ1⟩ := loopFactor_lt c hC
  have hnp : (0 : ℝ) < c.nProdLoops := by exact_mod_cast hn
  have hpos : 0 < c.nProdSteps := by
    have hcap : c.nProdSteps = c.nProdLoops * (rowsPerCall c true + rowsPerCall c false) := capacity_eq c true
    have := rowsPerCall_pos hE.good true
    rw [hcap]; exact Nat.mul_pos hn (by omega)
  set Zf : ℕ → Ω → ℝ := fun i ω => chainMean f (b ω) i c.nProdSteps - a with hZf
  set Φ : ℕ → Ω → ℝ := fun i ω => chainExp c data ν push lnf (fun x => f x - a) (m ω) (X i ω) with hΦ
  set bias := 2 * B / (c.nProdLoops * (1 - loopFactor c C)) with hbias
  have Φb : ∀ i ω, |Φ i ω| ≤ bias := fun i ω => chainExp_small hE hn hC hcov hfm hB' hf0 (hG ω) _
  have hB0 : 0 ≤ B := le_trans (abs_nonneg _) (hB' 0)
  have hb0 : 0 ≤ bias := div_nonneg (by positivity) (mul_nonneg hnp.le (by linarith))
  -- every chain, given the past
  have one : ∀ i < c.nChains, Measurable[info past (inside sig (chainKeys k i)) Set.univ] (Zf i) ∧ Measurable[past] (Φ i) ∧
      (∀ (g : Ω → ℝ) (A : ℝ), Measurable[outside past sig (chainKeys k i)] g → (∀ ω, |g ω| ≤ A) → ∫ ω, g ω * Zf i ω ∂P = ∫ ω, g ω * Φ i ω ∂P) ∧
      ∫ ω, Zf i ω ^ 2 ∂P ≤ B ^ 2 * (1 + 4 / (1 - loopFactor c C)) / c.nProdLoops := by
    intro i hi
    have hkeys : ∀ l, chainKeys k i (.child (.child (carryKey k l) 1) i) := fun l => ⟨l, .refl⟩
    have hp := past_le_outside past sig (chainKeys k i)
    -- rows, known from the draws of this chain
    obtain ⟨Y, hY, hΦm, -⟩ := chain_given (chainKeys_closed k i) (idealOn_inside h (chainKeys k i) fun _ => chainKeys_desc) c data (hE.inside (chainKeys k i) fun _ => chainKeys_desc) m hm hG (X i) (hX i hi) R i hkeys
      (hstart i hi) (fun x => f x - a) hfm B hB'
    obtain ⟨Y', hY', -, hg⟩ := chain_given (chainKeys_closed k i) (idealOn_outside h (chainKeys k i) fun _ => chainKeys_desc) c data (hE.inside (chainKeys k i) fun _ => chainKeys_desc) m (hm.mono hp le_rfl) hG (X i)
      ((hX i hi).mono hp le_rfl) R i hkeys (hstart i hi) (fun x => f x - a) hfm B hB'
    obtain ⟨Y'', hY'', -, -⟩ := chain_given (fun _ ha _ => desc_trans ha) h c data hE m hm hG (X i) (hX i hi) R i (fun l => .child i (.child 1 (desc_carryKey k l))) (hstart i hi) (fun x => f x - a) hfm B hB'
    have e1 := fun ω => chainMean_rows hE.good (fun x => f x - a) i Y (fun l hl r hr => (hY l hl r hr).1) b (fun ω j hj => hb ω i hi j hj) ω
    have e2 := fun ω => chainMean_rows hE.good (fun x => f x - a) i Y' (fun l hl r hr => (hY' l hl r hr).1) b (fun ω j hj => hb ω i hi j hj) ω
    have e3 := fun ω => chainMean_rows hE.good (fun x => f x - a) i Y'' (fun l hl r hr => (hY'' l hl r hr).1) b (fun ω j hj => hb ω i hi j hj) ω
    simp only [chainMean_sub f _ _ _ hpos] at e1 e2 e3
    refine ⟨?_, hΦm, fun g A hgm hA => ?_, ?_⟩
    · simp only [hZf, e1]
      refine Measurable.div_const ?_ _
      refine Finset.measurable_sum _ fun l hl => Finset.measurable_sum _ fun r hr => ?_
      exact hfm.comp ((hY l (Finset.mem_range.1 hl) r (Finset.mem_range.1 hr)).2.mono (info_mono (Set.subset_univ _)) le_rfl)
    · simp only [hZf, e2]
      exact hg g A hgm hA
    · simp only [hZf, e3]
      exact chain_error R h hE hn hm hG (X i) (hX i hi) i (hstart i hi) hC hcov hfm hB' hf0 Y'' hY''
  have Zm : ∀ i < c.nChains, Measurable (Zf i) := fun i hi => (one i hi).1.mono ((idealOn_inside h (chainKeys k i) fun _ => chainKeys_desc).info_le _) le_rfl
  have Φm : ∀ i < c.nChains, Measurable (Φ i) := fun i hi => (one i hi).2.1.mono h.past_le le_rfl
  have Zb : ∀ i ω, |Zf i ω| ≤ B := by
    intro i ω
    simp only [hZf]
    rw [← chainMean_sub f _ _ _ hpos, chainMean, abs_div, abs_of_pos (by exact_mod_cast hpos : (0 : ℝ) < c.nProdSteps), div_le_iff₀ (by exact_mod_cast hpos)]
    calc _ ≤ ∑ j ∈ Finset.range c.nProdSteps, |f (fun a => (b ω).data.get [i, j, a]) - a| := Finset.abs_sum_le_sum_abs _ _
      _ ≤ ∑ j ∈ Finset.range c.nProdSteps, B := Finset.sum_le_sum fun j _ => hB' _
      _ = _ := by simp [mul_comm]
  -- two chains
  have cross : ∀ i < c.nChains, ∀ j < c.nChains, i ≠ j → ∫ ω, Zf i ω * Zf j ω ∂P ≤ bias ^ 2 := by
    intro i hi j hj hij
    rw [(one j hj).2.2.1 (Zf i) B ((one i hi).1.mono (info_inside_le past sig (chainKeys_disjoint k hij.symm) _) le_rfl) (Zb i)]
    have := (one i hi).2.2.1 (Φ j) bias ((one j hj).2.1.mono (past_le_outside past sig _) le_rfl) (Φb j)
    simp only [mul_comm (Zf i _)]
    rw [this]
    refine (le_abs_self _).trans (abs_integral_bdd fun ω => ?_)
    rw [abs_mul, sq]
    exact mul_le_mul (Φb j ω) (Φb i ω) (abs_nonneg _) hb0
  have ii : ∀ i < c.nChains, ∀ j < c.nChains, Integrable (fun ω => Zf i ω * Zf j ω) P := fun i hi j hj => integrable_bdd ((Zm i hi).mul (Zm j hj)) (B := B * B) fun ω => by
    simp only [Pi.mul_apply, abs_mul]
    exact mul_le_mul (Zb i ω) (Zb j ω) (abs_nonneg _) hB0
  refine ⟨fun i hi => ?_, fun i hi => ?_, fun i hi => (one i hi).2.2.2, ?_⟩
  · have := (Zm i hi).add_const a
    simpa [hZf] using this
  · have e : ∫ ω, chainMean f (b ω) i c.nProdSteps ∂P - a = ∫ ω, Zf i ω ∂P := by
      have hi' : Integrable (fun ω => chainMean f (b ω) i c.nProdSteps) P := by
        have := (integrable_bdd (μ := P) (Zm i hi) (Zb i)).add (integrable_const a)
        refine this.congr (ae_of_all _ fun ω => ?_)
        simp [hZf]
      simp only [hZf]
      rw [integral_sub hi' (integrable_const a)]; simp
    have g1 := (one i hi).2.2.1 (fun _ => 1) 1 measurable_const (fun _ => by simp)
    simp only [one_mul] at g1
    rw [e, g1]
    exact abs_integral_bdd (Φb i)
  · have hCp : (0 : ℝ) < c.nChains := by exact_mod_cast hC0
    have e : ∀ ω, (pooledMean f (b ω) c.nChains c.nProdSteps - a) ^ 2 = (∑ i ∈ Finset.range c.nChains, ∑ j ∈ Finset.range c.nChains, Zf i ω * Zf j ω) / c.nChains ^ 2 := fun ω => by
      rw [← Finset.sum_mul_sum, ← sq, ← div_pow]
      congr 1
      simp only [pooledMean, hZf, Finset.sum_sub_distrib, Finset.sum_const, Finset.card_range, nsmul_eq_mul]
      field_simp
    simp only [e]
    rw [integral_div, integral_finset_sum _ fun i hi => integrable_finset_sum _ fun j hj => ii i (Finset.mem_range.1 hi) j (Finset.mem_range.1 hj), div_le_iff₀ (by positivity)]
    set v := B ^ 2 * (1 + 4 / (1 - loopFactor c C)) / c.nProdLoops with hv
    calc _ ≤ ∑ i ∈ Finset.range c.nChains, ∑ j ∈ Finset.range c.nChains, ((if j = i then v else 0) + bias ^ 2) := by
          refine Finset.sum_le_sum fun i hi => ?_
          rw [integral_finset_sum _ fun j hj => ii i (Finset.mem_range.1 hi) j (Finset.mem_range.1 hj)]
          refine Finset.sum_le_sum fun j hj => ?_
          rw [Finset.mem_range] at hi hj
          by_cases hij : j = i
          · subst hij
            have := (one j hj).2.2.2
            simp only [sq] at this
            rw [if_pos rfl]
            have : 0 ≤ bias ^ 2 := sq_nonneg _
            simp only [← sq] at *
            linarith
          · rw [if_neg hij, zero_add]
            exact cross i hi j hj (Ne.symm hij)
      _ = c.nChains * v + c.nChains * (c.nChains * bias ^ 2) := by
          simp only [Finset.sum_add_distrib, Finset.sum_const, Finset.card_range, nsmul_eq_mul, Finset.sum_ite_eq']
          congr 1
          rw [Finset.sum_congr rfl (g := fun _ => v) fun i hi => by rw [if_pos hi]]
          simp
      _ = _ := by field_simp

/-- **C95 (production phase).** A run of `RQSpline_MALA_Bundle` in an ideal random world.  Suppose that when training is over (`w ω`) the random key is `k`, the flow in the global sampler is `m ω` and chain `i`
is at `X i ω`, where flow and positions are *any* functions of what happened before; the flow is one of a family of flows whose `log_prob` is the log-density of their samples up to a constant, and whose density is
everywhere at least `1/C` times the density of the target.  Let `f` be any measurable function of the position whose values differ by at most `B`, and `n` the number of production loops.  Then the average of `f` over
the production rows of any one chain, as an estimate of the mean of `f` under the target, has bias at most `2 B / (n (1 - ρ))` and mean square error at most `B² (1 + 4 / (1 - ρ)) / n`, where `ρ = (1 - 1/C)^p` and `p` is the
number of flow proposals of a loop up to the last recorded one; and averaging over all chains divides the mean square error by the number of chains, up to the square of the bias. -/
theorem C95_production (k : Key) (h : IdealOn (Desc k) past sig P env) (c : BundleCfg ℝ D d M O) (hC0 : 0 < c.nChains) (hn : 0 < c.nProdLoops) (data : Data D)
    (hE : AdaptiveBundle (Desc k) P sig env c data ν push lnf G) (C : ℝ) (hC : 1 ≤ C) (hcov : ∀ m ∈ G, ∀ x, density (fun x => c.logpdf.val x data) x ≤ C * density (lnf m) x)
    (m : Ω → M) (hm : Measurable[past] m) (hG : ∀ ω, m ω ∈ G) (X : ℕ → Ω → Pos ℝ d) (hX : ∀ i < c.nChains, Measurable[past] (X i))
    (f : Pos ℝ d → ℝ) (hf : Measurable f) (B : ℝ) (hB : ∀ x y, |f x - f y| ≤ B)
    (key : Ω → Key) (xs : Ω → List (Pos ℝ d)) (w w' : Ω → World ℝ D d M O) (hx : ∀ ω, (xs ω).length = c.nChains)
    (htrain : ∀ ω, Completes (env ω) (malaBundle c).strategies.lookup data (repeatPhase c.nTrainLoops trainingPhase ++ ["reset_steppers", "update_state"])
      ⟨key ω, xs ω, ⟨(malaBundle c).resources, fun _ => 0⟩⟩ (w ω))
    (hkey : ∀ ω, (w ω).key = k) (hflow : ∀ ω, (w ω).heap.res "global_sampler" = some (.kernel (.nf (m ω) c.nfBatch))) (hstart : ∀ ω, ∀ i < c.nChains, (w ω).xs[i]? = some (X i ω))
    (hprod : ∀ ω, Completes (env ω) (malaBundle c).strategies.lookup data (repeatPhase c.nProdLoops productionPhase) (w ω) (w' ω)) :
    ∃ b : Ω → Buffer ℝ, (∀ ω, (w' ω).heap.res "positions_production" = some (.buffer (b ω))) ∧
      ErrorBars P f (∫ x, f x ∂(normalised (targetMeasure fun x => c.logpdf.val x data))) b c.nChains c.nProdSteps (2 * B / (c.nProdLoops * (1 - loopFactor c C)))
        (B ^ 2 * (1 + 4 / (1 - loopFactor c C)) / c.nProdLoops) := by
  obtain ⟨logs, v, zs, b1, b2, e0, en, R⟩ := production_run hE.good hE.flows.lawful w w' (fun ω => production_start (env ω) (hE.flows.lawful ω) c hE.good data (key ω) (xs ω) (hx ω) (w ω) (htrain ω)) hkey hflow hprod
  choose b hb hcell using fun ω => R.buffer ω
  exact ⟨b, fun ω => by rw [← en]; exact hb ω, R.errorBars h hE hC0 hn hm hG X hX (fun i hi ω => by rw [e0]; exact hstart ω i hi) hC hcov hf hB b hcell⟩

variable [MeasurableSpace O]

/-- **C95 (the whole run).** A call of `sample` with the MALA bundle, in an ideal random world, flow and positions at the end of training being random in any way (as in C88).  The call returns, and the production buffer
it leaves has the error bars of C95. -/
theorem C95_sample (h : IdealDraws past sig P env) (c : BundleCfg ℝ D d M O) (hC0 : 0 < c.nChains) (hb : 0 < c.batchSize) (hfin : ∀ x : ℝ, BufNum.isFinite x = true) (data : Data D)
    (hB : AdaptiveBundle (fun _ => True) P sig env c data ν push lnf G) (C : ℝ) (hC : 1 ≤ C) (hcov : ∀ m ∈ G, ∀ x, density (fun x => c.logpdf.val x data) x ≤ C * density (lnf m) x)
    (key : Key) (init : Ω → InitPos ℝ d) (hx : ∀ ω, (init ω).atleast2d.length = c.nChains) (w : Ω → World ℝ D d M O)
    (hw : ∀ ω, Completes (env ω) (malaBundle c).strategies.lookup data (repeatPhase c.nTrainLoops trainingPhase ++ ["reset_steppers", "update_state"])
      ⟨key, (init ω).atleast2d, ⟨(malaBundle c).resources, fun _ => 0⟩⟩ (w ω))
    (m : Ω → M) (hm : Measurable[before past sig (trainedKey c.nTrainLoops c.nEpochs key)] m) (hG : ∀ ω, m ω ∈ G) (hflow : ∀ ω, (w ω).heap.res "global_sampler" = some (.kernel (.nf (m ω) c.nfBatch)))
    (X : ℕ → Ω → Pos ℝ d) (hX : ∀ i < c.nChains, Measurable[before past sig (trainedKey c.nTrainLoops c.nEpochs key)] (X i)) (hstart : ∀ ω, ∀ i < c.nChains, (w ω).xs[i]? = some (X i ω))
    (f : Pos ℝ d → ℝ) (hf : Measurable f) (B : ℝ) (hfB : ∀ x y, |f x - f y| ≤ B) (n : ℕ) (hn : 0 < n) (nd nc : ℕ) (kw : List (String × V)) (s : Sampler ℝ D d M O V)
    (hs : Sampler.new nd nc key none none none (some (malaBundle (c.withProd n))) kw = .ok s) :
    ∃ (s' : Ω → Sampler ℝ D d M O V) (b : Ω → Buffer ℝ), (∀ ω, s.sample (env ω) (init ω) data = (.ok (), s' ω)) ∧ (∀ ω, (s' ω).heap.res "positions_production" = some (.buffer (b ω))) ∧
      ErrorBars P f (∫ x, f x ∂(normalised (targetMeasure fun x => c.logpdf.val x data))) b c.nChains (c.withProd n).nProdSteps (2 * B / (n * (1 - loopFactor c C)))
        (B ^ 2 * (1 + 4 / (1 - loopFactor c C)) / n) := by
  set k := trainedKey c.nTrainLoops c.nEpochs key with hk
  have hI := idealOn_before h k (fun _ _ => trivial)
  have hE : AdaptiveBundle (Desc k) P (after sig k) env c data ν push lnf G :=
    ⟨hB.good, hB.step, hB.meas, hB.gradMeas, hB.ignores, hB.finite, flowFamily_before k (fun _ _ => trivial) hB.flows⟩
  obtain ⟨s', v, w', g1, g2, g3, g4, g5, g6, g7⟩ := adaptive_split h c hC0 hb hfin data hB key init hx w hw n nd nc kw s hs
  obtain ⟨b, hb1, hb2⟩ := C95_production k hI (c.withProd n) hC0 hn data (hE.withProd n) C hC hcov m hm hG X hX f hf B hfB (fun _ => key) (fun ω => (init ω).atleast2d) v w' hx g3 g4 (fun ω => by rw [g5]; exact hflow ω)
    (fun ω i hi => by rw [g6]; exact hstart ω i hi) g7
  exact ⟨s', b, g1, fun ω => by rw [g2]; exact hb1 ω, hb2⟩

/-- **C95 (end to end).** A call of `sample` with the MALA bundle in an ideal random world, with training modelled as in C83, the family of flows being such that every one of them covers the target up to the factor `C`.  The
call returns, and for every measurable `f` whose values differ by at most `B`, the averages of `f` over the production buffer have the error bars of C95 — for every number of production loops, from every start, and
whatever training does within the family. -/
theorem C95_adaptive (h : IdealDraws past sig P env) (c : BundleCfg ℝ D d M O) (hC0 : 0 < c.nChains) (hb : 0 < c.batchSize) (hfin : ∀ x : ℝ, BufNum.isFinite x = true) (data : Data D)
    (hB : AdaptiveBundle (fun _ => True) P sig env c data ν push lnf G) (C : ℝ) (hC : 1 ≤ C) (hcov : ∀ m ∈ G, ∀ x, density (fun x => c.logpdf.val x data) x ≤ C * density (lnf m) x)
    (hT : OrdinaryTraining sig env G) (hflow : c.flow ∈ G) (key : Key) (init : Ω → InitPos ℝ d)
    (hx : ∀ ω, (init ω).atleast2d.length = c.nChains) (hX : ∀ i < c.nChains, ∃ X : Ω → Pos ℝ d, Measurable[past] X ∧ ∀ ω, (init ω).atleast2d[i]? = some (X ω))
    (f : Pos ℝ d → ℝ) (hf : Measurable f) (B : ℝ) (hfB : ∀ x y, |f x - f y| ≤ B) (n : ℕ) (hn : 0 < n) (nd nc : ℕ) (kw : List (String × V)) (s : Sampler ℝ D d M O V)
    (hs : Sampler.new nd nc key none none none (some (malaBundle (c.withProd n))) kw = .ok s) :
    ∃ (s' : Ω → Sampler ℝ D d M O V) (b : Ω → Buffer ℝ), (∀ ω, s.sample (env ω) (init ω) data = (.ok (), s' ω)) ∧ (∀ ω, (s' ω).heap.res "positions_production" = some (.buffer (b ω))) ∧
      ErrorBars P f (∫ x, f x ∂(normalised (targetMeasure fun x => c.logpdf.val x data))) b c.nChains (c.withProd n).nProdSteps (2 * B / (n * (1 - loopFactor c C)))
        (B ^ 2 * (1 + 4 / (1 - loopFactor c C)) / n) := by
  have hSt : ∀ ω, StaysIn (env ω) c data (fun _ => True) := fun ω => ⟨fun _ _ _ _ _ => trivial, fun _ _ _ _ _ _ _ _ => trivial, fun x _ i => hfin _⟩
  choose w w' h1 h2 using fun ω => bundle_total (env ω) (hB.flows.lawful ω) c hB.good data hC0 hb _ (hSt ω) key (init ω).atleast2d (hx ω) (fun _ _ => trivial)
  have hfin' : MeasurableSet {x : ℝ | BufNum.isFinite x = true} := by simp [hfin]
  obtain ⟨m, hm, hG, hmg, hX'⟩ := trained_before h c hB.good hfin' data hB.ignores hB.meas hB.gradMeas hB.flows hT hflow key (fun ω => (init ω).atleast2d) hx hX w h1
  choose! X hXm hXe using hX'
  exact C95_sample h c hC0 hb hfin data hB C hC hcov key init hx w h1 m hm hG hmg X hXm (fun ω i hi => hXe i hi ω) f hf B hfB n hn nd nc kw s hs

omit [MeasurableSpace O] in
/-- **C95 (confidence intervals).** What error bars mean: the probability that the average over all chains is off by more than `δ` is at most `(v / chains + bias²) / δ²`, and in any one chain at most `v / δ²`. -/
theorem C95_interval {f : Pos ℝ d → ℝ} (B : ℝ) (hB : ∀ x, |f x| ≤ B) {a : ℝ} {b : Ω → Buffer ℝ} {nC n : ℕ} {bias v : ℝ} (hE : ErrorBars P f a b nC n bias v) (δ : ℝ) (hδ : 0 < δ) :
    P.real {ω | δ < |pooledMean f (b ω) nC n - a|} ≤ (v / nC + bias ^ 2) / δ ^ 2 ∧ ∀ i < nC, P.real {ω | δ < |chainMean f (b ω) i n - a|} ≤ v / δ ^ 2 := by
  have hB0 : 0 ≤ B := le_trans (abs_nonneg _) (hB 0)
  have cb : ∀ i ω, |chainMean f (b ω) i n| ≤ B := by
    intro i ω
    rw [chainMean, abs_div, abs_of_nonneg (Nat.cast_nonneg n : (0 : ℝ) ≤ n)]
    refine div_le_of_le_mul₀ (Nat.cast_nonneg n) hB0 ?_
    calc _ ≤ ∑ j ∈ Finset.range n, |f (fun a => (b ω).data.get [i, j, a])| := Finset.abs_sum_le_sum_abs _ _
      _ ≤ ∑ j ∈ Finset.range n, B := Finset.sum_le_sum fun j _ => hB _
      _ = _ := by simp [mul_comm]
  have pb : ∀ ω, |pooledMean f (b ω) nC n| ≤ B := by
    intro ω
    rw [pooledMean, abs_div, abs_of_nonneg (Nat.cast_nonneg nC : (0 : ℝ) ≤ nC)]
    refine div_le_of_le_mul₀ (Nat.cast_nonneg nC) hB0 ?_
    calc _ ≤ ∑ i ∈ Finset.range nC, |chainMean f (b ω) i n| := Finset.abs_sum_le_sum_abs _ _
      _ ≤ ∑ i ∈ Finset.range nC, B := Finset.sum_le_sum fun i _ => cb i ω
      _ = _ := by simp [mul_comm]
  constructor
  · refine chebyshev_mean (P := P) (fun ω => pooledMean f (b ω) nC n - a) ?_ (B := B + |a|) (fun ω => (abs_sub _ _).trans (by linarith [pb ω])) hδ hE.pooled_error
    exact ((Finset.measurable_sum _ fun i hi => hE.meas i (Finset.mem_range.1 hi)).div_const _).sub_const a
  · intro i hi
    exact chebyshev_mean (P := P) (fun ω => chainMean f (b ω) i n - a) ((hE.meas i hi).sub_const a) (B := B + |a|) (fun ω => (abs_sub _ _).trans (by linarith [cb i ω])) hδ (hE.chain_error i hi)

end FlowMC
