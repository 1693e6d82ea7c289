import Verif.Props.ErrorBars
import Verif.Lemmas.Covering
import Verif.Spec.Visits
/-
C109: no region of positive probability is missed.
-/
open MeasureTheory ProbabilityTheory Filter
open scoped ENNReal Topology
set_option linter.unusedSectionVars false
namespace FlowMC
open Spec

variable {Ω D M O V Z : Type} {d : ℕ}

/-- **C109 (how long is enough).** The bound of C109 is below `ε` as soon as `n ≥ log(1/ε) / ((1 - ρ) p)`, for a region of probability `p > 0`. -/
theorem C109_enough {R : Type} (c : BundleCfg R D d M O) (C : ℝ) (hC : 1 ≤ C) (p : ℝ) (hp : 0 < p) (hp1 : p ≤ 1) (ε : ℝ) (hε : 0 < ε) (n : ℕ) (hn : Real.log (1 / ε) / ((1 - loopFactor c C) * p) ≤ n) :
    (1 - (1 - loopFactor c C) * p) ^ n ≤ ε := by
  have ha : 0 ≤ 1 - 1 / C := by rw [sub_nonneg, div_le_one (by linarith)]; exact hC
  have hb : 1 - 1 / C < 1 := by
    have : 0 < 1 / C := by positivity
    linarith
  have h0 : 0 ≤ loopFactor c C := pow_nonneg ha _
  have h1 : loopFactor c C < 1 := pow_lt_one₀ ha hb (by omega)
  have hδ : 0 < (1 - loopFactor c C) * p := mul_pos (by linarith) hp
  have hδ1 : (1 - loopFactor c C) * p ≤ 1 := mul_le_one₀ (by linarith) hp.le hp1
  rw [div_le_iff₀ hδ] at hn
  calc (1 - (1 - loopFactor c C) * p) ^ n ≤ Real.exp (-((1 - loopFactor c C) * p)) ^ n := by
        refine pow_le_pow_left₀ (by linarith) ?_ n
        have := Real.add_one_le_exp (-((1 - loopFactor c C) * p)); linarith
    _ = Real.exp (-(n * ((1 - loopFactor c C) * p))) := by rw [← Real.exp_nat_mul]; congr 1; ring
    _ ≤ Real.exp (-Real.log (1 / ε)) := Real.exp_le_exp.2 (by linarith)
    _ = ε := by rw [one_div, Real.log_inv, neg_neg, Real.exp_log hε]

variable {past : MeasurableSpace Ω} {sig : Key → MeasurableSpace Ω} [mΩ : MeasurableSpace Ω] {P : Measure Ω} [IsProbabilityMeasure P] {env : Ω → Env ℝ D d M O} {T : Key → Prop}
  [MeasurableSpace M] [MeasurableSpace Z] {ν : Measure Z} {push : M → Z → Pos ℝ d} {lnf : M → Pos ℝ d → ℝ} {G : Set M} [BufNum ℝ]

omit [BufNum ℝ] in
theorem rowPre_last {F : Type} {c : BundleCfg F D d M O} (hc : GoodCfg c) :
    (rowPre c (rowsPerCall c true + (rowsPerCall c false - 1))).count false = (c.nGlobal / c.globalThin - 1) * c.globalThin + 1 := by
  rw [rowPre, if_neg (by omega), Nat.add_sub_cancel_left, List.count_append, List.count_replicate_self]
  have : (List.replicate ((rowsPerCall c true - 1) * c.localThin + 1) true).count false = 0 := List.count_eq_zero.2 fun h => by
    have := List.eq_of_mem_replicate h; simp at this
  rw [this, Nat.add_zero]
  rfl

/-- The last recorded rows of the first `l` loops all miss `A`. -/
noncomputable def missW (A : Set (Pos ℝ d)) (Y : ℕ → Ω → Pos ℝ d) (l : ℕ) (ω : Ω) : ℝ := ∏ l' ∈ Finset.range l, (1 - A.indicator (fun _ => 1) (Y l' ω))

omit [BufNum ℝ] in
theorem missW_mem (A : Set (Pos ℝ d)) (Y : ℕ → Ω → Pos ℝ d) (l : ℕ) (ω : Ω) : 0 ≤ missW A Y l ω ∧ missW A Y l ω ≤ 1 := by
  have h : ∀ x : Pos ℝ d, 0 ≤ 1 - A.indicator (fun _ => (1 : ℝ)) x ∧ 1 - A.indicator (fun _ => (1 : ℝ)) x ≤ 1 := fun x => by
    by_cases hx : x ∈ A <;> simp [hx]
  exact ⟨Finset.prod_nonneg fun l' _ => (h _).1, Finset.prod_le_one (fun l' _ => (h _).1) fun l' _ => (h _).2⟩

/-- The last recorded rows of the loops of one chain miss `A` with geometrically small probability, whatever is known before. -/
theorem chain_misses (hTc : ∀ a, T a → ∀ b, Desc a b → T b) (h : IdealOn T past sig P env) (c : BundleCfg ℝ D d M O) (data : Data D) (hE : AdaptiveBundle T P sig env c data ν push lnf G)
    (m : Ω → M) (hm : Measurable[past] m) (hG : ∀ ω, m ω ∈ G) (X : Ω → Pos ℝ d) (hX : Measurable[past] X)
    {k : Key} {logs : Ω → Bool → List (Block ℝ d)} {n : ℕ} {w : ℕ → Ω → World ℝ D d M O} {zs : ℕ → Ω → List (Pos ℝ d)} {b1 b2 : ℕ → Ω → Block ℝ d}
    (R : ProdRun env c data m k logs n w zs b1 b2) (i : ℕ) (hT : ∀ l, T (.child (.child (carryKey k l) 1) i)) (hstart : ∀ ω, (w 0 ω).xs[i]? = some (X ω))
    {C : ℝ} (hC : 1 ≤ C) (hcov : ∀ m ∈ G, ∀ x, density (fun x => c.logpdf.val x data) x ≤ C * density (lnf m) x) {A : Set (Pos ℝ d)} (hA : MeasurableSet A) :
    ∃ Y : ℕ → Ω → Pos ℝ d, (∀ l < n, (∀ ω, rowCell c b1 b2 i l (rowsPerCall c true + (rowsPerCall c false - 1)) ω = some (Y l ω)) ∧ Measurable[info past sig (prodSet k (l + 1))] (Y l)) ∧
      ∀ (g : Ω → ℝ), Measurable[past] g → (∀ ω, 0 ≤ g ω) → (∀ ω, g ω ≤ 1) → ∀ l ≤ n,
        ∫ ω, g ω * missW A Y l ω ∂P ≤ (1 - (1 - loopFactor c C) * (normalised (targetMeasure fun x => c.logpdf.val x data)).real A) ^ l * ∫ ω, g ω ∂P := by
  haveI := normalised_isProb _ hE.meas hE.finite
  have hid := toPast_measurable past
  have hr : rowsPerCall c true + (rowsPerCall c false - 1) < rowsPerCall c true + rowsPerCall c false := by have := rowsPerCall_pos hE.good false; omega
  set r := rowsPerCall c true + (rowsPerCall c false - 1) with hrr
  set δ := (1 - loopFactor c C) * (normalised (targetMeasure fun x => c.logpdf.val x data)).real A with hδ
  obtain ⟨h0, h1⟩ := loopFactor_lt c hC
  have hδ1 : δ ≤ 1 := mul_le_one₀ (by linarith) measureReal_nonneg measureReal_le_one
  have law := family_rowLawsOn hTc h c hE.good data hE.meas hE.gradMeas hE.ignores hE.flows (fun ω : PastOf past => m ω) hm (toPast past) hG (P.map fun ω => (toPast past ω, X ω))
  obtain ⟨starts, rows⟩ := R.lawsOn law 0 [] i hT ⟨hid.mono (past_le_info (by simp [prodSet])) le_rfl, X, hstart, hX.mono (past_le_info (by simp [prodSet])) le_rfl, rfl⟩
  simp only [Nat.zero_add, List.append_nil] at starts rows
  have hrow : ∀ l, ∃ Y : Ω → Pos ℝ d, l < n → (∀ ω, rowCell c b1 b2 i l r ω = some (Y ω)) ∧ Measurable[info past sig (prodSet k (l + 1))] Y := by
    intro l
    by_cases hl : l < n
    · obtain ⟨-, Y, hY, hYm, -⟩ := rows l hl r hr
      exact ⟨Y, fun _ => ⟨hY, hYm⟩⟩
    · exact ⟨fun _ _ => 0, fun h => absurd h hl⟩
  choose Y hY using hrow
  refine ⟨Y, hY, fun g hg hg0 hg1 l => ?_⟩
  have hf : Measurable (A.indicator fun _ : Pos ℝ d => (1 : ℝ)) := measurable_const.indicator hA
  have hfb : ∀ x, |A.indicator (fun _ : Pos ℝ d => (1 : ℝ)) x| ≤ 1 := fun x => by by_cases hx : x ∈ A <;> simp [hx]
  have mono : ∀ {l l' : ℕ}, l ≤ l' → prodSet k l ⊆ prodSet k l' := fun {l l'} hl => prodSet_mono k hl
  have hH : ∀ l ≤ n, Measurable[info past sig (prodSet k l)] fun ω => g ω * missW A Y l ω := by
    intro l hl
    refine Measurable.mul (hg.mono (past_le_info (prodSet_mono k (Nat.zero_le l) (by simp [prodSet]))) le_rfl) ?_
    unfold missW
    refine Finset.measurable_prod _ fun l' hl' => ?_
    have hl'' := Finset.mem_range.1 hl'
    exact measurable_const.sub (hf.comp ((hY l' (by omega)).2.mono (info_mono (mono (by omega))) le_rfl))
  have hHm : ∀ l ≤ n, Measurable fun ω => g ω * missW A Y l ω := fun l hl => (hH l hl).mono (h.info_le _) le_rfl
  have hH0 : ∀ l ω, 0 ≤ g ω * missW A Y l ω := fun l ω => mul_nonneg (hg0 ω) (missW_mem A Y l ω).1
  have hH1 : ∀ l ω, g ω * missW A Y l ω ≤ 1 := fun l ω => mul_le_one₀ (hg1 ω) (missW_mem A Y l ω).1 (missW_mem A Y l ω).2
  have hHb : ∀ l ω, |g ω * missW A Y l ω| ≤ 1 := fun l ω => by rw [abs_of_nonneg (hH0 l ω)]; exact hH1 l ω
  induction l with
  | zero => intro _; simp [missW]
  | succ l ih =>
    intro hl
    obtain ⟨hpm, X', e1, e2, -⟩ := starts l (by omega)
    have hm' : Measurable fun p : PastOf past × ℝ => m p.1 := by
      have hm0 : Measurable (fun ω : PastOf past => m ω) := hm
      exact hm0.comp measurable_fst
    have hW : Measurable[info past sig (prodSet k l)] fun ω => (toPast past ω, g ω * missW A Y l ω) := hpm.prodMk (hH l (by omega))
    have law' := family_rowLawsOn hTc h c hE.good data hE.meas hE.gradMeas hE.ignores hE.flows (fun p : PastOf past × ℝ => m p.1) hm' (fun ω => (toPast past ω, g ω * missW A Y l ω)) hG
      (P.map fun ω => ((toPast past ω, g ω * missW A Y l ω), X' ω))
    have := (R.lawsOn law' l [] i hT ⟨hW, X', e1, e2, rfl⟩).2 0 (by omega) r hr
    simp only [loopsSteps, List.append_nil, Nat.add_zero] at this
    obtain ⟨-, Y', g1, g2, g3⟩ := this
    obtain rfl : Y' = Y l := funext fun ω => by
      have := (hY l (by omega)).1 ω
      rw [g1 ω, Option.some.injEq] at this; exact this
    set clip1 : ℝ → ℝ := fun t => max 0 (min t 1) with hclip
    have hclipm : Measurable clip1 := measurable_const.max (measurable_id.min measurable_const)
    have hcl : ∀ ω, clip1 (g ω * missW A Y l ω) = g ω * missW A Y l ω := fun ω => by
      simp only [hclip]; rw [min_eq_left (hH1 l ω), max_eq_right (hH0 l ω)]
    obtain ⟨hmm, e⟩ := mean_given hE (fun p : PastOf past × ℝ => m p.1) hm' (fun ω => (toPast past ω, g ω * missW A Y l ω)) (hW.mono (h.info_le _) le_rfl) X' (Y l) (e2.mono (h.info_le _) le_rfl)
      (g2.mono (h.info_le _) le_rfl) _ g3 hf hfb (g := fun p => clip1 p.2) (hclipm.comp measurable_snd) (A := 1)
      (fun p => by simp only [hclip]; rw [abs_of_nonneg (le_max_left _ _)]; exact max_le zero_le_one (min_le_right _ _))
    simp only [hcl] at e
    have hits : ∀ ω, δ ≤ rowsAvg c data ν push lnf (A.indicator fun _ => 1) (rowPre c r) (m ω) (X' ω) := fun ω => by
      have := rowsAvg_hits hE hC hcov hA (rowPre c r) (hG ω) (X' ω)
      rw [rowPre_last hE.good] at this
      exact this
    have hY' : Measurable (Y l) := (hY l (by omega)).2.mono (h.info_le _) le_rfl
    have i0 : Integrable (fun ω => g ω * missW A Y l ω) P := integrable_bdd (hHm l (by omega)) (hHb l)
    have i1 : Integrable (fun ω => g ω * missW A Y l ω * A.indicator (fun _ => 1) (Y l ω)) P := integrable_bdd ((hHm l (by omega)).mul (hf.comp hY')) (B := 1 * 1) fun ω => by
      show |_ * _| ≤ _
      rw [abs_mul]; exact mul_le_mul (hHb l ω) (hfb _) (abs_nonneg _) zero_le_one
    have hrm : Measurable fun ω => rowsAvg c data ν push lnf (A.indicator fun _ => 1) (rowPre c r) (m ω) (X' ω) :=
      Measurable.comp (g := fun p : (PastOf past × ℝ) × Pos ℝ d => rowsAvg c data ν push lnf (A.indicator fun _ => 1) (rowPre c r) (m p.1.1) p.2)
        (f := fun ω => ((toPast past ω, g ω * missW A Y l ω), X' ω)) hmm ((hW.mono (h.info_le _) le_rfl).prodMk (e2.mono (h.info_le _) le_rfl))
    have i2 : Integrable (fun ω => g ω * missW A Y l ω * rowsAvg c data ν push lnf (A.indicator fun _ => 1) (rowPre c r) (m ω) (X' ω)) P :=
      integrable_bdd ((hHm l (by omega)).mul hrm) (B := 1 * 1) fun ω => by
        show |_ * _| ≤ _
        rw [abs_mul]; exact mul_le_mul (hHb l ω) (rowsAvg_bdd hE hfb _ _ _) (abs_nonneg _) zero_le_one
    have e3 : ∫ ω, g ω * missW A Y (l + 1) ω ∂P = ∫ ω, g ω * missW A Y l ω ∂P - ∫ ω, g ω * missW A Y l ω * A.indicator (fun _ => 1) (Y l ω) ∂P := by
      rw [← integral_sub i0 i1]
      refine integral_congr_ae (ae_of_all _ fun ω => ?_)
      simp only [missW, Finset.prod_range_succ]; ring
    have e4 : δ * ∫ ω, g ω * missW A Y l ω ∂P ≤ ∫ ω, g ω * missW A Y l ω * A.indicator (fun _ => 1) (Y l ω) ∂P := by
      rw [e, ← integral_const_mul]
      refine integral_mono (i0.const_mul _) i2 fun ω => ?_
      simp only
      rw [mul_comm]
      exact mul_le_mul_of_nonneg_left (hits ω) (hH0 l ω)
    rw [e3, pow_succ, mul_comm (_ ^ l), mul_assoc]
    calc _ ≤ (1 - δ) * ∫ ω, g ω * missW A Y l ω ∂P := by linarith
      _ ≤ _ := mul_le_mul_of_nonneg_left (ih (by omega)) (by linarith)

omit [BufNum ℝ] in
theorem missW_meas (h : IdealOn T past sig P env) {A : Set (Pos ℝ d)} (hA : MeasurableSet A) {Y : ℕ → Ω → Pos ℝ d} {k : Key} {n : ℕ} (hY : ∀ l < n, Measurable[info past sig (prodSet k (l + 1))] (Y l)) :
    Measurable[info past sig Set.univ] (missW A Y n) := by
  unfold missW
  refine Finset.measurable_prod _ fun l hl => measurable_const.sub ((measurable_const.indicator hA).comp ?_)
  exact (hY l (Finset.mem_range.1 hl)).mono (info_mono (Set.subset_univ _)) le_rfl

/-- Regions missed by a production run. -/
theorem ProdRun.visits {c : BundleCfg ℝ D d M O} {data : Data D} {m : Ω → M} {k : Key} {logs : Ω → Bool → List (Block ℝ d)} {w : ℕ → Ω → World ℝ D d M O} {zs : ℕ → Ω → List (Pos ℝ d)}
    {b1 b2 : ℕ → Ω → Block ℝ d} (R : ProdRun env c data m k logs c.nProdLoops w zs b1 b2) (h : IdealOn (Desc k) past sig P env) (hE : AdaptiveBundle (Desc k) P sig env c data ν push lnf G)
    (hm : Measurable[past] m) (hG : ∀ ω, m ω ∈ G) (X : ℕ → Ω → Pos ℝ d) (hX : ∀ i < c.nChains, Measurable[past] (X i))
    (hstart : ∀ i < c.nChains, ∀ ω, (w 0 ω).xs[i]? = some (X i ω))
    {C : ℝ} (hC : 1 ≤ C) (hcov : ∀ m ∈ G, ∀ x, density (fun x => c.logpdf.val x data) x ≤ C * density (lnf m) x) {A : Set (Pos ℝ d)} (hA : MeasurableSet A)
    (b : Ω → Buffer ℝ)
    (hb : ∀ ω, ∀ i < c.nChains, ∀ j < c.nProdSteps, ∀ Y, rowCell c b1 b2 i (j / (rowsPerCall c true + rowsPerCall c false)) (j % (rowsPerCall c true + rowsPerCall c false)) ω = some Y →
      ∀ a : Fin d, (b ω).data.get [i, j, a] = Y a) :
    let δ := (1 - loopFactor c C) * (normalised (targetMeasure fun x => c.logpdf.val x data)).real A
    (∀ i < c.nChains, P.real {ω | Misses A (b ω) i c.nProdSteps} ≤ (1 - δ) ^ c.nProdLoops) ∧
    P.real {ω | ∀ i < c.nChains, Misses A (b ω) i c.nProdSteps} ≤ (1 - δ) ^ (c.nProdLoops * c.nChains) := by
  intro δ
  haveI := normalised_isProb _ hE.meas hE.finite
  obtain ⟨h0, h1⟩ := loopFactor_lt c hC
  have hδ1 : δ ≤ 1 := mul_le_one₀ (by linarith) measureReal_nonneg measureReal_le_one
  set r := rowsPerCall c true + (rowsPerCall c false - 1) with hr
  set Q := rowsPerCall c true + rowsPerCall c false with hQ
  have hrQ : r < Q := by have := rowsPerCall_pos hE.good false; omega
  have hcap : c.nProdSteps = c.nProdLoops * Q := capacity_eq c true
  -- the miss weight of every chain
  have one : ∀ i, ∃ Z : Ω → ℝ, i < c.nChains → (∀ ω, 0 ≤ Z ω ∧ Z ω ≤ 1) ∧ (∀ ω, Misses A (b ω) i c.nProdSteps → Z ω = 1) ∧
      Measurable[info past (inside sig (chainKeys k i)) Set.univ] Z ∧
      ∀ g : Ω → ℝ, Measurable[outside past sig (chainKeys k i)] g → (∀ ω, 0 ≤ g ω) → (∀ ω, g ω ≤ 1) → ∫ ω, g ω * Z ω ∂P ≤ (1 - δ) ^ c.nProdLoops * ∫ ω, g ω ∂P := by
    intro i
    by_cases hi : i < c.nChains
    swap
    · exact ⟨fun _ => 0, fun h => absurd h hi⟩
    have hkeys : ∀ l, chainKeys k i (.child (.child (carryKey k l) 1) i) := fun l => ⟨l, .refl⟩
    have hp := past_le_outside past sig (chainKeys k i)
    obtain ⟨Y, hY, -⟩ := chain_misses (chainKeys_closed k i) (idealOn_inside h (chainKeys k i) fun _ => chainKeys_desc) c data (hE.inside (chainKeys k i) fun _ => chainKeys_desc) m hm hG (X i) (hX i hi) R i hkeys
      (hstart i hi) hC hcov hA
    obtain ⟨Y', hY', hg⟩ := chain_misses (chainKeys_closed k i) (idealOn_outside h (chainKeys k i) fun _ => chainKeys_desc) c data (hE.inside (chainKeys k i) fun _ => chainKeys_desc) m (hm.mono hp le_rfl) hG (X i)
      ((hX i hi).mono hp le_rfl) R i hkeys (hstart i hi) hC hcov hA
    have eY : ∀ l < c.nProdLoops, Y' l = Y l := fun l hl => funext fun ω => by
      have := (hY l hl).1 ω
      rw [(hY' l hl).1 ω, Option.some.injEq] at this; exact this
    have eZ : missW A Y' c.nProdLoops = missW A Y c.nProdLoops := funext fun ω => Finset.prod_congr rfl fun l hl => by rw [eY l (Finset.mem_range.1 hl)]
    refine ⟨missW A Y c.nProdLoops, fun _ => ⟨fun ω => missW_mem A Y _ ω, fun ω hmiss => ?_, missW_meas (idealOn_inside h (chainKeys k i) fun _ => chainKeys_desc) hA fun l hl => (hY l hl).2, fun g hgm hg0 hg1 => ?_⟩⟩
    · refine Finset.prod_eq_one fun l hl => ?_
      have hl' := Finset.mem_range.1 hl
      have hj : l * Q + r < c.nProdSteps := by
        rw [hcap]
        calc l * Q + r < l * Q + Q := by omega
          _ = (l + 1) * Q := by ring
          _ ≤ _ := Nat.mul_le_mul_right _ hl'
      have hd : (l * Q + r) / Q = l := by rw [mul_comm, Nat.mul_add_div (by omega), Nat.div_eq_of_lt hrQ, Nat.add_zero]
      have hmod : (l * Q + r) % Q = r := by rw [mul_comm, Nat.mul_add_mod, Nat.mod_eq_of_lt hrQ]
      have hrow := hb ω i hi (l * Q + r) hj (Y l ω) (by rw [hd, hmod]; exact (hY l hl').1 ω)
      have hnot : Y l ω ∉ A := by
        have := hmiss _ hj
        rwa [show (fun a : Fin d => (b ω).data.get [i, l * Q + r, a]) = Y l ω from funext hrow] at this
      simp [hnot]
    · rw [← eZ]; exact hg g hgm hg0 hg1 _ le_rfl
  choose Z hZ using one
  have Zm : ∀ i < c.nChains, Measurable (Z i) := fun i hi => (hZ i hi).2.2.1.mono ((idealOn_inside h (chainKeys k i) fun _ => chainKeys_desc).info_le _) le_rfl
  have markov : ∀ (S : Set Ω) (f : Ω → ℝ), Measurable f → (∀ ω, 0 ≤ f ω ∧ f ω ≤ 1) → (∀ ω ∈ S, f ω = 1) → P.real S ≤ ∫ ω, f ω ∂P := by
    intro S f hf hfb hS
    have hi : Integrable f P := integrable_bdd hf (B := 1) fun ω => by rw [abs_of_nonneg (hfb ω).1]; exact (hfb ω).2
    have := mul_meas_ge_le_integral_of_nonneg (ae_of_all P fun ω => (hfb ω).1) hi 1
    rw [one_mul] at this
    exact (measureReal_mono fun ω hω => (by simp [hS ω hω] : (1 : ℝ) ≤ f ω)).trans this
  refine ⟨fun i hi => ?_, ?_⟩
  · refine (markov _ (Z i) (Zm i hi) (hZ i hi).1 fun ω hω => (hZ i hi).2.1 ω hω).trans ?_
    have := (hZ i hi).2.2.2 (fun _ => 1) measurable_const (fun _ => zero_le_one) (fun _ => le_rfl)
    simpa using this
  · have main : ∀ j ≤ c.nChains, ∫ ω, ∏ i ∈ Finset.range j, Z i ω ∂P ≤ (1 - δ) ^ (c.nProdLoops * j) := by
      intro j
      induction j with
      | zero => intro _; simp
      | succ j ih =>
        intro hj
        simp only [Finset.prod_range_succ]
        have hprod : ∀ ω, 0 ≤ ∏ i ∈ Finset.range j, Z i ω ∧ ∏ i ∈ Finset.range j, Z i ω ≤ 1 := fun ω =>
          ⟨Finset.prod_nonneg fun i hi => ((hZ i (by have := Finset.mem_range.1 hi; omega)).1 ω).1,
            Finset.prod_le_one (fun i hi => ((hZ i (by have := Finset.mem_range.1 hi; omega)).1 ω).1) fun i hi => ((hZ i (by have := Finset.mem_range.1 hi; omega)).1 ω).2⟩
        refine ((hZ j (by omega)).2.2.2 (fun ω => ∏ i ∈ Finset.range j, Z i ω) ?_ (fun ω => (hprod ω).1) fun ω => (hprod ω).2).trans ?_
        · refine Finset.measurable_prod _ fun i hi => ?_
          have hi' := Finset.mem_range.1 hi
          exact (hZ i (by omega)).2.2.1.mono (info_inside_le past sig (chainKeys_disjoint k (by omega)) _) le_rfl
        · rw [Nat.mul_succ, pow_add, mul_comm ((1 - δ) ^ (c.nProdLoops * j))]
          exact mul_le_mul_of_nonneg_left (ih (by omega)) (pow_nonneg (by linarith) _)
    refine (markov _ (fun ω => ∏ i ∈ Finset.range c.nChains, Z i ω) (Finset.measurable_prod _ fun i hi => Zm i (Finset.mem_range.1 hi)) (fun ω => ?_) fun ω hω => ?_).trans (main _ le_rfl)
    · exact ⟨Finset.prod_nonneg fun i hi => ((hZ i (Finset.mem_range.1 hi)).1 ω).1,
        Finset.prod_le_one (fun i hi => ((hZ i (Finset.mem_range.1 hi)).1 ω).1) fun i hi => ((hZ i (Finset.mem_range.1 hi)).1 ω).2⟩
    · exact Finset.prod_eq_one fun i hi => (hZ i (Finset.mem_range.1 hi)).2.1 ω (hω i (Finset.mem_range.1 hi))

/-- **C109 (production phase).** A run of `RQSpline_MALA_Bundle` in an ideal random world.  Suppose that when training is over (`w ω`) the random key is `k`, the flow in the global sampler is `m ω` and chain `i`
is at `X i ω`, where flow and positions are *any* functions of what happened before (all chains may sit in one mode); the flow is one of a family of flows whose `log_prob` is the log-density of their samples up to a
constant, and whose density is everywhere at least `1/C` times the density of the target.  Let `A` be any measurable region.  Then the probability that no row of a given chain of `positions_production` lies in `A` is
at most `(1 - (1 - ρ) π(A))^n` for `n` production loops, where `π` is the normalised target and `ρ` the `loopFactor`; the probability that no row of any chain lies in `A` is at most the `n_chains`-th power of that. -/
theorem C109_production (k : Key) (h : IdealOn (Desc k) past sig P env) (c : BundleCfg ℝ D d M O) (data : Data D)
    (hE : AdaptiveBundle (Desc k) P sig env c data ν push lnf G) (C : ℝ) (hC : 1 ≤ C) (hcov : ∀ m ∈ G, ∀ x, density (fun x => c.logpdf.val x data) x ≤ C * density (lnf m) x)
    (m : Ω → M) (hm : Measurable[past] m) (hG : ∀ ω, m ω ∈ G) (X : ℕ → Ω → Pos ℝ d) (hX : ∀ i < c.nChains, Measurable[past] (X i))
    (A : Set (Pos ℝ d)) (hA : MeasurableSet A)
    (key : Ω → Key) (xs : Ω → List (Pos ℝ d)) (w w' : Ω → World ℝ D d M O) (hx : ∀ ω, (xs ω).length = c.nChains)
    (htrain : ∀ ω, Completes (env ω) (malaBundle c).strategies.lookup data (repeatPhase c.nTrainLoops trainingPhase ++ ["reset_steppers", "update_state"])
      ⟨key ω, xs ω, ⟨(malaBundle c).resources, fun _ => 0⟩⟩ (w ω))
    (hkey : ∀ ω, (w ω).key = k) (hflow : ∀ ω, (w ω).heap.res "global_sampler" = some (.kernel (.nf (m ω) c.nfBatch))) (hstart : ∀ ω, ∀ i < c.nChains, (w ω).xs[i]? = some (X i ω))
    (hprod : ∀ ω, Completes (env ω) (malaBundle c).strategies.lookup data (repeatPhase c.nProdLoops productionPhase) (w ω) (w' ω)) :
    ∃ b : Ω → Buffer ℝ, (∀ ω, (w' ω).heap.res "positions_production" = some (.buffer (b ω))) ∧
      (∀ i < c.nChains, P.real {ω | Misses A (b ω) i c.nProdSteps} ≤
        (1 - (1 - loopFactor c C) * (normalised (targetMeasure fun x => c.logpdf.val x data)).real A) ^ c.nProdLoops) ∧
      P.real {ω | ∀ i < c.nChains, Misses A (b ω) i c.nProdSteps} ≤
        (1 - (1 - loopFactor c C) * (normalised (targetMeasure fun x => c.logpdf.val x data)).real A) ^ (c.nProdLoops * c.nChains) := by
  obtain ⟨logs, v, zs, b1, b2, e0, en, R⟩ := production_run hE.good hE.flows.lawful w w' (fun ω => production_start (env ω) (hE.flows.lawful ω) c hE.good data (key ω) (xs ω) (hx ω) (w ω) (htrain ω)) hkey hflow hprod
  choose b hb hcell using fun ω => R.buffer ω
  exact ⟨b, fun ω => by rw [← en]; exact hb ω, R.visits h hE hm hG X hX (fun i hi ω => by rw [e0]; exact hstart ω i hi) hC hcov hA b hcell⟩

variable [MeasurableSpace O]

/-- C109 for a call of `sample`, the state after training being given. -/
theorem visits_sample (h : IdealDraws past sig P env) (c : BundleCfg ℝ D d M O) (hC0 : 0 < c.nChains) (hb : 0 < c.batchSize) (hfin : ∀ x : ℝ, BufNum.isFinite x = true) (data : Data D)
    (hB : AdaptiveBundle (fun _ => True) P sig env c data ν push lnf G) (C : ℝ) (hC : 1 ≤ C) (hcov : ∀ m ∈ G, ∀ x, density (fun x => c.logpdf.val x data) x ≤ C * density (lnf m) x)
    (key : Key) (init : Ω → InitPos ℝ d) (hx : ∀ ω, (init ω).atleast2d.length = c.nChains) (w : Ω → World ℝ D d M O)
    (hw : ∀ ω, Completes (env ω) (malaBundle c).strategies.lookup data (repeatPhase c.nTrainLoops trainingPhase ++ ["reset_steppers", "update_state"])
      ⟨key, (init ω).atleast2d, ⟨(malaBundle c).resources, fun _ => 0⟩⟩ (w ω))
    (m : Ω → M) (hm : Measurable[before past sig (trainedKey c.nTrainLoops c.nEpochs key)] m) (hG : ∀ ω, m ω ∈ G) (hflow : ∀ ω, (w ω).heap.res "global_sampler" = some (.kernel (.nf (m ω) c.nfBatch)))
    (X : ℕ → Ω → Pos ℝ d) (hX : ∀ i < c.nChains, Measurable[before past sig (trainedKey c.nTrainLoops c.nEpochs key)] (X i)) (hstart : ∀ ω, ∀ i < c.nChains, (w ω).xs[i]? = some (X i ω))
    (A : Set (Pos ℝ d)) (hA : MeasurableSet A) (n : ℕ) (nd nc : ℕ) (kw : List (String × V)) (s : Sampler ℝ D d M O V)
    (hs : Sampler.new nd nc key none none none (some (malaBundle (c.withProd n))) kw = .ok s) :
    ∃ (s' : Ω → Sampler ℝ D d M O V) (b : Ω → Buffer ℝ), (∀ ω, s.sample (env ω) (init ω) data = (.ok (), s' ω)) ∧ (∀ ω, (s' ω).heap.res "positions_production" = some (.buffer (b ω))) ∧
      (∀ i < c.nChains, P.real {ω | Misses A (b ω) i (c.withProd n).nProdSteps} ≤ (1 - (1 - loopFactor c C) * (normalised (targetMeasure fun x => c.logpdf.val x data)).real A) ^ n) ∧
      P.real {ω | ∀ i < c.nChains, Misses A (b ω) i (c.withProd n).nProdSteps} ≤
        (1 - (1 - loopFactor c C) * (normalised (targetMeasure fun x => c.logpdf.val x data)).real A) ^ (n * c.nChains) := by
  set k := trainedKey c.nTrainLoops c.nEpochs key with hk
  have hI := idealOn_before h k (fun _ _ => trivial)
  have hE : AdaptiveBundle (Desc k) P (after sig k) env c data ν push lnf G :=
    ⟨hB.good, hB.step, hB.meas, hB.gradMeas, hB.ignores, hB.finite, flowFamily_before k (fun _ _ => trivial) hB.flows⟩
  obtain ⟨s', v, w', g1, g2, g3, g4, g5, g6, g7⟩ := adaptive_split h c hC0 hb hfin data hB key init hx w hw n nd nc kw s hs
  obtain ⟨b, hb1, hb2⟩ := C109_production k hI (c.withProd n) data (hE.withProd n) C hC hcov m hm hG X hX A hA (fun _ => key) (fun ω => (init ω).atleast2d) v w' hx g3 g4 (fun ω => by rw [g5]; exact hflow ω)
    (fun ω i hi => by rw [g6]; exact hstart ω i hi) g7
  exact ⟨s', b, g1, fun ω => by rw [g2]; exact hb1 ω, hb2⟩

/-- **C109 (end to end).** A call of `sample` with the MALA bundle in an ideal random world, with training modelled as in C83, every flow of the family covering the target up to the factor `C`.  The call returns, and
for every measurable region `A`, every number `n` of production loops and every start, the probability that a given chain has no production row in `A` is at most `(1 - (1 - ρ) π(A))^n`, and that no chain has one at
most `(1 - (1 - ρ) π(A))^(n n_chains)` — whatever training does within the family. -/
theorem C109_adaptive (h : IdealDraws past sig P env) (c : BundleCfg ℝ D d M O) (hC0 : 0 < c.nChains) (hb : 0 < c.batchSize) (hfin : ∀ x : ℝ, BufNum.isFinite x = true) (data : Data D)
    (hB : AdaptiveBundle (fun _ => True) P sig env c data ν push lnf G) (C : ℝ) (hC : 1 ≤ C) (hcov : ∀ m ∈ G, ∀ x, density (fun x => c.logpdf.val x data) x ≤ C * density (lnf m) x)
    (hT : OrdinaryTraining sig env G) (hflow : c.flow ∈ G) (key : Key) (init : Ω → InitPos ℝ d)
    (hx : ∀ ω, (init ω).atleast2d.length = c.nChains) (hX : ∀ i < c.nChains, ∃ X : Ω → Pos ℝ d, Measurable[past] X ∧ ∀ ω, (init ω).atleast2d[i]? = some (X ω))
    (A : Set (Pos ℝ d)) (hA : MeasurableSet A) (n : ℕ) (nd nc : ℕ) (kw : List (String × V)) (s : Sampler ℝ D d M O V)
    (hs : Sampler.new nd nc key none none none (some (malaBundle (c.withProd n))) kw = .ok s) :
    ∃ (s' : Ω → Sampler ℝ D d M O V) (b : Ω → Buffer ℝ), (∀ ω, s.sample (env ω) (init ω) data = (.ok (), s' ω)) ∧ (∀ ω, (s' ω).heap.res "positions_production" = some (.buffer (b ω))) ∧
      (∀ i < c.nChains, P.real {ω | Misses A (b ω) i (c.withProd n).nProdSteps} ≤ (1 - (1 - loopFactor c C) * (normalised (targetMeasure fun x => c.logpdf.val x data)).real A) ^ n) ∧
      P.real {ω | ∀ i < c.nChains, Misses A (b ω) i (c.withProd n).nProdSteps} ≤
        (1 - (1 - loopFactor c C) * (normalised (targetMeasure fun x => c.logpdf.val x data)).real A) ^ (n * c.nChains) := by
  have hSt : ∀ ω, StaysIn (env ω) c data (fun _ => True) := fun ω => ⟨fun _ _ _ _ _ => trivial, fun _ _ _ _ _ _ _ _ => trivial, fun x _ i => hfin _⟩
  choose w w' h1 h2 using fun ω => bundle_total (env ω) (hB.flows.lawful ω) c hB.good data hC0 hb _ (hSt ω) key (init ω).atleast2d (hx ω) (fun _ _ => trivial)
  have hfin' : MeasurableSet {x : ℝ | BufNum.isFinite x = true} := by simp [hfin]
  obtain ⟨m, hm, hG, hmg, hX'⟩ := trained_before h c hB.good hfin' data hB.ignores hB.meas hB.gradMeas hB.flows hT hflow key (fun ω => (init ω).atleast2d) hx hX w h1
  choose! X hXm hXe using hX'
  exact visits_sample h c hC0 hb hfin data hB C hC hcov key init hx w h1 m hm hG hmg X hXm (fun ω i hi => hXe i hi ω) A hA n nd nc kw s hs

/-- **C109 (which regions).** Every region of positive volume - in particular every nonempty open one, a neighbourhood of any mode - has positive probability under the target, so that the bounds of C109 tend to 0. -/
theorem C109_positive (lp : Pos ℝ d → ℝ) (hm : Measurable lp) (hfin : targetMeasure lp Set.univ ≠ ∞) (A : Set (Pos ℝ d)) :
    (volume A ≠ 0 → 0 < (normalised (targetMeasure lp)).real A) ∧ (IsOpen A → A.Nonempty → volume A ≠ 0) := by
  haveI := normalised_isProb _ hm hfin
  refine ⟨fun hA => ?_, fun ho hne => (ho.measure_pos volume hne).ne'⟩
  have h1 : targetMeasure lp A ≠ 0 := fun h =>
    hA (withDensity_absolutelyContinuous' (μ := volume) (f := fun x => ENNReal.ofReal (Real.exp (lp x))) (by fun_prop) (ae_of_all _ fun x => by simp [Real.exp_pos]) h)
  have h2 : normalised (targetMeasure lp) A ≠ 0 := by
    rw [normalised, Measure.smul_apply, smul_eq_mul]
    exact mul_ne_zero (ENNReal.inv_ne_zero.2 hfin) h1
  exact ENNReal.toReal_pos h2 (measure_ne_top _ _)

end FlowMC
