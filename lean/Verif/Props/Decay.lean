import Verif.Props.Positive
import Verif.Props.Doeblin
import Verif.Lemmas.Gap
/-
C123: a flow that covers the target makes autocovariances decay geometrically.
-/
open MeasureTheory ProbabilityTheory
open scoped ENNReal
set_option linter.unusedSectionVars false
namespace FlowMC
open Spec
variable {Ω D M O : Type} {d : ℕ}

/-- A flow proposal that covers the target refreshes the position. -/
theorem flow_refreshes (t : Target ℝ D d) (data : Data D) (ht : Measurable (fun x => t.val x data)) (lnf : Pos ℝ d → ℝ) (hl : Measurable lnf)
    (q : Measure (Pos ℝ d)) [IsProbabilityMeasure q] (hq : SamplesFrom q lnf) (hfin : targetMeasure (fun x => t.val x data) Set.univ ≠ ∞) (C : ℝ) (hC : 0 < C)
    (hcov : ∀ x, density (fun x => t.val x data) x ≤ C * density lnf x) : Refreshes (1 / C) (normalised (targetMeasure fun x => t.val x data)) (q.prod unif) (flowStep t data lnf) := by
  intro x f hf
  haveI := normalised_isProb _ ht hfin
  have hd := flow_mhData t data ht lnf hl q hq
  have mx : Measurable fun n => flowStep t data lnf n x := hd.meas.comp measurable_prodMk_left
  have key : ENNReal.ofReal (1 / C) • normalised (targetMeasure fun x => t.val x data) ≤ (q.prod unif).map fun n => flowStep t data lnf n x := by
    refine Measure.le_iff.2 fun A hA => ?_
    have h1 := flow_minorise t data ht lnf hl q hq hfin C hC hcov x A hA
    rw [Measure.smul_apply, smul_eq_mul, Measure.map_apply mx hA, ← ENNReal.ofReal_toReal (measure_ne_top (normalised (targetMeasure fun x => t.val x data)) A), ← ENNReal.ofReal_mul (by positivity),
      ENNReal.ofReal_le_iff_le_toReal (measure_ne_top _ _)]
    exact h1
  calc _ = ∫⁻ y, f y ∂(ENNReal.ofReal (1 / C) • normalised (targetMeasure fun x => t.val x data)) := by rw [lintegral_smul_measure, smul_eq_mul]
    _ ≤ ∫⁻ y, f y ∂((q.prod unif).map fun n => flowStep t data lnf n x) := lintegral_mono' key le_rfl
    _ = _ := lintegral_map hf mx

variable {past : MeasurableSpace Ω} {sig : Key → MeasurableSpace Ω} [mΩ : MeasurableSpace Ω] {P : Measure Ω} [IsProbabilityMeasure P] {env : Ω → Env ℝ D d M O} [BufNum ℝ]

section
variable (k : Key) (h : IdealOn (Desc k) past sig P env) (r0 : String → Option (Resource ℝ D d M O)) (data : Data D) (μ : Measure (Pos ℝ d)) [IsProbabilityMeasure μ]
    (strats : String → Option (Strategy ℝ D d M O)) (names : List String) (hs : ∀ name ∈ names, ∀ s, strats name = some s → ExactStrategy (Desc k) P sig env r0 data μ s)
    (w w' w1 : Ω → World ℝ D d M O) (hkey : ∀ ω, (w ω).key = k) (hres : ∀ ω, KeepsSamplers r0 (w ω).heap) (i : ℕ) (X : Ω → Pos ℝ d) (hX : ∀ ω, (w ω).xs[i]? = some (X ω))
    (hXm : Measurable[past] X) (hXl : P.map X = μ) (hr : ∀ ω, Completes (env ω) strats data names (w ω) (w' ω))
    (s : TakeSteps) (hk : s.kind = .group) (m : M) (b0 : ℕ) (hb0 : 0 < b0) (hkr : r0 s.kernelName = some (.kernel (.nf m b0))) (lr : Resource ℝ D d M O) (hlr : r0 s.logpdfName = some lr)
    (t : Target ℝ D d) (ht : lr.target? = some t) (hig : IgnoresNSteps t) (hm : Measurable fun x => t.val x data) (hμ : SamplesFrom μ fun x => t.val x data)
    (q : Measure (Pos ℝ d)) [IsProbabilityMeasure q] (lnf : Pos ℝ d → ℝ) (hl : Measurable lnf) (hf : IdealFlowOn (Desc k) P sig env m q lnf)
    (B : ℝ) (hB : 1 ≤ B) (hcov : ∀ x, density (fun x => t.val x data) x ≤ B * density lnf x) (hn : 0 < s.nSteps)
    (hcall : ∀ ω, s.run (env ω) (w' ω).key (w' ω).xs data (w' ω).heap = (.ok ((w1 ω).key, (w1 ω).xs), (w1 ω).heap)) (n cap cur : ℕ) (hw : ∀ ω, (w' ω).xs.length = n)
    (Pn L A : String) (bP bL bA : Ω → Buffer ℝ) (hpt : ∀ ω, PointsAt (w' ω).heap s Pn L A) (hrec : ∀ ω, Recorders (w' ω).heap n cap Pn L A (bP ω) (bL ω) (bA ω))
    (hcur : ∀ ω, (w' ω).heap.pos s.ident = cur) (hfit : cur + ceilDiv' s.nSteps s.thinning ≤ cap)
    (g : Pos ℝ d → ℝ) (hg : Measurable g) (hg2 : Integrable (fun x => g x ^ 2) μ)
include h hs hkey hres hX hXm hXl hr hk hb0 hkr hlr ht hig hm hμ hl hf hB hcov hn hcall hw hpt hrec hcur hfit hg hg2

/-- **C123.** In equilibrium, a stepper making flow proposals is called with any number of steps and any thinning.  The flow covers the target: the target's normalised density is nowhere more than `B` times the flow's.  Then for every
function `g` with finite second moment under the target, the autocovariances of the recorded values of `g` about the true mean exist, are not negative, and decay with the lag `l` at least like `(1 - 1/B) ^ (l * thinning)` times
the variance of `g` under the target. -/
theorem C123_decay : ∃ b : Ω → Buffer ℝ, (∀ ω, (w1 ω).heap.res Pn = some (.buffer (b ω))) ∧ ∀ F : ℕ → Ω → ℝ, (∀ r ω, F r ω = g fun a => (b ω).data.get [i, cur + r, a]) →
    ∀ r l, r + l < ceilDiv' s.nSteps s.thinning → Integrable (fun ω => (F r ω - ∫ x, g x ∂μ) * (F (r + l) ω - ∫ x, g x ∂μ)) P ∧ 0 ≤ autocovariance P F (∫ x, g x ∂μ) r l ∧
      autocovariance P F (∫ x, g x ∂μ) r l ≤ (1 - 1 / B) ^ (l * s.thinning) * ∫ x, (g x - ∫ y, g y ∂μ) ^ 2 ∂μ := by
  obtain ⟨k', S', hc⟩ := exact_chain k h r0 data μ strats names hs w w' hkey hres i X hX hXm hXl hr
  obtain ⟨hfin, hμe⟩ := samplesFrom_normalised μ _ hm hμ
  haveI : SFinite (targetMeasure fun x => t.val x data) := by unfold targetMeasure; infer_instance
  have hd := flow_mhData t data hm lnf hl q hf.density
  have hrev := hd.reversible
  have hpos : PositiveStep μ (q.prod unif) (flowStep t data lnf) := by
    rw [hμe]
    exact (flow_positive t data hm lnf hl q hf.density).smul _
  have href : Refreshes (1 / B) μ (q.prod unif) (flowStep t data lnf) := by
    rw [hμe]
    exact flow_refreshes t data hm lnf hl q hf.density hfin B (by linarith) hcov
  rw [← hμe] at hrev
  have hinv := hrev.invariant hd.meas
  have hrows := group_stepperPaths h r0 data s hk m b0 hb0 hkr lr hlr t ht hig hm q lnf hl hf
  obtain ⟨ht', Z, hZ, hcell⟩ := stepper_path_rows h hc s hd.meas hrows w1 hcall n cap cur hn hw Pn L A bP bL bA hpt hrec hcur hfit
  choose b hb hcell using hcell
  refine ⟨b, hb, fun F hF r l hrl => ?_⟩
  set c := ∫ x, g x ∂μ with hcdef
  have e : (fun ω => (F r ω - c) * (F (r + l) ω - c)) = fun ω => (g (Z (r * s.thinning + 1) ω) - c) * (g (Z (r * s.thinning + 1 + l * s.thinning) ω) - c) := by
    funext ω
    rw [hF, hF, funext (hcell ω r (by omega)), funext (hcell ω (r + l) hrl), show (r + l) * s.thinning + 1 = r * s.thinning + 1 + l * s.thinning by ring]
  have hle : r * s.thinning + 1 + l * s.thinning ≤ s.nSteps := by
    have := lt_of_lt_ceil ht' hn hrl
    rw [Nat.add_mul] at this
    omega
  have hgc : Measurable fun x => g x - c := hg.sub_const c
  have hg2' := centred_square hg hg2 c
  have hg1 : Integrable g μ := ((memLp_two_iff_integrable_sq hg.aestronglyMeasurable).2 hg2).integrable (by norm_num)
  have h0 : ∫ x, (g x - c) ∂μ = 0 := by
    rw [integral_sub hg1 (integrable_const c), integral_const, probReal_univ, one_smul, hcdef, sub_self]
  obtain ⟨ia, ea⟩ := hZ.autocov hd.meas hinv hrev hgc hg2' _ _ hle
  have ea' : autocovariance P F c r l = lagReal μ (q.prod unif) (flowStep t data lnf) (fun x => g x - c) (l * s.thinning) := (congrArg (fun f : Ω → ℝ => ∫ ω, f ω ∂P) e).trans ea
  refine ⟨by rw [e]; exact ia, ?_, ?_⟩
  · rw [ea']
    exact lagReal_nonneg hd.meas hinv hrev hpos hgc hg2' _
  · have hB0 : (0 : ℝ) < B := by linarith
    have := lagReal_geometric hd.meas hinv hrev hpos (ε := 1 / B) (by positivity) ((div_le_one hB0).2 hB) href hgc hg2' h0 (l * s.thinning)
    rw [lagReal_zero hd.meas hinv hrev hgc hg2'] at this
    rw [ea']
    simpa only [sq] using this

/-- **C123 (averages).** Hence the mean square error of the average of `g` over the `C` recorded rows as an estimate of the true mean is at most `(2 B - 1) / C` times the variance of `g` under the target: the rows count for at least
`C / (2 B - 1)` independent draws, for every `g` and without knowledge of it. -/
theorem C123_effective_size : ∃ b : Ω → Buffer ℝ, (∀ ω, (w1 ω).heap.res Pn = some (.buffer (b ω))) ∧
    Integrable (fun ω => ((∑ r ∈ Finset.range (ceilDiv' s.nSteps s.thinning), g (fun a => (b ω).data.get [i, cur + r, a])) / ceilDiv' s.nSteps s.thinning - ∫ x, g x ∂μ) ^ 2) P ∧
    ∫ ω, ((∑ r ∈ Finset.range (ceilDiv' s.nSteps s.thinning), g (fun a => (b ω).data.get [i, cur + r, a])) / ceilDiv' s.nSteps s.thinning - ∫ x, g x ∂μ) ^ 2 ∂P ≤
      (2 * B - 1) / ceilDiv' s.nSteps s.thinning * ∫ x, (g x - ∫ y, g y ∂μ) ^ 2 ∂μ := by
  obtain ⟨b, hb, key⟩ := C123_decay k h r0 data μ strats names hs w w' w1 hkey hres i X hX hXm hXl hr s hk m b0 hb0 hkr lr hlr t ht hig hm hμ q lnf hl hf B hB hcov hn hcall n cap cur hw Pn L A bP bL bA hpt hrec hcur hfit g hg hg2
  have key := key (fun r ω => g fun a => (b ω).data.get [i, cur + r, a]) fun _ _ => rfl
  refine ⟨b, hb, ?_⟩
  set c := ∫ x, g x ∂μ with hcdef
  set V := ∫ x, (g x - c) ^ 2 ∂μ with hV
  have hV0 : 0 ≤ V := integral_nonneg fun _ => sq_nonneg _
  have hB0 : (0 : ℝ) < B := by linarith
  have hρ0 : 0 ≤ 1 - 1 / B := by
    have := (div_le_one hB0).2 hB
    linarith
  have hρ1 : 1 - 1 / B < 1 := by
    have : 0 < 1 / B := by positivity
    linarith
  have ht' : 0 < s.thinning := by
    obtain ⟨k', S', hc⟩ := exact_chain k h r0 data μ strats names hs w w' hkey hres i X hX hXm hXl hr
    exact (stepper_path_rows h hc s (flow_mhData t data hm lnf hl q hf.density).meas (group_stepperPaths h r0 data s hk m b0 hb0 hkr lr hlr t ht hig hm q lnf hl hf) w1 hcall n cap cur hn hw Pn L A bP bL bA hpt hrec hcur hfit).1
  have hpw : ∀ l, (1 - 1 / B) ^ (l * s.thinning) ≤ (1 - 1 / B) ^ l := fun l => pow_le_pow_of_le_one hρ0 hρ1.le (Nat.le_mul_of_pos_right _ ht')
  set C := ceilDiv' s.nSteps s.thinning with hCdef
  set F : ℕ → Ω → ℝ := fun r ω => g fun a => (b ω).data.get [i, cur + r, a] with hFdef
  have hC : 0 < C := by
    rw [hCdef, ceilDiv']
    exact Nat.div_pos (by omega) ht'
  have hC' : (0 : ℝ) < C := by exact_mod_cast hC
  have int2 : ∀ r r', r < C → r' < C → Integrable (fun ω => (F r ω - c) * (F r' ω - c)) P ∧ ∫ ω, (F r ω - c) * (F r' ω - c) ∂P ≤ (1 - 1 / B) ^ (max r r' - min r r') * V := by
    intro r r' hr hr'
    rcases le_total r r' with hle | hle
    · obtain ⟨l, rfl⟩ := Nat.exists_eq_add_of_le hle
      obtain ⟨k1, -, k3⟩ := key r l hr'
      rw [max_eq_right hle, min_eq_left hle, Nat.add_sub_cancel_left]
      exact ⟨k1, k3.trans (mul_le_mul_of_nonneg_right (hpw l) hV0)⟩
    · obtain ⟨l, rfl⟩ := Nat.exists_eq_add_of_le hle
      obtain ⟨k1, -, k3⟩ := key r' l hr
      rw [max_eq_left hle, min_eq_right hle, Nat.add_sub_cancel_left]
      simp only [mul_comm (F (r' + l) _ - c)]
      exact ⟨k1, k3.trans (mul_le_mul_of_nonneg_right (hpw l) hV0)⟩
  have expand : ∀ ω, ((∑ r ∈ Finset.range C, F r ω) / C - c) ^ 2 = (∑ r ∈ Finset.range C, ∑ r' ∈ Finset.range C, (F r ω - c) * (F r' ω - c)) / (C : ℝ) ^ 2 := by
    intro ω
    rw [← Finset.sum_mul_sum, Finset.sum_sub_distrib, Finset.sum_const, Finset.card_range, nsmul_eq_mul]
    field_simp
  show Integrable (fun ω => ((∑ r ∈ Finset.range C, F r ω) / C - c) ^ 2) P ∧ ∫ ω, ((∑ r ∈ Finset.range C, F r ω) / C - c) ^ 2 ∂P ≤ _
  simp only [expand]
  refine ⟨(integrable_finset_sum _ fun r hr => integrable_finset_sum _ fun r' hr' => (int2 r r' (Finset.mem_range.1 hr) (Finset.mem_range.1 hr')).1).div_const _, ?_⟩
  rw [integral_div, integral_finset_sum _ fun r hr => integrable_finset_sum _ fun r' hr' => (int2 r r' (Finset.mem_range.1 hr) (Finset.mem_range.1 hr')).1]
  have upper : ∑ r ∈ Finset.range C, ∫ ω, ∑ r' ∈ Finset.range C, (F r ω - c) * (F r' ω - c) ∂P ≤ ∑ r ∈ Finset.range C, (2 * B - 1) * V := by
    refine Finset.sum_le_sum fun r hr => ?_
    rw [integral_finset_sum _ fun r' hr' => (int2 r r' (Finset.mem_range.1 hr) (Finset.mem_range.1 hr')).1]
    refine (Finset.sum_le_sum fun r' hr' => (int2 r r' (Finset.mem_range.1 hr) (Finset.mem_range.1 hr')).2).trans ?_
    rw [← Finset.sum_mul]
    refine mul_le_mul_of_nonneg_right ((sum_distances hρ0 hρ1 C r (Finset.mem_range.1 hr)).trans_eq ?_) hV0
    field_simp
    ring
  rw [Finset.sum_const, Finset.card_range, nsmul_eq_mul] at upper
  rw [div_le_iff₀ (by positivity)]
  calc _ ≤ C * ((2 * B - 1) * V) := upper
    _ = _ := by field_simp

/-- **C123 (how many rows).** If the number `C` of recorded rows is at least `(2 B - 1)` times the variance of `g` divided by `ε δ²`, the average of `g` over them misses the true mean by more than `δ` with probability at most `ε`,
whatever the target, the function, the history before the call and the thinning. -/
theorem C123_how_many (δ ε : ℝ) (hδ : 0 < δ) (hε : 0 < ε) (hmany : (2 * B - 1) * (∫ x, (g x - ∫ y, g y ∂μ) ^ 2 ∂μ) ≤ ε * δ ^ 2 * ceilDiv' s.nSteps s.thinning) :
    ∃ b : Ω → Buffer ℝ, (∀ ω, (w1 ω).heap.res Pn = some (.buffer (b ω))) ∧
    P.real {ω | δ < |(∑ r ∈ Finset.range (ceilDiv' s.nSteps s.thinning), g (fun a => (b ω).data.get [i, cur + r, a])) / ceilDiv' s.nSteps s.thinning - ∫ x, g x ∂μ|} ≤ ε := by
  obtain ⟨b, hb, ei, e⟩ := C123_effective_size k h r0 data μ strats names hs w w' w1 hkey hres i X hX hXm hXl hr s hk m b0 hb0 hkr lr hlr t ht hig hm hμ q lnf hl hf B hB hcov hn hcall n cap cur hw Pn L A bP bL bA hpt hrec hcur hfit g hg hg2
  refine ⟨b, hb, ?_⟩
  have e2 : (2 * B - 1) / ceilDiv' s.nSteps s.thinning * (∫ x, (g x - ∫ y, g y ∂μ) ^ 2 ∂μ) ≤ ε * δ ^ 2 := by
    rcases Nat.eq_zero_or_pos (ceilDiv' s.nSteps s.thinning) with h0 | h0
    · rw [h0]; simp; positivity
    · rw [div_mul_eq_mul_div, div_le_iff₀ (by exact_mod_cast h0)]; exact hmany
  have e3 := (mul_meas_ge_le_integral_of_nonneg (Filter.Eventually.of_forall fun ω => sq_nonneg _) ei (δ ^ 2)).trans (e.trans e2)
  have hd : 0 < δ ^ 2 := by positivity
  refine le_trans (measureReal_mono (fun ω hω => ?_) (measure_ne_top P _)) (le_of_mul_le_mul_left (by rw [mul_comm ε] at e3; exact e3) hd)
  show δ ^ 2 ≤ _ ^ 2
  rw [sq_le_sq, abs_of_pos hδ]
  exact le_of_lt hω

omit hB hcov in
/-- **C123 (a perfect flow).** If the flow is never below the normalised target density, which leaves only the target itself, the error of the average over the `C` recorded rows is exactly that of `C` independent draws from the target,
and values of `g` in different rows are uncorrelated, for every `g` with finite second moment. -/
theorem C123_perfect (hgr : Measurable fun x => t.grad x data) (hperf : ∀ x, density (fun x => t.val x data) x ≤ density lnf x) :
    ∃ b : Ω → Buffer ℝ, (∀ ω, (w1 ω).heap.res Pn = some (.buffer (b ω))) ∧
    (∀ r l, r + (l + 1) < ceilDiv' s.nSteps s.thinning → autocovariance P (fun r ω => g fun a => (b ω).data.get [i, cur + r, a]) (∫ x, g x ∂μ) r (l + 1) = 0) ∧
    ∫ ω, ((∑ r ∈ Finset.range (ceilDiv' s.nSteps s.thinning), g (fun a => (b ω).data.get [i, cur + r, a])) / ceilDiv' s.nSteps s.thinning - ∫ x, g x ∂μ) ^ 2 ∂P =
      (∫ x, (g x - ∫ y, g y ∂μ) ^ 2 ∂μ) / ceilDiv' s.nSteps s.thinning := by
  have hstep : ExactStepper (Desc k) P sig env r0 data μ s := ⟨lr, t, hlr, ht, hm, hgr, hμ, .inr ⟨hk, hig, m, b0, q, lnf, hb0, hkr, inferInstance, hl, hf⟩⟩
  have hcov1 : ∀ x, density (fun x => t.val x data) x ≤ 1 * density lnf x := fun x => by rw [one_mul]; exact hperf x
  obtain ⟨b, hb, key⟩ := C123_decay k h r0 data μ strats names hs w w' w1 hkey hres i X hX hXm hXl hr s hk m b0 hb0 hkr lr hlr t ht hig hm hμ q lnf hl hf 1 le_rfl hcov1 hn hcall n cap cur hw Pn L A bP bL bA hpt hrec hcur hfit g hg hg2
  obtain ⟨b', hb', -, e⟩ := C123_effective_size k h r0 data μ strats names hs w w' w1 hkey hres i X hX hXm hXl hr s hk m b0 hb0 hkr lr hlr t ht hig hm hμ q lnf hl hf 1 le_rfl hcov1 hn hcall n cap cur hw Pn L A bP bL bA hpt hrec hcur hfit g hg hg2
  obtain ⟨b2, hb2, e2⟩ := C122_effective_size k h r0 data μ strats names hs w w' w1 hkey hres i X hX hXm hXl hr s hstep (.inl hk) hn hcall n cap cur hw Pn L A bP bL bA hpt hrec hcur hfit g hg hg2 (∫ y, g y ∂μ)
  obtain rfl : b' = b := by funext ω; have := (hb' ω).symm.trans (hb ω); simpa using this
  obtain rfl : b2 = b' := by funext ω; have := (hb2 ω).symm.trans (hb ω); simpa using this
  refine ⟨b2, hb, ?_, le_antisymm (e.trans_eq (by ring)) e2⟩
  have key := key (fun r ω => g fun a => (b2 ω).data.get [i, cur + r, a]) fun _ _ => rfl
  intro r l hrl
  obtain ⟨-, h0, h1⟩ := key r (l + 1) hrl
  have hth : s.thinning ≠ 0 := by
    intro h0
    rw [h0] at hrl
    simp [ceilDiv'] at hrl
  refine le_antisymm (h1.trans_eq ?_) h0
  rw [div_one, sub_self, zero_pow (Nat.mul_ne_zero (Nat.succ_ne_zero l) hth), zero_mul]
end

end FlowMC
