import Verif.Props.FlowDensity
import Mathlib.Analysis.SpecialFunctions.Trigonometric.DerivHyp
/-
C43, C44, C45, C46 for spline flows in terms of their weights: when the floating-point guard of the quadratic formula cannot take effect.
-/
set_option linter.unusedSectionVars false
open MeasureTheory ProbabilityTheory
open scoped ENNReal
namespace FlowMC
open Spec
noncomputable section
open Classical

variable {Ω D M O : Type} {d K : ℕ} {past : MeasurableSpace Ω} {sig : Key → MeasurableSpace Ω} [mΩ : MeasurableSpace Ω] {P : Measure Ω}
  [IsProbabilityMeasure P] {env : Ω → Env ℝ D d M O}

/-- The network has at least one hidden layer, and in its last layer the absolute values of every row of weights and its bias sum to at most `B`. -/
def MLP.LastLayerBounded (B : ℝ) : {n m : ℕ} → MLP n m → Prop
  | _, _, .last _ _ => False
  | _, _, .hidden _ _ (.last W b) => ∀ i, (∑ j, |W i j|) + |b i| ≤ B
  | _, _, .hidden _ _ (.hidden W b rest) => MLP.LastLayerBounded B (.hidden W b rest)

theorem linear_le {n m : ℕ} (W : Fin m → Fin n → ℝ) (b : Fin m → ℝ) {B : ℝ} (hB : ∀ i, (∑ j, |W i j|) + |b i| ≤ B) (x : Fin n → ℝ) (hx : ∀ j, |x j| ≤ 1) (i : Fin m) :
    |linear W b x i| ≤ B := by
  unfold linear
  rw [sumFin_eq]
  refine (abs_add_le _ _).trans (le_trans (add_le_add ?_ le_rfl) (hB i))
  refine (Finset.abs_sum_le_sum_abs _ _).trans (Finset.sum_le_sum fun j _ => ?_)
  rw [abs_mul]
  exact mul_le_of_le_one_right (abs_nonneg _) (hx j)

/-- Outputs of a `tanh` network with a bounded last layer are bounded whatever the input. -/
theorem MLP.call_bounded {B : ℝ} : ∀ {n m : ℕ} (f : MLP n m), f.LastLayerBounded B → ∀ x i, |f.call Real.tanh x i| ≤ B
  | _, _, .last _ _, h, _, _ => h.elim
  | _, _, .hidden W' b' (.last W b), h, x, i => linear_le W b h _ (fun j => by rw [abs_le]; exact ⟨(Real.neg_one_lt_tanh _).le, (Real.tanh_lt_one _).le⟩) i
  | _, _, .hidden W' b' (.hidden W b rest), h, x, i => MLP.call_bounded (.hidden W b rest) h _ i

theorem softplus_le (x : ℝ) : softplus x ≤ |x| + 1 := by
  unfold softplus
  rw [Real.log_le_iff_le_exp (by positivity), Real.exp_add]
  have h1 : Real.exp x ≤ Real.exp |x| := Real.exp_le_exp.2 (le_abs_self x)
  have h2 : 1 ≤ Real.exp |x| := Real.one_le_exp (abs_nonneg x)
  have h3 : 2 ≤ Real.exp 1 := by have := Real.add_one_le_exp (1 : ℝ); linarith
  nlinarith [Real.exp_pos |x|]

/-- Raw slopes of size at most `B` give knot slopes of at most `B + 3` (`min_knot_slope` in its range). -/
theorem slopes_le {K : ℕ} (u : Fin K → ℝ) {m B : ℝ} (h0 : 0 ≤ m) (h1 : m ≤ 1 / 10) (hu : ∀ i, |u i| ≤ B) (i : Fin K) : normalizeKnotSlopes u m i ≤ B + 3 := by
  simp only [normalizeKnotSlopes]
  have e1 : Real.exp (1 - m) - 1 ≤ Real.exp 1 := by have := Real.exp_le_exp.2 (show 1 - m ≤ 1 by linarith); linarith
  have e2 : 9 / 10 ≤ Real.exp (1 - m) - 1 := by have := Real.add_one_le_exp (1 - m); linarith
  have hlog : |Real.log (Real.exp (1 - m) - 1)| ≤ 1 := by
    rw [abs_le]
    constructor
    · rw [Real.le_log_iff_exp_le (by linarith)]
      have : Real.exp (-1 : ℝ) ≤ 1 / 2 := by
        rw [Real.exp_neg]
        have h3 : 2 ≤ Real.exp 1 := by have := Real.add_one_le_exp (1 : ℝ); linarith
        rw [inv_le_comm₀ (Real.exp_pos _) (by norm_num)]; norm_num; exact h3
      linarith
    · rw [Real.log_le_iff_le_exp (by linarith)]; exact e1
  have := softplus_le (u i + Real.log (Real.exp (1 - m) - 1))
  have h2 := abs_add_le (u i) (Real.log (Real.exp (1 - m) - 1))
  have := hu i
  linarith

/-- The guard in terms of the weights, default settings of the constructor and of the bundles. -/
theorem guardOff_of_weights (m : SplineFlow d K) (hw : m.Wellformed) (hb : m.cfg.minBinSize = 1 / 10000) (hm : m.cfg.minKnotSlope = 1 / 10000)
    (hr : m.cfg.rangeMax - m.cfg.rangeMin ≤ 20) (hl : ∀ l ∈ m.layers, l.mlp.LastLayerBounded (10 ^ 8)) : m.GuardOff (2⁻¹ ^ 126) := by
  intro l hl' cond f
  refine C41_guard_inactive_default m.cfg _ hw.bins hb hm hw.range hr fun i => ?_
  have := slopes_le (fun i : Fin (K + 1) => paramRow (l.mlp.call Real.tanh cond) f ⟨2 * K + i.1, by omega⟩) (m := m.cfg.minKnotSlope) (B := 10 ^ 8) (by rw [hm]; norm_num)
    (by rw [hm]; norm_num) (fun j => MLP.call_bounded l.mlp (hl l hl') cond _) i
  exact this.trans (by norm_num)

theorem init_lastLayerBounded (dr : MLPDraws) (scale : ℝ) (hdr : ∀ k n m, (∀ i j, |(dr.lin k n m).1 i j| ≤ 1) ∧ ∀ i, |(dr.lin k n m).2 i| ≤ 1) :
    ∀ (hid : List ℕ) (n m : ℕ) (k : Key), hid ≠ [] → ∀ B : ℝ, (hid.getLast? = none ∨ ∃ w, hid.getLast? = some w ∧ (w : ℝ) + 1 ≤ B) →
      (MLP.init dr scale n hid m k).LastLayerBounded B := by
  intro hid
  induction hid with
  | nil => intro n m k h; exact absurd rfl h
  | cons h hid ih =>
    intro n m k _ B hB
    cases hid with
    | nil =>
      simp only [MLP.init, MLP.LastLayerBounded]
      intro i
      rcases hB with hB | ⟨w, hw, hB⟩
      · simp at hB
      · simp only [List.getLast?_singleton, Option.some.injEq] at hw
        subst hw
        refine le_trans (add_le_add ((Finset.sum_le_card_nsmul _ _ 1 fun j _ => (hdr _ _ _).1 i j)) ((hdr _ _ _).2 i)) ?_
        simpa using hB
    | cons h2 hid =>
      have := ih h m (.child k 0) (by simp) B (by simpa using hB)
      simp only [MLP.init, MLP.LastLayerBounded] at this ⊢
      exact this

/-- **C43 (as constructed, all hypotheses on the inputs).** Default settings, float32 guard: whatever the random draws of the constructor (`eqx.nn.Linear` draws weights and biases
of size at most 1) and for every choice of sizes with at least one hidden layer (the last of at most ten million units), `inverse` inverts `forward` in both orders with opposite
log-determinants. -/
theorem C43_new_flow_inverse (dr : MLPDraws) (hdr : ∀ k n m, (∀ i j, |(dr.lin k n m).1 i j| ≤ 1) ∧ ∀ i, |(dr.lin k n m).2 i| ≤ 1) (nLayers : ℕ) (hidden : List ℕ) (width : ℕ)
    (hh : hidden.getLast? = some width) (hwd : width ≤ 10 ^ 7) (k : Key) (lo hi : ℝ) (base : Option (BaseDist d)) (mean var : Option (Pos ℝ d)) (hK : 0 < K)
    (hr : K * (1 / 10000 : ℝ) ≤ hi - lo) (hr' : hi - lo ≤ 20) :
    InversePair ((SplineFlow.init dr d K nLayers hidden k lo hi base mean var).forward (2⁻¹ ^ 126))
      ((SplineFlow.init dr d K nLayers hidden k lo hi base mean var).inverse (2⁻¹ ^ 126)) := by
  obtain ⟨h1, h2⟩ := C43_constructed dr nLayers hidden k lo hi base mean var hK hr
  refine C43_inverse_pair_partial _ _ h1 (guardOff_of_weights _ h1 rfl rfl hr' fun l hl => ?_) h2
  simp only [SplineFlow.init, List.mem_map, List.mem_range] at hl
  obtain ⟨i, _, rfl⟩ := hl
  refine init_lastLayerBounded dr _ hdr hidden d _ _ (by rintro rfl; simp at hh) _ (Or.inr ⟨width, hh, ?_⟩)
  have : (width : ℝ) ≤ 10 ^ 7 := by exact_mod_cast hwd
  linarith

/-- **C44 (as constructed).** The same flows, with the default base distribution: samples are independent with density proportional to `exp(log_prob)`. -/
theorem C44_spline_as_constructed (h : IdealDraws past sig P env) (dr : MLPDraws)
    (hdr : ∀ k n m, (∀ i j, |(dr.lin k n m).1 i j| ≤ 1) ∧ ∀ i, |(dr.lin k n m).2 i| ≤ 1) (nLayers : ℕ) (hidden : List ℕ) (width : ℕ) (hh : hidden.getLast? = some width)
    (hwd : width ≤ 10 ^ 7) (k : Key) (lo hi : ℝ) (mean var : Option (Pos ℝ d)) (hv : ∀ v, var = some v → ∀ i, 0 < v i) (hK : 0 < K) (hr : K * (1 / 10000 : ℝ) ≤ hi - lo)
    (hr' : hi - lo ≤ 20) :
    ∃ q : Measure (Fin d → ℝ), IsProbabilityMeasure q ∧ SamplesFrom q ((SplineFlow.init dr d K nLayers hidden k lo hi none mean var).logProb (2⁻¹ ^ 126)) ∧
      IidRows P sig (fun k' n ω => (SplineFlow.init dr d K nLayers hidden k lo hi none mean var).sample (2⁻¹ ^ 126) (env ω).rng k' n) q := by
  obtain ⟨h1, h2⟩ := C43_constructed dr nLayers hidden k lo hi none mean var hK hr
  refine C44_spline_partial h _ _ h1 (guardOff_of_weights _ h1 rfl rfl hr' fun l hl => ?_) h2 (fun i => ?_) ?_
  · simp only [SplineFlow.init, List.mem_map, List.mem_range] at hl
    obtain ⟨i, _, rfl⟩ := hl
    refine init_lastLayerBounded dr _ hdr hidden d _ _ (by rintro rfl; simp at hh) _ (Or.inr ⟨width, hh, ?_⟩)
    have : (width : ℝ) ≤ 10 ^ 7 := by exact_mod_cast hwd
    linarith
  · cases var with
    | none => exact one_pos
    | some v => exact hv v rfl i
  · exact C46_stdGaussian h

/-- Non-vacuity: three features, eight bins, two layers of width 16, all initial weights 1/2. -/
example : InversePair ((SplineFlow.init ⟨fun _ _ _ => (fun _ _ => 1 / 2, fun _ => 1 / 2), fun _ _ _ _ _ => 1⟩ 3 8 2 [16, 16] (.root 0) (-10) 10 none none none).forward (2⁻¹ ^ 126))
    ((SplineFlow.init ⟨fun _ _ _ => (fun _ _ => 1 / 2, fun _ => 1 / 2), fun _ _ _ _ _ => 1⟩ 3 8 2 [16, 16] (.root 0) (-10) 10 none none none).inverse (2⁻¹ ^ 126)) :=
  C43_new_flow_inverse _ (fun _ _ _ => ⟨fun _ _ => by norm_num [abs_le], fun _ => by norm_num [abs_le]⟩) 2 [16, 16] 16 rfl (by norm_num) _ _ _ _ _ _ (by norm_num)
    (by norm_num) (by norm_num)

end
end FlowMC
