import Verif.Lemmas.Spline
import Mathlib.Tactic.NormNum
import Mathlib.Algebra.BigOperators.Field
import Mathlib.Topology.Order.IntermediateValue
/-
C39 (knots), C40 (increasing bijection), C41 (exact inverse), C42 (log-determinant is the log-derivative), C47 (parameter layout).
-/
set_option linter.unusedSectionVars false
namespace FlowMC
open Spec
open scoped BigOperators
noncomputable section
open Classical

variable {K : ℕ} {xPos yPos slopes : Fin (K + 1) → ℝ}

/-! ### C42, C40 -/

/-- C42: the returned log-determinant is the logarithm of the derivative of the returned value, at every real input (knots included). -/
theorem C42_logdet_is_log_derivative (h : ValidKnots xPos yPos slopes) (x : ℝ) :
    HasDerivAt (fun t => (splineFwd t xPos yPos slopes).1) (Real.exp (splineFwd x xPos yPos slopes).2) x := by
  obtain ⟨a, g₁, ha, e₁, d₁⟩ := spline_left_piece h x
  obtain ⟨b, g₂, hb, e₂, d₂⟩ := spline_right_piece h x
  exact hasDerivAt_glue ha hb e₁ e₂ d₁ d₂

/-- C42, as an equation: `logdet = log (d/dx y)`. -/
theorem C42_logdet_eq (h : ValidKnots xPos yPos slopes) (x : ℝ) :
    (splineFwd x xPos yPos slopes).2 = Real.log (deriv (fun t => (splineFwd t xPos yPos slopes).1) x) := by
  rw [(C42_logdet_is_log_derivative h x).deriv, Real.log_exp]

/-- C40: strictly increasing. -/
theorem C40_strictMono (h : ValidKnots xPos yPos slopes) : StrictMono (fun x => (splineFwd x xPos yPos slopes).1) :=
  strictMono_of_deriv_pos fun x => by rw [(C42_logdet_is_log_derivative h x).deriv]; exact Real.exp_pos _

/-- C40: continuous. -/
theorem C40_continuous (h : ValidKnots xPos yPos slopes) : Continuous (fun x => (splineFwd x xPos yPos slopes).1) :=
  continuous_iff_continuousAt.2 fun x => (C42_logdet_is_log_derivative h x).continuousAt

/-- C40: below the range the map is linear with the first slope. -/
theorem C40_linear_below (h : ValidKnots xPos yPos slopes) {x : ℝ} (hx : x ≤ xPos 0) :
    (splineFwd x xPos yPos slopes).1 = yPos 0 + slopes 0 * (x - xPos 0) := by
  rw [splineFwd_left h hx]; ring

/-- C40: above the range the map is linear with the last slope. -/
theorem C40_linear_above (_h : ValidKnots xPos yPos slopes) {x : ℝ} (hx : xPos (Fin.last K) ≤ x) :
    (splineFwd x xPos yPos slopes).1 = yPos (Fin.last K) + slopes (Fin.last K) * (x - xPos (Fin.last K)) := by
  rw [splineFwd_right hx]; ring

/-- C40: knots are mapped to knots. -/
theorem C40_knots (h : ValidKnots xPos yPos slopes) (j : Fin (K + 1)) : (splineFwd (xPos j) xPos yPos slopes).1 = yPos j := by
  by_cases hj : j = Fin.last K
  · subst hj; rw [C40_linear_above h le_rfl]; ring
  · obtain ⟨i, rfl⟩ := Fin.exists_castSucc_eq.2 hj
    rw [splineFwd_bin h i le_rfl (h.x Fin.castSucc_lt_succ).le]
    have e : (binAt xPos yPos slopes i).rel (xPos i.castSucc) = 0 := (h.good i).rel_x0
    rw [e]; exact (h.good i).val_zero

/-- C40: onto. -/
theorem C40_surjective (h : ValidKnots xPos yPos slopes) : Function.Surjective (fun x => (splineFwd x xPos yPos slopes).1) := by
  intro y
  have h0 := h.slope 0
  have h1 := h.slope (Fin.last K)
  set f := fun x => (splineFwd x xPos yPos slopes).1 with hf
  have lo : ∃ a, f a ≤ y := by
    refine ⟨min (xPos 0) (xPos 0 + (y - yPos 0) / slopes 0), ?_⟩
    rw [hf]
    simp only
    rw [C40_linear_below h (min_le_left _ _)]
    have : slopes 0 * (min (xPos 0) (xPos 0 + (y - yPos 0) / slopes 0) - xPos 0) ≤ slopes 0 * ((y - yPos 0) / slopes 0) :=
      mul_le_mul_of_nonneg_left (by have := min_le_right (xPos 0) (xPos 0 + (y - yPos 0) / slopes 0); linarith) h0.le
    rw [mul_div_cancel₀ _ h0.ne'] at this
    linarith
  have hi : ∃ b, y ≤ f b := by
    refine ⟨max (xPos (Fin.last K)) (xPos (Fin.last K) + (y - yPos (Fin.last K)) / slopes (Fin.last K)), ?_⟩
    rw [hf]
    simp only
    rw [C40_linear_above h (le_max_left _ _)]
    have : slopes (Fin.last K) * ((y - yPos (Fin.last K)) / slopes (Fin.last K)) ≤
        slopes (Fin.last K) * (max (xPos (Fin.last K)) (xPos (Fin.last K) + (y - yPos (Fin.last K)) / slopes (Fin.last K)) - xPos (Fin.last K)) :=
      mul_le_mul_of_nonneg_left (by
        have := le_max_right (xPos (Fin.last K)) (xPos (Fin.last K) + (y - yPos (Fin.last K)) / slopes (Fin.last K)); linarith) h1.le
    rw [mul_div_cancel₀ _ h1.ne'] at this
    linarith
  obtain ⟨a, ha⟩ := lo
  obtain ⟨b, hb⟩ := hi
  exact mem_range_of_exists_le_of_exists_ge (C40_continuous h) ⟨a, ha⟩ ⟨b, hb⟩

/-- C40: a bijection of the line. -/
theorem C40_bijective (h : ValidKnots xPos yPos slopes) : Function.Bijective (fun x => (splineFwd x xPos yPos slopes).1) :=
  ⟨(C40_strictMono h).injective, C40_surjective h⟩

/-! ### C41 -/

/-- The quadratic formula returns the root `z` when its derivative there is positive and not below the guard. -/
theorem safeQuadraticRoot_eq {tiny a b c z : ℝ} (hroot : a * z ^ 2 + b * z + c = 0) (hpos : 0 < 2 * a * z + b) (htiny : tiny ≤ (2 * a * z + b) ^ 2)
    (ha : b < 0 → a ≠ 0) : safeQuadraticRoot tiny a b c = z := by
  have hd : b ^ 2 - 4 * a * c = (2 * a * z + b) ^ 2 := by
    have : c = -(a * z ^ 2 + b * z) := by linarith
    rw [this]; ring
  have hsq : Real.sqrt (max (b ^ 2 - 4 * a * c) tiny) = 2 * a * z + b := by
    rw [hd, max_eq_left htiny, Real.sqrt_sq hpos.le]
  have hp : 0 < b ^ 2 - 4 * a * c := by rw [hd]; positivity
  simp only [safeQuadraticRoot, if_pos hp, hsq]
  by_cases hb : 0 ≤ b
  · rw [if_pos hb, if_pos hb, div_eq_iff (by linarith)]
    have : c = -(a * z ^ 2 + b * z) := by linarith
    rw [this]; ring
  · rw [if_neg hb, if_neg hb]
    have ha' := ha (not_le.1 hb)
    rw [div_eq_iff (mul_ne_zero two_ne_zero ha')]
    ring

theorem BinParams.Good.root {p : BinParams} (h : p.Good) {tiny z : ℝ} (h0 : 0 ≤ z) (h1 : z ≤ 1)
    (ht : tiny ≤ (p.slope * min p.d0 p.d1 / 2 / (p.slope + (p.d0 + p.d1) / 4)) ^ 2) :
    let w := (p.val z - p.y0) / p.height
    0 ≤ w ∧ w ≤ 1 ∧ safeQuadraticRoot tiny (p.slope - (p.d0 - p.slopesTerm * w)) (p.d0 - p.slopesTerm * w) (-p.slope * w) = z := by
  have hs := h.slope
  have hd := h.den_pos h0 h1
  have hq := h.quad_pos h0 h1
  have hh := h.height
  have hw : (p.val z - p.y0) / p.height = (p.slope * (z * z) + p.d0 * (z - z * z)) / p.den z := by
    rw [BinParams.val, add_sub_cancel_left, div_right_comm, mul_div_cancel_left₀ _ hh.ne']
  have hzz : 0 ≤ z - z * z := by nlinarith
  have hN : 0 ≤ p.slope * (z * z) + p.d0 * (z - z * z) := add_nonneg (mul_nonneg hs.le (mul_nonneg h0 h0)) (mul_nonneg h.d0.le hzz)
  intro w
  have hwd : w * p.den z = p.slope * (z * z) + p.d0 * (z - z * z) := by
    show (p.val z - p.y0) / p.height * p.den z = _
    rw [hw, div_mul_cancel₀ _ hd.ne']
  have hw0 : 0 ≤ w := by show 0 ≤ (p.val z - p.y0) / p.height; rw [hw]; exact div_nonneg hN hd.le
  have hw1 : w ≤ 1 := by
    show (p.val z - p.y0) / p.height ≤ 1
    rw [hw, div_le_one hd]
    have hd1 := h.d1
    have : 0 ≤ (1 - z) * (p.slope * (1 - z) + p.d1 * z) := mul_nonneg (by linarith) (add_nonneg (mul_nonneg hs.le (by linarith)) (mul_nonneg hd1.le h0))
    unfold BinParams.den BinParams.slopesTerm
    nlinarith
  have hroot : (p.slope - (p.d0 - p.slopesTerm * w)) * z ^ 2 + (p.d0 - p.slopesTerm * w) * z + -p.slope * w = 0 := by
    have : (p.slope - (p.d0 - p.slopesTerm * w)) * z ^ 2 + (p.d0 - p.slopesTerm * w) * z + -p.slope * w
        = (p.slope * (z * z) + p.d0 * (z - z * z)) - w * p.den z := by unfold BinParams.den; ring
    rw [this, hwd, sub_self]
  have hder : (2 * (p.slope - (p.d0 - p.slopesTerm * w)) * z + (p.d0 - p.slopesTerm * w)) * p.den z = p.slope * p.quad z := by
    have e1 : (2 * (p.slope - (p.d0 - p.slopesTerm * w)) * z + (p.d0 - p.slopesTerm * w)) * p.den z
        = (2 * p.slope * z + p.d0 * (1 - 2 * z)) * p.den z - p.slopesTerm * (1 - 2 * z) * (w * p.den z) := by ring
    rw [e1, hwd]
    unfold BinParams.den BinParams.quad BinParams.slopesTerm
    ring
  have hder' : 2 * (p.slope - (p.d0 - p.slopesTerm * w)) * z + (p.d0 - p.slopesTerm * w) = p.slope * p.quad z / p.den z := by
    rw [eq_div_iff hd.ne', hder]
  have hpos : 0 < p.slope * p.quad z / p.den z := div_pos (mul_pos hs hq) hd
  have hm : 0 < min p.d0 p.d1 := lt_min h.d0 h.d1
  have hD : 0 < p.slope + (p.d0 + p.d1) / 4 := by have := h.d0; have := h.d1; linarith
  have hbound : p.slope * min p.d0 p.d1 / 2 / (p.slope + (p.d0 + p.d1) / 4) ≤ p.slope * p.quad z / p.den z := by
    apply div_le_div₀ (mul_pos hs hq).le _ hd _
    · have e0 := min_le_left p.d0 p.d1
      have e1 := min_le_right p.d0 p.d1
      have e2 : min p.d0 p.d1 / 2 ≤ p.quad z := by
        unfold BinParams.quad
        have a1 : min p.d0 p.d1 * (z * z) ≤ p.d1 * (z * z) := mul_le_mul_of_nonneg_right e1 (mul_nonneg h0 h0)
        have a2 : min p.d0 p.d1 * (1 - z) ^ 2 ≤ p.d0 * (1 - z) ^ 2 := mul_le_mul_of_nonneg_right e0 (sq_nonneg _)
        have a3 : 0 ≤ 2 * p.slope * (z - z * z) := by positivity
        have a4 : min p.d0 p.d1 * (1 / 2) ≤ min p.d0 p.d1 * (z * z + (1 - z) ^ 2) :=
          mul_le_mul_of_nonneg_left (by nlinarith [sq_nonneg (z - 1 / 2)]) hm.le
        linarith
      have := mul_le_mul_of_nonneg_left e2 hs.le
      linarith
    · have hz' : z - z * z ≤ 1 / 4 := by nlinarith [sq_nonneg (z - 1 / 2)]
      have a1 : (p.d0 + p.d1) * (z - z * z) ≤ (p.d0 + p.d1) * (1 / 4) := mul_le_mul_of_nonneg_left hz' (add_pos h.d0 h.d1).le
      have a2 : 0 ≤ p.slope * (z - z * z) := mul_nonneg hs.le hzz
      unfold BinParams.den BinParams.slopesTerm
      linarith
  refine ⟨hw0, hw1, safeQuadraticRoot_eq hroot (by rw [hder']; exact hpos) ?_ ?_⟩
  · rw [hder']
    have : 0 ≤ p.slope * min p.d0 p.d1 / 2 / (p.slope + (p.d0 + p.d1) / 4) := by positivity
    exact ht.trans (by gcongr)
  · intro hb; linarith

/-- C41: the inverse undoes the forward map and its log-determinant is the negative. -/
theorem C41_inv_fwd (h : ValidKnots xPos yPos slopes) {tiny : ℝ} (ht : ClipInactive tiny xPos yPos slopes) (x : ℝ) :
    splineInv tiny (splineFwd x xPos yPos slopes).1 xPos yPos slopes = (x, -(splineFwd x xPos yPos slopes).2) := by
  have mono := C40_strictMono h
  by_cases h0 : x ≤ xPos 0
  · have hs := h.slope 0
    have e := splineFwd_left h h0
    have hy : (splineFwd x xPos yPos slopes).1 ≤ yPos 0 := by
      rw [← C40_knots h 0]; exact mono.monotone h0
    have hy' : ¬ yPos (Fin.last K) ≤ (splineFwd x xPos yPos slopes).1 := not_le.2 (hy.trans_lt h.y_lt)
    simp only [splineInv, if_pos hy, if_neg hy']
    rw [e]
    simp only [add_sub_cancel_right, mul_div_cancel_right₀ _ hs.ne', sub_add_cancel]
  · push Not at h0
    by_cases h1 : xPos (Fin.last K) ≤ x
    · have hs := h.slope (Fin.last K)
      have hy : yPos (Fin.last K) ≤ (splineFwd x xPos yPos slopes).1 := by
        rw [← C40_knots h (Fin.last K)]; exact mono.monotone h1
      simp only [splineInv, if_pos hy]
      rw [splineFwd_right h1]
      simp only [add_sub_cancel_right, mul_div_cancel_right₀ _ hs.ne', sub_add_cancel]
    · push Not at h1
      obtain ⟨i, hi0, hi1⟩ := locate xPos x h0.le h1
      have hg := h.good i
      have hr := hg.rel_mem (x := x) hi0 hi1.le
      have hy0 : ¬ (splineFwd x xPos yPos slopes).1 ≤ yPos 0 := not_le.2 (by rw [← C40_knots h 0]; exact mono h0)
      have hy1 : ¬ yPos (Fin.last K) ≤ (splineFwd x xPos yPos slopes).1 := not_le.2 (by rw [← C40_knots h (Fin.last K)]; exact mono h1)
      have hb : yPos i.castSucc ≤ (splineFwd x xPos yPos slopes).1 ∧ (splineFwd x xPos yPos slopes).1 < yPos i.succ :=
        ⟨by rw [← C40_knots h i.castSucc]; exact mono.monotone hi0, by rw [← C40_knots h i.succ]; exact mono hi1⟩
      simp only [splineInv, if_neg hy0, if_neg hy1, binParams_of _ i (correctBin_iff h.y hb)]
      rw [splineFwd_bin h i hi0 hi1.le]
      obtain ⟨hw0, hw1, hroot⟩ := hg.root hr.1 hr.2 (ht i)
      simp only [clip_of_mem ⟨hw0, hw1⟩, hroot, clip_of_mem hr]
      refine Prod.ext ?_ ?_
      · show (binAt xPos yPos slopes i).width * (binAt xPos yPos slopes i).rel x + (binAt xPos yPos slopes i).x0 = x
        rw [BinParams.rel, mul_div_cancel₀ _ hg.width.ne']; ring
      · show -2 * Real.log _ - Real.log _ + 2 * Real.log _ = -(BinParams.ld _ _)
        unfold BinParams.ld BinParams.quad BinParams.den
        ring

/-- C41: the forward map undoes the inverse and the log-determinants are opposite. -/
theorem C41_fwd_inv (h : ValidKnots xPos yPos slopes) {tiny : ℝ} (ht : ClipInactive tiny xPos yPos slopes) (y : ℝ) :
    splineFwd (splineInv tiny y xPos yPos slopes).1 xPos yPos slopes = (y, -(splineInv tiny y xPos yPos slopes).2) := by
  obtain ⟨x, rfl⟩ := C40_surjective h y
  have := C41_inv_fwd h ht x
  simp only [this, neg_neg]

/-- C41: the inverse is differentiable with derivative `exp` of its own log-determinant. -/
theorem C41_inv_logdet (h : ValidKnots xPos yPos slopes) {tiny : ℝ} (ht : ClipInactive tiny xPos yPos slopes) (y : ℝ) :
    HasDerivAt (fun t => (splineInv tiny t xPos yPos slopes).1) (Real.exp (splineInv tiny y xPos yPos slopes).2) y := by
  have hd := C42_logdet_is_log_derivative h (splineInv tiny y xPos yPos slopes).1
  have e : ∀ y, (splineFwd (splineInv tiny y xPos yPos slopes).1 xPos yPos slopes).1 = y := fun y => by rw [C41_fwd_inv h ht]
  have hcont : Continuous (fun t => (splineInv tiny t xPos yPos slopes).1) := by
    let o := (C40_strictMono h).orderIsoOfSurjective _ (C40_surjective h)
    have : (fun t => (splineInv tiny t xPos yPos slopes).1) = o.symm := by
      funext t
      rw [eq_comm, OrderIso.symm_apply_eq]
      exact (e t).symm
    rw [this]; exact o.symm.continuous
  have := hd.of_local_left_inverse hcont.continuousAt (Real.exp_pos _).ne' (Filter.Eventually.of_forall e)
  refine this.congr_deriv ?_
  rw [C41_fwd_inv h ht, Real.exp_neg, inv_inv]

/-! ### C39 -/

theorem softmax_pos {K : ℕ} (u : Fin K → ℝ) (i : Fin K) : 0 < softmax u i :=
  div_pos (Real.exp_pos _) (Finset.sum_pos (fun j _ => Real.exp_pos _) ⟨i, Finset.mem_univ i⟩)

theorem softmax_sum {K : ℕ} (u : Fin K → ℝ) (hK : 0 < K) : ∑ i, softmax u i = 1 := by
  unfold softmax
  rw [← Finset.sum_div]
  exact div_self (Finset.sum_pos (fun j _ => Real.exp_pos _) ⟨⟨0, hK⟩, Finset.mem_univ _⟩).ne'

theorem normalizeBinSizes_ge {K : ℕ} (u : Fin K → ℝ) (total m : ℝ) (h : K * m ≤ total) (i : Fin K) : m ≤ normalizeBinSizes u total m i := by
  have := mul_nonneg (softmax_pos u i).le (sub_nonneg.2 h)
  unfold normalizeBinSizes; linarith

theorem normalizeBinSizes_sum {K : ℕ} (u : Fin K → ℝ) (total m : ℝ) (hK : 0 < K) : ∑ i, normalizeBinSizes u total m i = total := by
  unfold normalizeBinSizes
  rw [Finset.sum_add_distrib, ← Finset.sum_mul, softmax_sum u hK, Finset.sum_const, Finset.card_univ, Fintype.card_fin, nsmul_eq_mul]
  ring

theorem knotPositions_eq {K : ℕ} (c : SplineCfg) (sizes : Fin K → ℝ) (hK : 0 < K) (hsum : ∑ i, sizes i = c.rangeMax - c.rangeMin) (j : Fin (K + 1)) :
    knotPositions c sizes j = c.rangeMin + ∑ i : Fin K, if i.1 < j.1 then sizes i else 0 := by
  unfold knotPositions
  by_cases h0 : j.1 = 0
  · rw [if_pos h0, h0]; simp
  · rw [if_neg h0]
    by_cases h1 : j.1 = K
    · rw [if_pos h1]
      have : ∑ i : Fin K, (if i.1 < j.1 then sizes i else 0) = ∑ i, sizes i :=
        Finset.sum_congr rfl fun i _ => by rw [if_pos (by rw [h1]; exact i.2)]
      rw [this, hsum]; ring
    · rw [if_neg h1]

theorem knotPositions_step {K : ℕ} (c : SplineCfg) (sizes : Fin K → ℝ) (hK : 0 < K) (hsum : ∑ i, sizes i = c.rangeMax - c.rangeMin) (i : Fin K) :
    knotPositions c sizes i.succ - knotPositions c sizes i.castSucc = sizes i := by
  rw [knotPositions_eq c sizes hK hsum, knotPositions_eq c sizes hK hsum]
  have : ∀ k : Fin K, (if k.1 < i.succ.1 then sizes k else 0) = (if k.1 < i.castSucc.1 then sizes k else 0) + if k = i then sizes k else 0 := by
    intro k
    simp only [Fin.val_succ, Fin.val_castSucc, Fin.ext_iff]
    rcases lt_trichotomy k.1 i.1 with h | h | h
    · rw [if_pos (by omega), if_pos h, if_neg (by omega), add_zero]
    · rw [if_pos (by omega), if_neg (by omega), if_pos h, zero_add]
    · rw [if_neg (by omega), if_neg (by omega), if_neg (by omega), add_zero]
  simp only [this, Finset.sum_add_distrib, Finset.sum_ite_eq', Finset.mem_univ, if_true]
  ring

/-- C39: for every raw parameter row the knots start at `range_min`, end at `range_max`, every bin has at least `min_bin_size` on both axes, every slope
exceeds `min_knot_slope`; a zero raw slope gives slope one. -/
theorem C39_knots {K : ℕ} (c : SplineCfg) (row : Fin (K * 3 + 1) → ℝ) (hK : 0 < K) (hr : K * c.minBinSize ≤ c.rangeMax - c.rangeMin)
    (hs : c.minKnotSlope < 1) :
    let k := rowKnots c row
    k.xPos 0 = c.rangeMin ∧ k.xPos (Fin.last K) = c.rangeMax ∧ k.yPos 0 = c.rangeMin ∧ k.yPos (Fin.last K) = c.rangeMax ∧
    (∀ i : Fin K, c.minBinSize ≤ k.xPos i.succ - k.xPos i.castSucc ∧ c.minBinSize ≤ k.yPos i.succ - k.yPos i.castSucc) ∧
    (∀ i, c.minKnotSlope < k.slopes i) ∧ ∀ i : Fin (K + 1), row ⟨2 * K + i.1, by omega⟩ = 0 → k.slopes i = 1 := by
  have hx := normalizeBinSizes_sum (fun i : Fin K => row ⟨i.1, by omega⟩) (c.rangeMax - c.rangeMin) c.minBinSize hK
  have hy := normalizeBinSizes_sum (fun i : Fin K => row ⟨K + i.1, by omega⟩) (c.rangeMax - c.rangeMin) c.minBinSize hK
  refine ⟨by simp [rowKnots, knotPositions], ?_, by simp [rowKnots, knotPositions], ?_, fun i => ⟨?_, ?_⟩, fun i => ?_, fun i hi => ?_⟩
  · simp [rowKnots, knotPositions, hK.ne']
  · simp [rowKnots, knotPositions, hK.ne']
  · show _ ≤ knotPositions c _ i.succ - knotPositions c _ i.castSucc
    rw [knotPositions_step c _ hK hx]; exact normalizeBinSizes_ge _ _ _ hr i
  · show _ ≤ knotPositions c _ i.succ - knotPositions c _ i.castSucc
    rw [knotPositions_step c _ hK hy]; exact normalizeBinSizes_ge _ _ _ hr i
  · show _ < normalizeKnotSlopes (fun i : Fin (K + 1) => row ⟨2 * K + i.1, by omega⟩) c.minKnotSlope i
    have : 0 < softplus (row ⟨2 * K + i.1, by omega⟩ + Real.log (Real.exp (1 - c.minKnotSlope) - 1)) :=
      Real.log_pos (by have := Real.exp_pos (row ⟨2 * K + i.1, by omega⟩ + Real.log (Real.exp (1 - c.minKnotSlope) - 1)); linarith)
    simp only [normalizeKnotSlopes]; linarith
  · have h1 : 0 < Real.exp (1 - c.minKnotSlope) - 1 := by
      have := Real.add_one_lt_exp (x := 1 - c.minKnotSlope) (by linarith); linarith
    show normalizeKnotSlopes (fun i : Fin (K + 1) => row ⟨2 * K + i.1, by omega⟩) c.minKnotSlope i = 1
    simp only [normalizeKnotSlopes, hi, zero_add, softplus, Real.exp_log h1]
    rw [add_sub_cancel, Real.log_exp]; ring

/-- C39: the knots are valid whenever the minima are positive and the range is wide enough. -/
theorem C39_valid {K : ℕ} (c : SplineCfg) (row : Fin (K * 3 + 1) → ℝ) (hK : 0 < K) (hb : 0 < c.minBinSize) (hm : 0 ≤ c.minKnotSlope)
    (hr : K * c.minBinSize ≤ c.rangeMax - c.rangeMin) (hs : c.minKnotSlope < 1) :
    ValidKnots (rowKnots c row).xPos (rowKnots c row).yPos (rowKnots c row).slopes := by
  obtain ⟨_, _, _, _, h1, h2, _⟩ := C39_knots c row hK hr hs
  exact ⟨hK, Fin.strictMono_iff_lt_succ.2 fun i => by have := (h1 i).1; linarith, Fin.strictMono_iff_lt_succ.2 fun i => by have := (h1 i).2; linarith,
    fun i => hm.trans_lt (h2 i)⟩

/-- C41, default settings (range width at most 20, `min_bin_size = min_knot_slope = 1e-4`, float32 `tiny = 2⁻¹²⁶`): the guard is inactive as long as no knot
slope exceeds `10⁹`. -/
theorem C41_guard_inactive_default {K : ℕ} (c : SplineCfg) (row : Fin (K * 3 + 1) → ℝ) (hK : 0 < K) (hb : c.minBinSize = 1 / 10000) (hm : c.minKnotSlope = 1 / 10000)
    (hr : K * c.minBinSize ≤ c.rangeMax - c.rangeMin) (hw : c.rangeMax - c.rangeMin ≤ 20) (hs : ∀ i, (rowKnots c row).slopes i ≤ 10 ^ 9) :
    ClipInactive (2⁻¹ ^ 126) (rowKnots c row).xPos (rowKnots c row).yPos (rowKnots c row).slopes := by
  obtain ⟨hx0, hxl, hy0, hyl, h1, h2, _⟩ := C39_knots c row hK hr (by rw [hm]; norm_num)
  have hv := C39_valid c row hK (by rw [hb]; norm_num) (by rw [hm]; norm_num) hr (by rw [hm]; norm_num)
  intro i
  have hgap : ∀ pos : Fin (K + 1) → ℝ, StrictMono pos → pos 0 = c.rangeMin → pos (Fin.last K) = c.rangeMax → pos i.succ - pos i.castSucc ≤ 20 := by
    intro pos hp e0 el
    have a1 : pos i.succ ≤ pos (Fin.last K) := hp.monotone (Fin.le_last _)
    have a2 : pos 0 ≤ pos i.castSucc := hp.monotone (Fin.zero_le _)
    linarith
  have gx := hgap _ hv.x hx0 hxl
  have gy := hgap _ hv.y hy0 hyl
  have lx := (h1 i).1
  have ly := (h1 i).2
  rw [hb] at lx ly
  set Δx := (rowKnots c row).xPos i.succ - (rowKnots c row).xPos i.castSucc
  set Δy := (rowKnots c row).yPos i.succ - (rowKnots c row).yPos i.castSucc
  set s := Δy / Δx with hsdef
  have hΔx : 0 < Δx := by linarith
  have hs1 : 1 / 200000 ≤ s := by
    rw [hsdef, le_div_iff₀ hΔx]; linarith
  have hs2 : s ≤ 200000 := by
    rw [hsdef, div_le_iff₀ hΔx]; linarith
  have d0 := h2 i.castSucc
  have d1 := h2 i.succ
  rw [hm] at d0 d1
  have d0' := hs i.castSucc
  have d1' := hs i.succ
  set a := (rowKnots c row).slopes i.castSucc
  set b := (rowKnots c row).slopes i.succ
  have hmin : 1 / 10000 ≤ min a b := le_min d0.le d1.le
  have key : (1 / 200000 * (1 / 10000) / 2) / (10 ^ 9 : ℝ) ≤ s * min a b / 2 / (s + (a + b) / 4) := by
    apply div_le_div₀
    · positivity
    · have := mul_le_mul hs1 hmin (by norm_num) (by linarith : (0 : ℝ) ≤ s); linarith
    · linarith
    · linarith
  show (2⁻¹ ^ 126 : ℝ) ≤ (s * min a b / 2 / (s + (a + b) / 4)) ^ 2
  calc (2⁻¹ ^ 126 : ℝ) ≤ ((1 / 200000 * (1 / 10000) / 2) / (10 ^ 9 : ℝ)) ^ 2 := by norm_num
    _ ≤ _ := pow_le_pow_left₀ (by norm_num) key 2

/-! ### C47 -/

/-- C47: the number of bins is recovered from the network shape. -/
theorem C47_num_bins (dr : MLPDraws) (d K : ℕ) (hidden : List ℕ) (i : ℕ) (k : Key) (hd : 0 < d) :
    numBins (splineMakeLayer dr d K hidden i k).mlp.nInput (splineMakeLayer dr d K hidden i k).mlp.nOutput = K := by
  simp only [numBins, MLP.nInput, MLP.nOutput, Nat.mul_div_cancel_left _ hd]
  omega

theorem partIndex_decode {d K : ℕ} (f : Fin d) (q : RowPart K) : ∃ o, o < K * 3 + 1 ∧ partIndex f q = f.1 * (K * 3 + 1) + o ∧
    q = if h : o < K then .inl ⟨o, h⟩ else if h2 : o < 2 * K then .inr (.inl ⟨o - K, by omega⟩) else .inr (.inr ⟨min (o - 2 * K) K, by omega⟩) := by
  rcases q with i | i | i
  · exact ⟨i.1, by omega, rfl, by rw [dif_pos i.2]⟩
  · refine ⟨K + i.1, by omega, rfl, ?_⟩
    rw [dif_neg (by omega), dif_pos (by omega)]
    simp
  · refine ⟨2 * K + i.1, by omega, rfl, ?_⟩
    rw [dif_neg (by omega), dif_neg (by omega)]
    simp only [Nat.add_sub_cancel_left]
    congr 2
    exact Fin.ext (by simp only; omega)

/-- C47: distinct parts of the rows use distinct network outputs and together they use all of them; each knot vector is read from its own part. -/
theorem C47_layout {d K : ℕ} :
    (∀ (f : Fin d) (q : RowPart K), partIndex f q < d * (K * 3 + 1)) ∧
    (∀ n, n < d * (K * 3 + 1) → ∃! fq : Fin d × RowPart K, partIndex fq.1 fq.2 = n) ∧
    (∀ (c : SplineCfg) (params : Fin (d * (K * 3 + 1)) → ℝ) (f : Fin d),
      let out := fun q : RowPart K => if h : partIndex f q < d * (K * 3 + 1) then params ⟨partIndex f q, h⟩ else 0
      let k := rowKnots c (paramRow params f)
      k.xPos = knotPositions c (normalizeBinSizes (fun i => out (.inl i)) (c.rangeMax - c.rangeMin) c.minBinSize) ∧
      k.yPos = knotPositions c (normalizeBinSizes (fun i => out (.inr (.inl i))) (c.rangeMax - c.rangeMin) c.minBinSize) ∧
      k.slopes = normalizeKnotSlopes (fun i => out (.inr (.inr i))) c.minKnotSlope) := by
  have hlt : ∀ (f : Fin d) (q : RowPart K), partIndex f q < d * (K * 3 + 1) := by
    intro f q
    obtain ⟨o, ho, e, _⟩ := partIndex_decode f q
    rw [e]
    calc f.1 * (K * 3 + 1) + o < f.1 * (K * 3 + 1) + (K * 3 + 1) := by omega
      _ = (f.1 + 1) * (K * 3 + 1) := by rw [Nat.add_mul, Nat.one_mul]
      _ ≤ d * (K * 3 + 1) := Nat.mul_le_mul_right _ f.2
  refine ⟨hlt, fun n hn => ?_, fun c params f => ⟨?_, ?_, ?_⟩⟩
  · have hf : n / (K * 3 + 1) < d := Nat.div_lt_of_lt_mul (by rw [Nat.mul_comm]; exact hn)
    have ho : n % (K * 3 + 1) < K * 3 + 1 := Nat.mod_lt _ (by omega)
    have hsplit : n / (K * 3 + 1) * (K * 3 + 1) + n % (K * 3 + 1) = n := by rw [Nat.mul_comm]; exact Nat.div_add_mod _ _
    refine ⟨(⟨_, hf⟩, if h : n % (K * 3 + 1) < K then .inl ⟨_, h⟩ else if h2 : n % (K * 3 + 1) < 2 * K then .inr (.inl ⟨n % (K * 3 + 1) - K, by omega⟩)
        else .inr (.inr ⟨min (n % (K * 3 + 1) - 2 * K) K, by omega⟩)), ?_, ?_⟩
    · simp only
      split
      · simp only [partIndex]; exact hsplit
      · split
        · simp only [partIndex]; rw [Nat.add_sub_cancel' (by omega)]; exact hsplit
        · simp only [partIndex]
          rw [Nat.min_eq_left (by omega), Nat.add_sub_cancel' (by omega)]; exact hsplit
    · rintro ⟨f, q⟩ hq
      obtain ⟨o, ho', e, hq'⟩ := partIndex_decode f q
      simp only at hq
      rw [e] at hq
      have h1 : f.1 = n / (K * 3 + 1) := by
        rw [← hq, Nat.mul_comm, Nat.mul_add_div (by omega), Nat.div_eq_of_lt ho', Nat.add_zero]
      have h2 : o = n % (K * 3 + 1) := by
        rw [← hq, Nat.mul_comm, Nat.mul_add_mod, Nat.mod_eq_of_lt ho']
      subst h2
      exact Prod.ext (Fin.ext h1) hq'
  · simp only [rowKnots, paramRow]
    congr 1; congr 1; funext i
    rw [dif_pos (hlt f (.inl i))]; rfl
  · simp only [rowKnots, paramRow]
    congr 1; congr 1; funext i
    rw [dif_pos (hlt f (.inr (.inl i)))]; rfl
  · simp only [rowKnots, paramRow]
    congr 1; funext i
    rw [dif_pos (hlt f (.inr (.inr i)))]; rfl

/-! ### The hypotheses are met -/

/-- Two bins, slopes not all equal. -/
example : ValidKnots (K := 2) ![-1, 0, 2] ![-1, 1, 2] ![1, 2, 1 / 2] :=
  ⟨by norm_num, Fin.strictMono_iff_lt_succ.2 fun i => by fin_cases i <;> simp, Fin.strictMono_iff_lt_succ.2 fun i => by fin_cases i <;> simp,
    fun i => by fin_cases i <;> norm_num⟩

example : ClipInactive (K := 1) (1 / 100) ![0, 1] ![0, 1] ![1, 1] := by
  intro i
  fin_cases i
  norm_num

/-- The default settings of `MaskedCouplingRQSpline` with 8 bins satisfy the hypotheses of C39. -/
example : let c : SplineCfg := ⟨-10, 10, 1 / 10000, 1 / 10000⟩
    0 < c.minBinSize ∧ 0 ≤ c.minKnotSlope ∧ ((8 : ℕ) : ℝ) * c.minBinSize ≤ c.rangeMax - c.rangeMin ∧ c.minKnotSlope < 1 := by norm_num

end
end FlowMC
