import Verif.Spec.Flow
import Mathlib.Analysis.Calculus.Deriv.MeanValue
import Mathlib.Analysis.SpecialFunctions.ExpDeriv
import Mathlib.Tactic.FieldSimp
import Mathlib.Tactic.Ring
import Mathlib.Tactic.Linarith
import Mathlib.Tactic.Positivity
/-
The rational-quadratic spline, one bin at a time.
-/
set_option linter.unusedSectionVars false
namespace FlowMC
open Spec
open scoped BigOperators
noncomputable section
open Classical

theorem binDot_single {K : ℕ} (b : Fin K → Prop) (i : Fin K) (h : ∀ j, b j ↔ j = i) (v : Fin K → ℝ) : binDot b v = v i := by
  unfold binDot
  rw [Finset.sum_eq_single i]
  · rw [if_pos ((h i).2 rfl), one_mul]
  · intro j _ hj
    rw [if_neg (fun hb => hj ((h j).1 hb)), zero_mul]
  · intro h'; exact absurd (Finset.mem_univ i) h'

/-- Parameters of bin `i`. -/
def binAt {K : ℕ} (xPos yPos slopes : Fin (K + 1) → ℝ) (i : Fin K) : BinParams :=
  ⟨xPos i.castSucc, xPos i.succ, yPos i.castSucc, yPos i.succ, slopes i.castSucc, slopes i.succ⟩

theorem binParams_of {K : ℕ} (b : Fin K → Prop) (i : Fin K) (h : ∀ j, b j ↔ j = i) (xPos yPos slopes : Fin (K + 1) → ℝ) :
    binParams b xPos yPos slopes = binAt xPos yPos slopes i := by
  simp only [binParams, binDot_single b i h, binAt]

theorem bin_unique {K : ℕ} {pos : Fin (K + 1) → ℝ} (hp : StrictMono pos) {x : ℝ} {i j : Fin K} (hi : pos i.castSucc ≤ x ∧ x < pos i.succ)
    (hj : pos j.castSucc ≤ x ∧ x < pos j.succ) : j = i := by
  have h1 := hp.lt_iff_lt.1 (hi.1.trans_lt hj.2)
  have h2 := hp.lt_iff_lt.1 (hj.1.trans_lt hi.2)
  simp only [Fin.lt_def, Fin.val_castSucc, Fin.val_succ] at h1 h2
  exact Fin.ext (by omega)

theorem correctBin_iff {K : ℕ} {pos : Fin (K + 1) → ℝ} (hp : StrictMono pos) {x : ℝ} {i : Fin K} (hi : pos i.castSucc ≤ x ∧ x < pos i.succ) (j : Fin K) :
    correctBin x pos j ↔ j = i := by
  unfold correctBin
  rw [if_pos ⟨i, hi⟩]
  exact ⟨fun h => bin_unique hp hi h, fun h => h ▸ hi⟩

theorem locate : ∀ {K : ℕ} (pos : Fin (K + 1) → ℝ) (x : ℝ), pos 0 ≤ x → x < pos (Fin.last K) → ∃ i : Fin K, pos i.castSucc ≤ x ∧ x < pos i.succ
  | 0, pos, x, h1, h2 => absurd h2 (by simpa using h1)
  | K + 1, pos, x, h1, h2 => by
    by_cases h : x < pos (Fin.last K).castSucc
    · obtain ⟨i, hi⟩ := locate (fun j : Fin (K + 1) => pos j.castSucc) x h1 h
      exact ⟨i.castSucc, hi.1, by simpa using hi.2⟩
    · exact ⟨Fin.last K, not_lt.1 h, by simpa using h2⟩

/-! ### One bin -/

/-- A non-degenerate bin. -/
structure BinParams.Good (p : BinParams) : Prop where
  x : p.x0 < p.x1
  y : p.y0 < p.y1
  d0 : 0 < p.d0
  d1 : 0 < p.d1

variable {p : BinParams}

theorem BinParams.Good.width (h : p.Good) : 0 < p.width := sub_pos.2 h.x
theorem BinParams.Good.height (h : p.Good) : 0 < p.height := sub_pos.2 h.y
theorem BinParams.Good.slope (h : p.Good) : 0 < p.slope := div_pos h.height h.width

/-- The denominator at relative position `z`. -/
def BinParams.den (p : BinParams) (z : ℝ) : ℝ := p.slope + p.slopesTerm * (z - z * z)
/-- The derivative's numerator. -/
def BinParams.quad (p : BinParams) (z : ℝ) : ℝ := p.d1 * (z * z) + 2 * p.slope * (z - z * z) + p.d0 * (1 - z) ^ 2
/-- Value of the bin's curve at relative position `z`. -/
def BinParams.val (p : BinParams) (z : ℝ) : ℝ := p.y0 + p.height * (p.slope * (z * z) + p.d0 * (z - z * z)) / p.den z
/-- Log-derivative of the bin's curve. -/
def BinParams.ld (p : BinParams) (z : ℝ) : ℝ := 2 * Real.log p.slope + Real.log (p.quad z) - 2 * Real.log (p.den z)
/-- Relative position of `x`. -/
def BinParams.rel (p : BinParams) (x : ℝ) : ℝ := (x - p.x0) / p.width

theorem BinParams.Good.den_pos (h : p.Good) {z : ℝ} (h0 : 0 ≤ z) (h1 : z ≤ 1) : 0 < p.den z := by
  have hs := h.slope
  have hz : 0 ≤ z - z * z := by nlinarith
  have hz' : z - z * z ≤ 1 / 4 := by nlinarith [sq_nonneg (z - 1 / 2)]
  unfold BinParams.den BinParams.slopesTerm
  nlinarith [mul_nonneg (add_pos h.d0 h.d1).le hz]

theorem BinParams.Good.quad_pos (h : p.Good) {z : ℝ} (h0 : 0 ≤ z) (h1 : z ≤ 1) : 0 < p.quad z := by
  have hs := h.slope
  have hz : 0 ≤ z - z * z := by nlinarith
  have h2 : 0 ≤ 2 * p.slope * (z - z * z) := by positivity
  unfold BinParams.quad
  rcases eq_or_lt_of_le h0 with h | h'
  · subst h
    have := ‹p.Good›.d0
    nlinarith
  · have : 0 < p.d1 * (z * z) := mul_pos h.d1 (mul_pos h' h')
    have : 0 ≤ p.d0 * (1 - z) ^ 2 := mul_nonneg h.d0.le (sq_nonneg _)
    linarith

theorem BinParams.Good.rel_mem (h : p.Good) {x : ℝ} (h0 : p.x0 ≤ x) (h1 : x ≤ p.x1) : 0 ≤ p.rel x ∧ p.rel x ≤ 1 :=
  ⟨div_nonneg (sub_nonneg.2 h0) h.width.le, (div_le_one h.width).2 (by unfold BinParams.width; linarith)⟩

theorem clip_of_mem {x : ℝ} (h : 0 ≤ x ∧ x ≤ 1) : clip x 0 1 = x := by rw [clip, max_eq_left h.1, min_eq_left h.2]

theorem BinParams.Good.exp_ld (h : p.Good) {z : ℝ} (h0 : 0 ≤ z) (h1 : z ≤ 1) : Real.exp (p.ld z) = p.slope ^ 2 * p.quad z / p.den z ^ 2 := by
  have e1 : Real.exp (2 * Real.log p.slope) = p.slope ^ 2 := by
    rw [two_mul, Real.exp_add, Real.exp_log h.slope, sq]
  have e2 : Real.exp (2 * Real.log (p.den z)) = p.den z ^ 2 := by
    rw [two_mul, Real.exp_add, Real.exp_log (h.den_pos h0 h1), sq]
  rw [BinParams.ld, Real.exp_sub, Real.exp_add, e1, e2, Real.exp_log (h.quad_pos h0 h1)]

theorem BinParams.Good.hasDerivAt_val (h : p.Good) {z : ℝ} (h0 : 0 ≤ z) (h1 : z ≤ 1) :
    HasDerivAt p.val (p.width * (p.slope ^ 2 * p.quad z / p.den z ^ 2)) z := by
  have hd := (h.den_pos h0 h1).ne'
  have hzz : HasDerivAt (fun z : ℝ => z * z) (z + z) z := ((hasDerivAt_id z).mul (hasDerivAt_id z)).congr_deriv (by simp)
  have hz1 : HasDerivAt (fun z : ℝ => z - z * z) (1 - (z + z)) z := (hasDerivAt_id z).sub hzz
  have hnum : HasDerivAt (fun z : ℝ => p.height * (p.slope * (z * z) + p.d0 * (z - z * z))) (p.height * (p.slope * (z + z) + p.d0 * (1 - (z + z)))) z :=
    ((hzz.const_mul _).add (hz1.const_mul _)).const_mul _
  have hden : HasDerivAt p.den (p.slopesTerm * (1 - (z + z))) z := (hz1.const_mul _).const_add _
  have hq := (hnum.div hden hd).const_add p.y0
  refine hq.congr_deriv ?_
  have hh : p.height = p.slope * p.width := by rw [BinParams.slope, div_mul_cancel₀ _ h.width.ne']
  rw [← mul_div_assoc]
  congr 1
  unfold BinParams.den BinParams.quad BinParams.slopesTerm
  rw [hh]
  ring

theorem BinParams.Good.hasDerivAt (h : p.Good) {x : ℝ} (h0 : p.x0 ≤ x) (h1 : x ≤ p.x1) :
    HasDerivAt (fun x => p.val (p.rel x)) (Real.exp (p.ld (p.rel x))) x := by
  have hr := h.rel_mem h0 h1
  have hrel : HasDerivAt p.rel (1 / p.width) x := ((hasDerivAt_id x).sub_const _).div_const _
  have := (h.hasDerivAt_val hr.1 hr.2).comp x hrel
  refine this.congr_deriv ?_
  rw [h.exp_ld hr.1 hr.2]
  have := h.width.ne'
  field_simp

theorem BinParams.Good.val_zero (h : p.Good) : p.val 0 = p.y0 := by simp [BinParams.val]
theorem BinParams.Good.val_one (h : p.Good) : p.val 1 = p.y1 := by
  have := h.slope.ne'
  simp only [BinParams.val, BinParams.den, mul_one, sub_self, mul_zero, add_zero, mul_div_cancel_right₀ _ this]
  simp [BinParams.height]
theorem BinParams.Good.ld_zero (h : p.Good) : p.ld 0 = Real.log p.d0 := by simp [BinParams.ld, BinParams.quad, BinParams.den]
theorem BinParams.Good.ld_one (h : p.Good) : p.ld 1 = Real.log p.d1 := by simp [BinParams.ld, BinParams.quad, BinParams.den]
theorem BinParams.Good.rel_x0 (_h : p.Good) : p.rel p.x0 = 0 := by simp [BinParams.rel]
theorem BinParams.Good.rel_x1 (h : p.Good) : p.rel p.x1 = 1 := by
  have := h.width.ne'
  rw [BinParams.rel, BinParams.width] at *
  exact div_self this

/-! ### The whole spline -/

variable {K : ℕ} {xPos yPos slopes : Fin (K + 1) → ℝ}

theorem Spec.ValidKnots.good (h : ValidKnots xPos yPos slopes) (i : Fin K) : (binAt xPos yPos slopes i).Good :=
  ⟨h.x (Fin.castSucc_lt_succ), h.y (Fin.castSucc_lt_succ), h.slope _, h.slope _⟩

theorem Spec.ValidKnots.x_lt (h : ValidKnots xPos yPos slopes) : xPos 0 < xPos (Fin.last K) :=
  h.x (by rw [Fin.lt_def]; simpa using h.bins)
theorem Spec.ValidKnots.y_lt (h : ValidKnots xPos yPos slopes) : yPos 0 < yPos (Fin.last K) :=
  h.y (by rw [Fin.lt_def]; simpa using h.bins)

theorem splineFwd_left (h : ValidKnots xPos yPos slopes) {x : ℝ} (hx : x ≤ xPos 0) :
    splineFwd x xPos yPos slopes = ((x - xPos 0) * slopes 0 + yPos 0, Real.log (slopes 0)) := by
  have h1 : ¬ xPos (Fin.last K) ≤ x := not_le.2 (hx.trans_lt h.x_lt)
  simp only [splineFwd, if_pos hx, if_neg h1]

theorem splineFwd_right {x : ℝ} (hx : xPos (Fin.last K) ≤ x) :
    splineFwd x xPos yPos slopes = ((x - xPos (Fin.last K)) * slopes (Fin.last K) + yPos (Fin.last K), Real.log (slopes (Fin.last K))) := by
  simp only [splineFwd, if_pos hx]

/-- Inside a bin. -/
theorem splineFwd_inner (h : ValidKnots xPos yPos slopes) (i : Fin K) {x : ℝ} (h0 : xPos i.castSucc ≤ x) (h1 : x < xPos i.succ) (hx : xPos 0 < x) :
    splineFwd x xPos yPos slopes = ((binAt xPos yPos slopes i).val ((binAt xPos yPos slopes i).rel x), (binAt xPos yPos slopes i).ld ((binAt xPos yPos slopes i).rel x)) := by
  have h2 : ¬ xPos (Fin.last K) ≤ x := by
    have : xPos i.succ ≤ xPos (Fin.last K) := h.x.monotone (Fin.le_last _)
    exact not_le.2 (h1.trans_le this)
  have hr := (h.good i).rel_mem (x := x) h0 h1.le
  simp only [splineFwd, if_neg (not_le.2 hx), if_neg h2, binParams_of _ i (correctBin_iff h.x ⟨h0, h1⟩)]
  have hc : clip ((x - (binAt xPos yPos slopes i).x0) / (binAt xPos yPos slopes i).width) 0 1 = (binAt xPos yPos slopes i).rel x := clip_of_mem hr
  rw [hc]
  rfl

/-- On every closed bin. -/
theorem splineFwd_bin (h : ValidKnots xPos yPos slopes) (i : Fin K) {x : ℝ} (h0 : xPos i.castSucc ≤ x) (h1 : x ≤ xPos i.succ) :
    splineFwd x xPos yPos slopes = ((binAt xPos yPos slopes i).val ((binAt xPos yPos slopes i).rel x), (binAt xPos yPos slopes i).ld ((binAt xPos yPos slopes i).rel x)) := by
  have left : ∀ j : Fin K, splineFwd (xPos j.castSucc) xPos yPos slopes = (yPos j.castSucc, Real.log (slopes j.castSucc)) := by
    intro j
    by_cases hj : xPos j.castSucc ≤ xPos 0
    · have : j.castSucc = 0 := le_antisymm (h.x.le_iff_le.1 hj) (Fin.zero_le _)
      rw [splineFwd_left h hj, this]; simp
    · rw [splineFwd_inner h j le_rfl (h.x Fin.castSucc_lt_succ) (not_le.1 hj)]
      have := h.good j
      have e : (binAt xPos yPos slopes j).rel (xPos j.castSucc) = 0 := this.rel_x0
      rw [e, this.val_zero, this.ld_zero]; rfl
  rcases eq_or_lt_of_le h1 with h1 | h1
  · have e : (binAt xPos yPos slopes i).rel x = 1 := by rw [h1]; exact (h.good i).rel_x1
    rw [e, (h.good i).val_one, (h.good i).ld_one, h1]
    by_cases hl : i.succ = Fin.last K
    · rw [splineFwd_right (by rw [hl])]
      simp [binAt, hl]
    · obtain ⟨j, hj⟩ := Fin.exists_castSucc_eq.2 hl
      rw [← hj, left j]
      simp [binAt, hj]
  · by_cases hx : x ≤ xPos 0
    · have h2 : i.castSucc = 0 := le_antisymm (h.x.le_iff_le.1 (h0.trans hx)) (Fin.zero_le _)
      have h3 : x = xPos i.castSucc := le_antisymm (by rw [h2]; exact hx) h0
      rw [h3, left i]
      have := h.good i
      have e : (binAt xPos yPos slopes i).rel (xPos i.castSucc) = 0 := this.rel_x0
      rw [e, this.val_zero, this.ld_zero]; rfl
    · exact splineFwd_inner h i h0 h1 (not_le.1 hx)

/-- Two functions that agree with `f` on the two sides of `x` and have the same derivative at `x`. -/
theorem hasDerivAt_glue {f g₁ g₂ : ℝ → ℝ} {x a b f' : ℝ} (ha : a < x) (hb : x < b) (h₁ : ∀ y, a ≤ y → y ≤ x → f y = g₁ y) (h₂ : ∀ y, x ≤ y → y ≤ b → f y = g₂ y)
    (d₁ : HasDerivAt g₁ f' x) (d₂ : HasDerivAt g₂ f' x) : HasDerivAt f f' x := by
  have e1 : HasDerivWithinAt f f' (Set.Icc a x) x := d₁.hasDerivWithinAt.congr (fun y hy => h₁ y hy.1 hy.2) (h₁ x ha.le le_rfl)
  have e2 : HasDerivWithinAt f f' (Set.Icc x b) x := d₂.hasDerivWithinAt.congr (fun y hy => h₂ y hy.1 hy.2) (h₂ x le_rfl hb.le)
  have e3 := e1.union e2
  rw [Set.Icc_union_Icc_eq_Icc ha.le hb.le] at e3
  exact e3.hasDerivAt (Icc_mem_nhds ha hb)

theorem lin_deriv (a s c x : ℝ) : HasDerivAt (fun x : ℝ => (x - a) * s + c) s x := by
  simpa using (((hasDerivAt_id x).sub_const a).mul_const s).add_const c

theorem spline_left_piece (h : ValidKnots xPos yPos slopes) (x : ℝ) : ∃ a g, a < x ∧ (∀ y, a ≤ y → y ≤ x → (splineFwd y xPos yPos slopes).1 = g y) ∧
    HasDerivAt g (Real.exp (splineFwd x xPos yPos slopes).2) x := by
  by_cases h0 : x ≤ xPos 0
  · refine ⟨x - 1, fun y => (y - xPos 0) * slopes 0 + yPos 0, by linarith, fun y _ hy => by rw [splineFwd_left h (hy.trans h0)], ?_⟩
    rw [splineFwd_left h h0, Real.exp_log (h.slope 0)]
    exact lin_deriv _ _ _ _
  · push Not at h0
    by_cases h1 : xPos (Fin.last K) < x
    · refine ⟨xPos (Fin.last K), fun y => (y - xPos (Fin.last K)) * slopes (Fin.last K) + yPos (Fin.last K), h1, fun y hy _ => by rw [splineFwd_right hy], ?_⟩
      rw [splineFwd_right h1.le, Real.exp_log (h.slope _)]
      exact lin_deriv _ _ _ _
    · push Not at h1
      have : ∃ i : Fin K, xPos i.castSucc < x ∧ x ≤ xPos i.succ := by
        rcases eq_or_lt_of_le h1 with h1 | h1
        · obtain ⟨k, rfl⟩ : ∃ k, K = k + 1 := ⟨K - 1, by have := h.bins; omega⟩
          exact ⟨Fin.last k, by rw [h1]; exact h.x (by simp [Fin.lt_def]), by rw [h1]; simp⟩
        · obtain ⟨i, hi1, hi2⟩ := locate xPos x h0.le h1
          rcases eq_or_lt_of_le hi1 with e | e
          · have h00 : (0 : Fin (K + 1)) < i.castSucc := h.x.lt_iff_lt.1 (by rw [e]; exact h0)
            have hpos : 0 < i.1 := by simpa [Fin.lt_def] using h00
            have hi := i.2
            refine ⟨⟨i.1 - 1, by omega⟩, ?_, ?_⟩
            · rw [← e]; exact h.x (by simp only [Fin.lt_def, Fin.val_castSucc]; omega)
            · rw [← e]; exact h.x.monotone (by simp only [Fin.le_def, Fin.val_castSucc, Fin.val_succ]; omega)
          · exact ⟨i, e, hi2.le⟩
      obtain ⟨i, hi0, hi1⟩ := this
      refine ⟨xPos i.castSucc, fun y => (binAt xPos yPos slopes i).val ((binAt xPos yPos slopes i).rel y), hi0,
        fun y hy hy' => by rw [splineFwd_bin h i hy (hy'.trans hi1)], ?_⟩
      rw [splineFwd_bin h i hi0.le hi1]
      exact (h.good i).hasDerivAt (x := x) hi0.le hi1

theorem spline_right_piece (h : ValidKnots xPos yPos slopes) (x : ℝ) : ∃ b g, x < b ∧ (∀ y, x ≤ y → y ≤ b → (splineFwd y xPos yPos slopes).1 = g y) ∧
    HasDerivAt g (Real.exp (splineFwd x xPos yPos slopes).2) x := by
  by_cases h0 : x < xPos 0
  · refine ⟨xPos 0, fun y => (y - xPos 0) * slopes 0 + yPos 0, h0, fun y _ hy => by rw [splineFwd_left h hy], ?_⟩
    rw [splineFwd_left h h0.le, Real.exp_log (h.slope 0)]
    exact lin_deriv _ _ _ _
  · push Not at h0
    by_cases h1 : xPos (Fin.last K) ≤ x
    · refine ⟨x + 1, fun y => (y - xPos (Fin.last K)) * slopes (Fin.last K) + yPos (Fin.last K), by linarith, fun y hy _ => by rw [splineFwd_right (h1.trans hy)], ?_⟩
      rw [splineFwd_right h1, Real.exp_log (h.slope _)]
      exact lin_deriv _ _ _ _
    · push Not at h1
      obtain ⟨i, hi0, hi1⟩ := locate xPos x h0 h1
      refine ⟨xPos i.succ, fun y => (binAt xPos yPos slopes i).val ((binAt xPos yPos slopes i).rel y), hi1,
        fun y hy hy' => by rw [splineFwd_bin h i (hi0.trans hy) hy'], ?_⟩
      rw [splineFwd_bin h i hi0 hi1.le]
      exact (h.good i).hasDerivAt (x := x) hi0 hi1.le

end
end FlowMC
