import Verif.Model.Adam
import Verif.Props.Optimization
import Verif.Spec.Markov
import Mathlib.Tactic.Linarith
import Mathlib.Tactic.FieldSimp
import Mathlib.Tactic.Positivity
import Mathlib.Tactic.NormNum
import Mathlib.Tactic.IntervalCases
import Mathlib.Tactic.Ring
/-
AdamOptimization: how far and in which direction it moves (C77).
-/
set_option linter.unusedSectionVars false
open MeasureTheory ProbabilityTheory
namespace FlowMC
open Spec

variable {D : Type} {d : ℕ}

/-- `x` lies in the box: each coordinate between the end points of the bound that applies to it. -/
def Spec.InBox (bounds : List (ℝ × ℝ)) (x : Fin d → ℝ) : Prop := ∀ (i : Fin d) b, boundOf bounds i = some b → b.1 ≤ x i ∧ x i ≤ b.2

theorem projectionBox_fix (bounds : List (ℝ × ℝ)) (x : Fin d → ℝ) (h : InBox bounds x) : projectionBox bounds x = x := by
  funext i
  have hi := h i
  unfold boundOf at hi
  unfold projectionBox
  split
  · rename_i b hb
    obtain ⟨h1, h2⟩ := hi b hb
    have e1 : fmaxB (x i) b.1 = x i := by unfold fmaxB; rw [if_neg]; simpa using h1
    rw [e1]
    unfold fminB
    rw [if_neg]
    simpa using h2
  · rfl

theorem projectionBox_inBox (bounds : List (ℝ × ℝ)) (hb : ∀ b ∈ bounds, b.1 ≤ b.2) (x : Fin d → ℝ) : InBox bounds (projectionBox bounds x) := by
  intro i b hbi
  have hord : LossOrder ℝ (fun x : ℝ => some x) := by intro a b; simp
  have hmem : b ∈ bounds := by
    unfold boundOf at hbi
    split at hbi <;> exact List.mem_of_getElem? hbi
  have := projectionBox_within (fun x : ℝ => some x) hord bounds x i b hbi _ _ rfl rfl (hb b hmem)
  exact ⟨(this _ rfl).1 _ rfl, (this _ rfl).2 _ rfl⟩

/-- Clipping brings a point no further from a point of the box. -/
theorem projectionBox_dist (bounds : List (ℝ × ℝ)) (x y : Fin d → ℝ) (h : InBox bounds x) (i : Fin d) :
    |projectionBox bounds y i - x i| ≤ |y i - x i| := by
  have hi := h i
  unfold boundOf at hi
  unfold projectionBox
  split
  · rename_i b hb
    obtain ⟨h1, h2⟩ := hi b hb
    have hmax : |fmaxB (y i) b.1 - x i| ≤ |y i - x i| ∧ b.1 ≤ fmaxB (y i) b.1 := by
      unfold fmaxB
      by_cases hc : y i < b.1
      · rw [if_pos (by simpa using hc)]
        refine ⟨?_, le_rfl⟩
        rw [abs_of_nonpos (by linarith), abs_of_nonpos (by linarith)]
        linarith
      · rw [if_neg (by simpa using hc)]
        exact ⟨le_rfl, not_lt.1 hc⟩
    refine le_trans ?_ hmax.1
    generalize fmaxB (y i) b.1 = w at hmax
    unfold fminB
    by_cases hc : b.2 < w
    · rw [if_pos (by simpa using hc)]
      rw [abs_of_nonneg (by linarith), abs_of_nonneg (by linarith)]
      linarith
    · rw [if_neg (by simpa using hc)]
  · exact le_rfl

/-- The first moment stays below a multiple of the square root of the second. -/
def AdamOk (s : AdamState (Fin d)) : Prop := ∀ i, 0 ≤ s.nu i ∧ s.mu i ^ 2 ≤ 53 * s.nu i

theorem adamOk_init : AdamOk (AdamState.init : AdamState (Fin d)) := fun i => by simp [AdamState.init]

theorem adamOk_update (lr : ℝ) (g x : Fin d → ℝ) (s : AdamState (Fin d)) (h : AdamOk s) : AdamOk (((adamSolver lr).update g s x).2 : AdamState (Fin d)) := by
  intro i
  obtain ⟨h0, h1⟩ := h i
  show 0 ≤ 999 / 1000 * s.nu i + (1 - 999 / 1000) * g i ^ 2 ∧ (9 / 10 * s.mu i + (1 - 9 / 10) * g i) ^ 2 ≤ 53 * (999 / 1000 * s.nu i + (1 - 999 / 1000) * g i ^ 2)
  refine ⟨by positivity, ?_⟩
  nlinarith [sq_nonneg (189 * (9 * s.mu i) - 811 * g i), sq_nonneg (g i), sq_nonneg (s.mu i)]

theorem bias_le (t : ℕ) (ht : 0 < t) : 1 - (999 / 1000 : ℝ) ^ t ≤ (1 - (9 / 10) ^ t) ^ 2 := by
  by_cases h : t < 10
  · interval_cases t <;> norm_num
  · have key : ∀ n : ℕ, 2 * (9 / 10 : ℝ) ^ (10 + n) ≤ (999 / 1000) ^ (10 + n) := by
      intro n
      rw [pow_add, pow_add]
      have e1 : (9 / 10 : ℝ) ^ n ≤ (999 / 1000) ^ n := pow_le_pow_left₀ (by norm_num) (by norm_num) n
      have e2 : 2 * (9 / 10 : ℝ) ^ 10 ≤ (999 / 1000) ^ 10 := by norm_num
      have e3 : (0 : ℝ) ≤ (9 / 10 : ℝ) ^ n := by positivity
      have e4 : (0 : ℝ) ≤ (999 / 1000 : ℝ) ^ 10 := by positivity
      nlinarith
    have := key (t - 10)
    rw [show 10 + (t - 10) = t by omega] at this
    nlinarith [sq_nonneg ((9 / 10 : ℝ) ^ t)]

/-- A bound on the Adam direction. -/
theorem adam_dir (m v : ℝ) (t : ℕ) (ht : 0 < t) (hv : 0 ≤ v) (hm : m ^ 2 ≤ 53 * v) :
    |(m / (1 - (9 / 10) ^ t)) / (Real.sqrt (v / (1 - (999 / 1000) ^ t)) + 1 / 10 ^ 8)| ≤ 73 / 10 := by
  have h1 : (0 : ℝ) < 1 - (9 / 10) ^ t := by
    have : (9 / 10 : ℝ) ^ t < 1 := pow_lt_one₀ (by norm_num) (by norm_num) (by omega)
    linarith
  have h2 : (0 : ℝ) < 1 - (999 / 1000) ^ t := by
    have : (999 / 1000 : ℝ) ^ t < 1 := pow_lt_one₀ (by norm_num) (by norm_num) (by omega)
    linarith
  have hb := bias_le t ht
  set A : ℝ := 1 - (9 / 10) ^ t
  set B : ℝ := 1 - (999 / 1000) ^ t
  have hs : 0 ≤ Real.sqrt (v / B) := Real.sqrt_nonneg _
  rw [abs_div, abs_of_pos (show (0 : ℝ) < Real.sqrt (v / B) + 1 / 10 ^ 8 by positivity), div_le_iff₀ (by positivity)]
  have key : |m / A| ≤ 73 / 10 * Real.sqrt (v / B) := by
    apply abs_le_of_sq_le_sq _ (by positivity)
    rw [mul_pow, Real.sq_sqrt (by positivity), div_pow, div_le_iff₀ (by positivity)]
    have : v ≤ v / B * A ^ 2 := by
      rw [div_mul_eq_mul_div, le_div_iff₀ h2]
      exact mul_le_mul_of_nonneg_left hb hv
    nlinarith
  have : (0 : ℝ) ≤ 73 / 10 * (1 / 10 ^ 8) := by positivity
  linarith

variable (logpdf : Target ℝ D d) (lr noise : ℝ) (bounds : List (ℝ × ℝ)) (rng : Rng ℝ) (data : Data D)

theorem adam_kernel_move (n : ℕ) (hlr : 0 ≤ lr) (c : Key × (Fin d → ℝ) × AdamState (Fin d)) (hc : InBox bounds c.2.1) (hok : AdamOk c.2.2) (i : Fin d) :
    |((adamOptimization logpdf n lr noise bounds).kernel rng data c).2.1 i - c.2.1 i| ≤ 73 / 10 * lr := by
  unfold AdamOptimization.kernel
  dsimp only
  refine (projectionBox_dist bounds c.2.1 _ hc i).trans ?_
  simp only [add_sub_cancel_left]
  set g : Pos ℝ d := fun i => -((adamOptimization logpdf n lr noise bounds).logpdf.grad c.2.1 data i) *
    (1 + rng.normal (split c.1).2 1 0 * (adamOptimization logpdf n lr noise bounds).noiseLevel)
  have ho := adamOk_update lr g c.2.1 c.2.2 hok i
  have := adam_dir (9 / 10 * c.2.2.mu i + (1 - 9 / 10) * g i) (999 / 1000 * c.2.2.nu i + (1 - 999 / 1000) * g i ^ 2) (c.2.2.count + 1) (by omega) ho.1 ho.2
  show |-lr * _| ≤ _
  rw [abs_mul, abs_neg, abs_of_nonneg hlr, mul_comm]
  exact mul_le_mul_of_nonneg_right this hlr

theorem adam_kernel_inv (n : ℕ) (hb : ∀ b ∈ bounds, b.1 ≤ b.2) (c : Key × (Fin d → ℝ) × AdamState (Fin d)) (hok : AdamOk c.2.2) :
    InBox bounds ((adamOptimization logpdf n lr noise bounds).kernel rng data c).2.1 ∧
    AdamOk (((adamOptimization logpdf n lr noise bounds).kernel rng data c).2.2 : AdamState (Fin d)) := by
  unfold AdamOptimization.kernel
  dsimp only
  exact ⟨projectionBox_inBox bounds hb _, adamOk_update lr _ c.2.1 _ hok⟩

theorem adam_repeat (n : ℕ) (hb : ∀ b ∈ bounds, b.1 ≤ b.2) (hlr : 0 ≤ lr) (c : Key × (Fin d → ℝ) × AdamState (Fin d)) (hc : InBox bounds c.2.1) (hok : AdamOk c.2.2) :
    ∀ m : ℕ, InBox bounds (Nat.repeat ((adamOptimization logpdf n lr noise bounds).kernel rng data) m c).2.1 ∧
      AdamOk ((Nat.repeat ((adamOptimization logpdf n lr noise bounds).kernel rng data) m c).2.2 : AdamState (Fin d)) ∧
      ∀ i, |(Nat.repeat ((adamOptimization logpdf n lr noise bounds).kernel rng data) m c).2.1 i - c.2.1 i| ≤ m * (73 / 10 * lr)
  | 0 => ⟨hc, hok, fun i => by simp [Nat.repeat]⟩
  | m + 1 => by
    obtain ⟨h1, h2, h3⟩ := adam_repeat n hb hlr c hc hok m
    simp only [Nat.repeat]
    refine ⟨(adam_kernel_inv logpdf lr noise bounds rng data n hb _ h2).1, (adam_kernel_inv logpdf lr noise bounds rng data n hb _ h2).2, fun i => ?_⟩
    have := adam_kernel_move logpdf lr noise bounds rng data n hlr _ h1 h2 i
    have h4 := h3 i
    push_cast
    calc _ ≤ _ := abs_sub_le _ ((Nat.repeat ((adamOptimization logpdf n lr noise bounds).kernel rng data) m c).2.1 i) _
      _ ≤ 73 / 10 * lr + m * (73 / 10 * lr) := add_le_add this h4
      _ = _ := by ring

theorem adam_out {n : ℕ} {k : Key} {xs : List (Pos ℝ d)} {k' : Key} {ys : List (Pos ℝ d)} {lps : List ℝ}
    (hrun : (adamOptimization logpdf n lr noise bounds).optimize rng data k xs = .ok (k', ys, lps)) (j : ℕ) (x y : Pos ℝ d) (hx : xs[j]? = some x) (hy : ys[j]? = some y) :
    y = (adamOptimization logpdf n lr noise bounds).single rng data (.child (.child k 1) j) x := by
  unfold AdamOptimization.optimize at hrun
  split at hrun
  · simp only [Except.ok.injEq, Prod.mk.injEq] at hrun
    obtain ⟨_, rfl, _⟩ := hrun
    have hj : j < xs.length := (List.getElem?_eq_some_iff.1 hx).1
    simp only [List.getElem?_map, List.getElem?_zip_eq_some, Option.map_eq_some_iff, Prod.exists, splitN, split] at hy
    obtain ⟨kk, xx, ⟨h1, h2⟩, rfl⟩ := hy
    rw [hx] at h2
    cases h2
    rw [List.getElem?_range hj] at h1
    obtain ⟨a, ha, rfl⟩ := h1
    cases ha
    rfl
  · cases hrun

/-- **C77, travel.** Started in the box, the optimiser leaves every coordinate of every chain within `7.3 · learning_rate · n_steps` of where it was: for every
log-density and gradient however steep, noise level, noise, number of steps and bounds. -/
theorem C77_travel (n : ℕ) (hb : ∀ b ∈ bounds, b.1 ≤ b.2) (hlr : 0 ≤ lr) (k : Key) (xs : List (Pos ℝ d)) (k' : Key) (ys : List (Pos ℝ d)) (lps : List ℝ)
    (hrun : (adamOptimization logpdf n lr noise bounds).optimize rng data k xs = .ok (k', ys, lps)) (j : ℕ) (x y : Pos ℝ d) (hx : xs[j]? = some x) (hy : ys[j]? = some y)
    (hin : InBox bounds x) (i : Fin d) : |y i - x i| ≤ n * (73 / 10 * lr) := by
  rw [adam_out logpdf lr noise bounds rng data hrun j x y hx hy]
  exact (adam_repeat logpdf lr noise bounds rng data n hb hlr (_, x, AdamState.init) hin adamOk_init n).2.2 i

/-- **C77, stationary points.** A chain started in the box where the gradient vanishes is returned unchanged, whatever the noise: the noise multiplies the gradient. -/
theorem C77_stationary (n : ℕ) (k : Key) (xs : List (Pos ℝ d)) (k' : Key) (ys : List (Pos ℝ d)) (lps : List ℝ)
    (hrun : (adamOptimization logpdf n lr noise bounds).optimize rng data k xs = .ok (k', ys, lps)) (j : ℕ) (x y : Pos ℝ d) (hx : xs[j]? = some x) (hy : ys[j]? = some y)
    (hin : InBox bounds x) (hg : ∀ i, logpdf.grad x data i = 0) : y = x := by
  rw [adam_out logpdf lr noise bounds rng data hrun j x y hx hy]
  suffices h : ∀ m, (Nat.repeat ((adamOptimization logpdf n lr noise bounds).kernel rng data) m (.child (.child k 1) j, x, AdamState.init)).2.1 = x ∧
      ∀ i, ((Nat.repeat ((adamOptimization logpdf n lr noise bounds).kernel rng data) m (.child (.child k 1) j, x, AdamState.init)).2.2 : AdamState (Fin d)).mu i = 0 from (h n).1
  intro m
  induction m with
  | zero => exact ⟨rfl, fun i => rfl⟩
  | succ m ih =>
    simp only [Nat.repeat]
    generalize Nat.repeat ((adamOptimization logpdf n lr noise bounds).kernel rng data) m (.child (.child k 1) j, x, AdamState.init) = c at ih
    obtain ⟨h1, h2⟩ := ih
    obtain ⟨ck, cx, cs⟩ := c
    simp only at h1 h2
    subst h1
    unfold AdamOptimization.kernel
    constructor
    · show projectionBox bounds _ = _
      rw [show (fun i => cx i + ((adamOptimization logpdf n lr noise bounds).solver.update (fun i => -((adamOptimization logpdf n lr noise bounds).logpdf.grad cx data i) *
        (1 + rng.normal (split ck).2 1 0 * (adamOptimization logpdf n lr noise bounds).noiseLevel)) cs cx).1 i) = cx from ?_]
      · exact projectionBox_fix bounds cx hin
      · funext i
        simp [adamOptimization, adamSolver, hg i, h2 i]
    · intro i
      show 9 / 10 * cs.mu i + (1 - 9 / 10) * (-(logpdf.grad cx data i) * _) = 0
      rw [h2 i, hg i]
      ring

/-- The number by which the gradient of chain `j` is multiplied in the first step: `1 + noise_level · z`, with one standard normal number per chain and step. -/
noncomputable def Spec.firstFactor (rng : Rng ℝ) (noise : ℝ) (k : Key) (j : ℕ) : ℝ := 1 + rng.normal (.child (.child (.child k 1) j) 1) 1 0 * noise

/-- **C77, first step.** If the box leaves room, one step moves every coordinate by `learning_rate · s·g / (|s·g| + 1e-8)`, where `g` is the derivative of the
log-density in this coordinate and `s = 1 + noise_level · z`: by less than the learning rate, uphill if `s > 0`, downhill if `s < 0`. -/
theorem C77_first_step (k : Key) (xs : List (Pos ℝ d)) (k' : Key) (ys : List (Pos ℝ d)) (lps : List ℝ) (hlr : 0 < lr)
    (hrun : (adamOptimization logpdf 1 lr noise bounds).optimize rng data k xs = .ok (k', ys, lps)) (j : ℕ) (x y : Pos ℝ d) (hx : xs[j]? = some x) (hy : ys[j]? = some y)
    (hroom : ∀ z : Fin d → ℝ, (∀ i, |z i - x i| ≤ lr) → InBox bounds z) (i : Fin d) :
    y i = x i + lr * (firstFactor rng noise k j * logpdf.grad x data i / (|firstFactor rng noise k j * logpdf.grad x data i| + 1 / 10 ^ 8)) := by
  rw [adam_out logpdf lr noise bounds rng data hrun j x y hx hy]
  have hone : ∀ g : ℝ, -lr * ((9 / 10 * 0 + (1 - 9 / 10) * g) / (1 - (9 / 10) ^ (0 + 1)) / (Real.sqrt ((999 / 1000 * 0 + (1 - 999 / 1000) * g ^ 2) / (1 - (999 / 1000) ^ (0 + 1))) + 1 / 10 ^ 8)) =
      -lr * (g / (|g| + 1 / 10 ^ 8)) := by
    intro g
    have e1 : (9 / 10 * 0 + (1 - 9 / 10) * g) / (1 - (9 / 10) ^ (0 + 1)) = g := by norm_num
    have e2 : (999 / 1000 * 0 + (1 - 999 / 1000) * g ^ 2) / (1 - (999 / 1000) ^ (0 + 1)) = g ^ 2 := by norm_num
    rw [e1, e2, Real.sqrt_sq_eq_abs]
  have hk : ((adamOptimization logpdf 1 lr noise bounds).single rng data (.child (.child k 1) j) x) =
      projectionBox bounds (fun i => x i + lr * (firstFactor rng noise k j * logpdf.grad x data i / (|firstFactor rng noise k j * logpdf.grad x data i| + 1 / 10 ^ 8))) := by
    unfold AdamOptimization.single
    show projectionBox bounds _ = _
    congr 1
    funext i
    show x i + -lr * ((9 / 10 * 0 + (1 - 9 / 10) * (-(logpdf.grad x data i) * firstFactor rng noise k j)) / (1 - (9 / 10) ^ (0 + 1)) /
      (Real.sqrt ((999 / 1000 * 0 + (1 - 999 / 1000) * (-(logpdf.grad x data i) * firstFactor rng noise k j) ^ 2) / (1 - (999 / 1000) ^ (0 + 1))) + 1 / 10 ^ 8)) = _
    rw [hone, show -(logpdf.grad x data i) * firstFactor rng noise k j = -(firstFactor rng noise k j * logpdf.grad x data i) by ring, abs_neg, neg_div]
    ring
  rw [hk, projectionBox_fix]
  apply hroom
  intro i
  rw [add_sub_cancel_left, abs_mul, abs_of_pos hlr, abs_div]
  set s := firstFactor rng noise k j * logpdf.grad x data i
  have hs : 0 < abs s + 1 / 10 ^ 8 := by positivity
  have : abs s / abs (abs s + 1 / 10 ^ 8) ≤ 1 := by
    rw [abs_of_pos hs, div_le_one hs]
    have : (0 : ℝ) ≤ 1 / 10 ^ 8 := by positivity
    linarith
  nlinarith

/-- The direction of the first step: the sign of `(1 + noise_level · z) · derivative`. -/
theorem C77_direction (k : Key) (xs : List (Pos ℝ d)) (k' : Key) (ys : List (Pos ℝ d)) (lps : List ℝ) (hlr : 0 < lr)
    (hrun : (adamOptimization logpdf 1 lr noise bounds).optimize rng data k xs = .ok (k', ys, lps)) (j : ℕ) (x y : Pos ℝ d) (hx : xs[j]? = some x) (hy : ys[j]? = some y)
    (hroom : ∀ z : Fin d → ℝ, (∀ i, |z i - x i| ≤ lr) → InBox bounds z) (i : Fin d) :
    (0 < (y i - x i) * logpdf.grad x data i ↔ 0 < firstFactor rng noise k j ∧ logpdf.grad x data i ≠ 0) ∧
    ((y i - x i) * logpdf.grad x data i < 0 ↔ firstFactor rng noise k j < 0 ∧ logpdf.grad x data i ≠ 0) := by
  rw [C77_first_step logpdf lr noise bounds rng data k xs k' ys lps hlr hrun j x y hx hy hroom i, add_sub_cancel_left]
  set s := firstFactor rng noise k j
  set g := logpdf.grad x data i
  have hden : 0 < |s * g| + 1 / 10 ^ 8 := by positivity
  have e : lr * (s * g / (|s * g| + 1 / 10 ^ 8)) * g = s * (lr * g ^ 2 / (|s * g| + 1 / 10 ^ 8)) := by ring
  rw [e]
  by_cases hg : g = 0
  · simp [hg]
  · have hp : 0 < lr * g ^ 2 / (|s * g| + 1 / 10 ^ 8) := by positivity
    constructor
    · rw [mul_pos_iff_of_pos_right hp]; simp [hg]
    · simp only [hg, ne_eq, not_false_eq_true, and_true]
      constructor
      · intro h; by_contra hc; push_neg at hc; exact absurd h (not_lt.2 (mul_nonneg hc hp.le))
      · intro h; exact mul_neg_of_neg_of_pos h hp

theorem gauss_Iio_pos (c : ℝ) : 0 < gaussianReal 0 1 (Set.Iio c) := by
  apply pos_iff_ne_zero.2
  intro h
  have := (gaussianReal_absolutelyContinuous' 0 (one_ne_zero)) h
  simp at this

theorem gauss_lt_half (c : ℝ) (hc : 0 < c) : gaussianReal 0 1 (Set.Iio (-c)) < gaussianReal 0 1 (Set.Ioi (-c)) := by
  have hsym : gaussianReal 0 1 (Set.Iio (-c)) = gaussianReal 0 1 (Set.Ioi c) := by
    have h : (gaussianReal 0 1).map (fun x => -x) = gaussianReal 0 1 := by simpa using gaussianReal_map_neg (μ := 0) (v := 1)
    conv_lhs => rw [← h]
    rw [Measure.map_apply (by fun_prop) measurableSet_Iio]
    congr 1
    ext x
    simp
  rw [hsym]
  have hsplit : Set.Ioi (-c) = Set.Ioc (-c) c ∪ Set.Ioi c := (Set.Ioc_union_Ioi_eq_Ioi (by linarith)).symm
  rw [hsplit, measure_union (by rw [Set.disjoint_left]; intro x hx hx'; exact absurd hx.2 (not_le.2 hx')) measurableSet_Ioi]
  have hpos : 0 < gaussianReal 0 1 (Set.Ioc (-c) c) := by
    apply pos_iff_ne_zero.2
    intro h
    have := (gaussianReal_absolutelyContinuous' 0 (one_ne_zero)) h
    simp at this
    linarith
  rw [add_comm]
  exact ENNReal.lt_add_right (measure_ne_top _ _) hpos.ne'

/-- **C77, noise.** When `jax.random.normal` is standard normal and `noise_level > 0`, the first step of a chain goes downhill in every coordinate with a nonzero
derivative with probability `Φ(-1/noise_level) > 0`, and uphill with probability `Φ(1/noise_level)`, which is larger.  With the default `noise_level = 10`
the two probabilities are `Φ(-0.1)` and `Φ(0.1)`. -/
theorem C77_noise {Ω : Type} [MeasurableSpace Ω] (P : Measure Ω) (rngs : Ω → Rng ℝ) (hm : ∀ k, Measurable (fun ω => (rngs ω).normal k 1 0))
    (hlaw : ∀ k, P.map (fun ω => (rngs ω).normal k 1 0) = gaussianReal 0 1) (hnoise : 0 < noise) (hlr : 0 < lr) (hlen : bounds.length = 1 ∨ bounds.length = d) (k : Key)
    (xs : List (Pos ℝ d)) (j : ℕ) (x : Pos ℝ d) (hx : xs[j]? = some x) (hroom : ∀ z : Fin d → ℝ, (∀ i, |z i - x i| ≤ lr) → InBox bounds z) (i : Fin d)
    (hg : logpdf.grad x data i ≠ 0) :
    ∃ out : Ω → List (Pos ℝ d), (∀ ω, ∃ k' lps, (adamOptimization logpdf 1 lr noise bounds).optimize (rngs ω) data k xs = .ok (k', out ω, lps)) ∧
      P {ω | ∃ y, (out ω)[j]? = some y ∧ (y i - x i) * logpdf.grad x data i < 0} = gaussianReal 0 1 (Set.Iio (-(1 / noise))) ∧
      P {ω | ∃ y, (out ω)[j]? = some y ∧ 0 < (y i - x i) * logpdf.grad x data i} = gaussianReal 0 1 (Set.Ioi (-(1 / noise))) ∧
      0 < gaussianReal 0 1 (Set.Iio (-(1 / noise))) ∧ gaussianReal 0 1 (Set.Iio (-(1 / noise))) < gaussianReal 0 1 (Set.Ioi (-(1 / noise))) := by
  set a := adamOptimization logpdf 1 lr noise bounds
  have hrun : ∀ ω, a.optimize (rngs ω) data k xs = .ok (.child k 0, ((splitN (.child k 1) xs.length).zip xs).map (fun p => a.single (rngs ω) data p.1 p.2),
      (((splitN (.child k 1) xs.length).zip xs).map (fun p => a.single (rngs ω) data p.1 p.2)).map (fun x => a.logpdf.val x data)) := by
    intro ω
    unfold AdamOptimization.optimize
    rw [if_pos (show a.bounds.length = 1 ∨ a.bounds.length = d from hlen)]
    rfl
  have hj : j < xs.length := (List.getElem?_eq_some_iff.1 hx).1
  have hy : ∀ ω, (((splitN (.child k 1) xs.length).zip xs).map (fun p => a.single (rngs ω) data p.1 p.2))[j]? = some (a.single (rngs ω) data (.child (.child k 1) j) x) := by
    intro ω
    have hkj : (splitN (.child k 1) xs.length)[j]? = some (.child (.child k 1) j) := by simp [splitN, hj]
    rw [List.getElem?_map, show ((splitN (.child k 1) xs.length).zip xs)[j]? = some (.child (.child k 1) j, x) from by
      rw [List.getElem?_zip_eq_some]; exact ⟨hkj, hx⟩]
    rfl
  have hdir := fun ω => C77_direction logpdf lr noise bounds (rngs ω) data k xs _ _ _ hlr (hrun ω) j x _ hx (hy ω) hroom i
  refine ⟨_, fun ω => ⟨_, _, hrun ω⟩, ?_, ?_, gauss_Iio_pos _, gauss_lt_half _ (by positivity)⟩
  · rw [← hlaw (.child (.child (.child k 1) j) 1), Measure.map_apply (hm _) measurableSet_Iio]
    congr 1
    ext ω
    simp only [Set.mem_setOf_eq, Set.mem_preimage, Set.mem_Iio, hy, Option.some.injEq, exists_eq_left', (hdir ω).2, hg, ne_eq, not_false_eq_true, and_true, firstFactor]
    rw [lt_neg, div_lt_iff₀ hnoise]
    constructor <;> intro h <;> linarith
  · rw [← hlaw (.child (.child (.child k 1) j) 1), Measure.map_apply (hm _) measurableSet_Ioi]
    congr 1
    ext ω
    simp only [Set.mem_setOf_eq, Set.mem_preimage, Set.mem_Ioi, hy, Option.some.injEq, exists_eq_left', (hdir ω).1, hg, ne_eq, not_false_eq_true, and_true, firstFactor]
    rw [neg_lt, lt_div_iff₀ hnoise]
    constructor <;> intro h <;> linarith

/-- A case that meets the hypotheses: the log-density `-x²` from `1`, in the box `[-5, 5]`, with the default learning rate and noise level; the gradient is not zero. -/
example : ∃ (t : Target ℝ Unit 1) (x : Pos ℝ 1), (∀ z : Fin 1 → ℝ, (∀ i, |z i - x i| ≤ 1 / 100) → InBox [(-5, 5)] z) ∧ InBox [(-5, 5)] x ∧
    t.grad x ⟨(), none⟩ 0 ≠ 0 ∧ (∃ k' ys lps, (adamOptimization t 100 (1 / 100) 10 [(-5, 5)]).optimize ⟨fun _ _ _ => 0, fun _ => 0, fun _ _ => [], fun _ _ _ => []⟩ ⟨(), none⟩
      (Key.root 1) [x] = .ok (k', ys, lps)) := by
  refine ⟨⟨fun x _ => -(x 0) ^ 2, fun x _ i => -2 * x i⟩, fun _ => 1, ?_, ?_, by norm_num, _, _, _, rfl⟩
  · intro z hz i b hb
    simp [boundOf] at hb
    subst hb
    have := abs_le.1 (hz i)
    constructor <;> linarith
  · intro i b hb
    simp [boundOf] at hb
    subst hb
    norm_num

end FlowMC
