import Verif.Spec.Climb
import Verif.Props.Adam
import Verif.Props.AdamDraws
import Mathlib.Analysis.Calculus.FDeriv.Comp
import Mathlib.Analysis.Calculus.Deriv.Slope
import Mathlib.Analysis.Calculus.Deriv.Comp
import Mathlib.Algebra.Field.GeomSum
/-
C114: optimisation with a small learning rate climbs.
-/
open Filter
open scoped Topology
set_option linter.unusedSectionVars false
namespace FlowMC
open Spec
noncomputable section

variable {D : Type} {d : ℕ}

theorem weights_sum {β : ℝ} (hβ : β ≠ 1) (n : ℕ) : ∑ s ∈ Finset.range n, β ^ (n - 1 - s) = (1 - β ^ n) / (1 - β) := by
  rw [Finset.sum_range_reflect (fun s => β ^ s) n, geom_sum_eq hβ, ← neg_div_neg_eq]
  congr 1 <;> ring

/-- Moment of Adam after `n` steps: not corrected for the bias. -/
def rawAvg (β : ℝ) (w : ℕ → ℝ) (n : ℕ) : ℝ := (1 - β) * ∑ s ∈ Finset.range n, β ^ (n - 1 - s) * w s

theorem rawAvg_succ (β : ℝ) (w : ℕ → ℝ) (n : ℕ) : rawAvg β w (n + 1) = β * rawAvg β w n + (1 - β) * w n := by
  have : ∑ s ∈ Finset.range n, β ^ (n + 1 - 1 - s) * w s = β * ∑ s ∈ Finset.range n, β ^ (n - 1 - s) * w s := by
    rw [Finset.mul_sum]
    refine Finset.sum_congr rfl fun s hs => ?_
    have := Finset.mem_range.1 hs
    rw [show n + 1 - 1 - s = (n - 1 - s) + 1 by omega, pow_succ]; ring
  rw [rawAvg, Finset.sum_range_succ, this, rawAvg]
  simp only [Nat.add_sub_cancel, Nat.sub_self, pow_zero]
  ring

theorem rawAvg_corrected {β : ℝ} (hβ : β < 1) (hβ0 : 0 < β) (w : ℕ → ℝ) (n : ℕ) (hn : 0 < n) : rawAvg β w n / (1 - β ^ n) = expAvg β w n := by
  have h1 : 1 - β ≠ 0 := by linarith
  have h2 : 1 - β ^ n ≠ 0 := by have := pow_lt_one₀ hβ0.le hβ hn.ne'; linarith
  rw [expAvg, weights_sum hβ.ne, rawAvg]
  field_simp

theorem room_ball {bounds : List (ℝ × ℝ)} {x : Fin d → ℝ} (h : Room bounds x) : ∀ᶠ y in 𝓝 x, InBox bounds y := by
  have : ∀ i : Fin d, ∀ᶠ y : Fin d → ℝ in 𝓝 x, ∀ b, boundOf bounds i = some b → b.1 ≤ y i ∧ y i ≤ b.2 := by
    intro i
    cases hb : boundOf bounds i with
    | none => exact Eventually.of_forall fun y b h => by cases h
    | some b =>
      obtain ⟨h1, h2⟩ := h i b hb
      have c : Tendsto (fun y : Fin d → ℝ => y i) (𝓝 x) (𝓝 (x i)) := (continuous_apply i).continuousAt
      filter_upwards [c.eventually (lt_mem_nhds h1), c.eventually (gt_mem_nhds h2)] with y e1 e2 b' hb'
      cases hb'
      exact ⟨e1.le, e2.le⟩
  filter_upwards [eventually_all.2 this] with y hy i b hb using hy i b hb

variable (logpdf : Target ℝ D d) (noise : ℝ) (bounds : List (ℝ × ℝ)) (data : Data D) (z : ℕ → ℝ) (x : Fin d → ℝ)

/-- A small number of steps, to first order in the learning rate. -/
theorem descent_small (N : ℕ) (hg : ContinuousAt (fun y => logpdf.grad y data) x) (hroom : Room bounds x) (n : ℕ) :
    (∀ lr, ((noisyDescent (adamOptimization logpdf N lr noise bounds) data z x n).2 : AdamState (Fin d)).count = n) ∧
    (∀ i, Tendsto (fun lr => ((noisyDescent (adamOptimization logpdf N lr noise bounds) data z x n).2 : AdamState (Fin d)).mu i) (𝓝[>] 0)
      (𝓝 (-(logpdf.grad x data i) * rawAvg (9 / 10) (fun s => 1 + z s * noise) n))) ∧
    (∀ i, Tendsto (fun lr => ((noisyDescent (adamOptimization logpdf N lr noise bounds) data z x n).2 : AdamState (Fin d)).nu i) (𝓝[>] 0)
      (𝓝 (logpdf.grad x data i ^ 2 * rawAvg (999 / 1000) (fun s => (1 + z s * noise) ^ 2) n))) ∧
    (∀ i, Tendsto (fun lr => ((noisyDescent (adamOptimization logpdf N lr noise bounds) data z x n).1 i - x i) / lr) (𝓝[>] 0) (𝓝 (pace (fun s => 1 + z s * noise) n (logpdf.grad x data i)))) := by
  induction n with
  | zero =>
    refine ⟨fun lr => rfl, fun i => ?_, fun i => ?_, fun i => ?_⟩
    · simp [noisyDescent, rawAvg, adamOptimization, adamSolver, AdamState.init]
    · simp [noisyDescent, rawAvg, adamOptimization, adamSolver, AdamState.init]
    · simp [noisyDescent, pace]
  | succ n ih =>
    obtain ⟨hc, hmu, hnu, hp⟩ := ih
    set p := fun lr => noisyDescent (adamOptimization logpdf N lr noise bounds) data z x n with hpd
    have hlr : Tendsto (fun lr : ℝ => lr) (𝓝[>] 0) (𝓝 0) := tendsto_nhdsWithin_of_tendsto_nhds tendsto_id
    have hpos : Tendsto (fun lr => (p lr).1) (𝓝[>] 0) (𝓝 x) := by
      refine tendsto_pi_nhds.2 fun i => ?_
      have e := ((hp i).mul hlr).add (tendsto_const_nhds (x := x i))
      rw [mul_zero, zero_add] at e
      refine e.congr' ?_
      filter_upwards [self_mem_nhdsWithin] with lr hl
      have : lr ≠ 0 := (Set.mem_Ioi.1 hl).ne'
      field_simp
      ring
    set w : ℕ → ℝ := fun s => 1 + z s * noise with hw
    have hgr : ∀ i, Tendsto (fun lr => -(logpdf.grad (p lr).1 data i) * w n) (𝓝[>] 0) (𝓝 (-(logpdf.grad x data i) * w n)) := fun i =>
      (((tendsto_pi_nhds.1 (hg.tendsto.comp hpos)) i).neg).mul_const _
    have hmu' : ∀ i, Tendsto (fun lr => 9 / 10 * ((p lr).2 : AdamState (Fin d)).mu i + (1 - 9 / 10) * (-(logpdf.grad (p lr).1 data i) * w n)) (𝓝[>] 0)
        (𝓝 (-(logpdf.grad x data i) * rawAvg (9 / 10) w (n + 1))) := fun i => by
      have := ((hmu i).const_mul (9 / 10)).add ((hgr i).const_mul (1 - 9 / 10))
      rw [rawAvg_succ]
      refine this.congr' (by rfl) |>.trans (le_of_eq ?_)
      congr 1; ring
    have hnu' : ∀ i, Tendsto (fun lr => 999 / 1000 * ((p lr).2 : AdamState (Fin d)).nu i + (1 - 999 / 1000) * (-(logpdf.grad (p lr).1 data i) * w n) ^ 2) (𝓝[>] 0)
        (𝓝 (logpdf.grad x data i ^ 2 * rawAvg (999 / 1000) (fun s => w s ^ 2) (n + 1))) := fun i => by
      have := ((hnu i).const_mul (999 / 1000)).add (((hgr i).pow 2).const_mul (1 - 999 / 1000))
      rw [rawAvg_succ]
      refine this.congr' (by rfl) |>.trans (le_of_eq ?_)
      congr 1; ring
    refine ⟨fun lr => ?_, hmu', hnu', fun i => ?_⟩
    · show (p lr).2.count + 1 = n + 1
      rw [hc]
    set dir : ℝ → Fin d → ℝ := fun lr i => ((9 / 10 * ((p lr).2 : AdamState (Fin d)).mu i + (1 - 9 / 10) * (-(logpdf.grad (p lr).1 data i) * w n)) / (1 - (9 / 10) ^ (n + 1))) /
      (Real.sqrt ((999 / 1000 * ((p lr).2 : AdamState (Fin d)).nu i + (1 - 999 / 1000) * (-(logpdf.grad (p lr).1 data i) * w n) ^ 2) / (1 - (999 / 1000) ^ (n + 1))) + 1 / 10 ^ 8) with hdir
    have hd : ∀ i, Tendsto (fun lr => dir lr i) (𝓝[>] 0) (𝓝 (-(expAvg (9 / 10) w (n + 1) * logpdf.grad x data i /
        (Real.sqrt (expAvg (999 / 1000) (fun r => w r ^ 2) (n + 1)) * |logpdf.grad x data i| + 1 / 10 ^ 8)))) := fun i => by
      have hden : Real.sqrt (logpdf.grad x data i ^ 2 * rawAvg (999 / 1000) (fun s => w s ^ 2) (n + 1) / (1 - (999 / 1000) ^ (n + 1))) + 1 / 10 ^ 8 ≠ 0 := by positivity
      have := ((hmu' i).div_const (1 - (9 / 10) ^ (n + 1))).div ((((hnu' i).div_const (1 - (999 / 1000) ^ (n + 1))).sqrt).add_const (1 / 10 ^ 8)) hden
      refine this.trans (le_of_eq ?_)
      congr 1
      rw [mul_div_assoc, rawAvg_corrected (by norm_num) (by norm_num) _ _ (by omega), mul_div_assoc (logpdf.grad x data i ^ 2), rawAvg_corrected (by norm_num) (by norm_num) _ _ (by omega),
        Real.sqrt_mul (sq_nonneg _), Real.sqrt_sq_eq_abs, neg_mul, neg_div]
      rw [mul_comm (logpdf.grad x data i), mul_comm |logpdf.grad x data i|]
    have hpar : Tendsto (fun lr => fun i => (p lr).1 i + -lr * dir lr i) (𝓝[>] 0) (𝓝 x) := by
      refine tendsto_pi_nhds.2 fun i => ?_
      have := ((tendsto_pi_nhds.1 hpos) i).add (hlr.neg.mul (hd i))
      simpa using this
    have hbox := hpar.eventually (room_ball hroom)
    have key : (fun lr => ((p lr).1 i - x i) / lr - dir lr i) =ᶠ[𝓝[>] 0] fun lr => ((noisyDescent (adamOptimization logpdf N lr noise bounds) data z x (n + 1)).1 i - x i) / lr := by
      filter_upwards [hbox, self_mem_nhdsWithin] with lr hb hl
      have hl0 : lr ≠ 0 := (Set.mem_Ioi.1 hl).ne'
      have e : (noisyDescent (adamOptimization logpdf N lr noise bounds) data z x (n + 1)).1 = projectionBox bounds (fun i => (p lr).1 i + -lr * dir lr i) := by
        show projectionBox bounds _ = _
        congr 1
        funext i
        show (p lr).1 i + -lr * (((9 / 10 * ((p lr).2 : AdamState (Fin d)).mu i + (1 - 9 / 10) * (-(logpdf.grad (p lr).1 data i) * w n)) / (1 - (9 / 10) ^ (((p lr).2 : AdamState (Fin d)).count + 1))) /
          (Real.sqrt ((999 / 1000 * ((p lr).2 : AdamState (Fin d)).nu i + (1 - 999 / 1000) * (-(logpdf.grad (p lr).1 data i) * w n) ^ 2) / (1 - (999 / 1000) ^ (((p lr).2 : AdamState (Fin d)).count + 1))) + 1 / 10 ^ 8)) = _
        rw [hc lr]
      rw [e, projectionBox_fix bounds _ hb]
      field_simp
      ring
    refine Tendsto.congr' key ?_
    refine ((hp i).sub (hd i)).trans (le_of_eq ?_)
    rw [pace, pace, Finset.sum_range_succ, sub_neg_eq_add]

theorem expAvg_pos {β : ℝ} (hβ : 0 < β) {w : ℕ → ℝ} {n : ℕ} (hn : 0 < n) (hw : ∀ s < n, 0 < w s) : 0 < expAvg β w n := by
  have hne : (Finset.range n).Nonempty := Finset.nonempty_range_iff.2 hn.ne'
  exact div_pos (Finset.sum_pos (fun s hs => mul_pos (by positivity) (hw s (Finset.mem_range.1 hs))) hne) (Finset.sum_pos (fun s _ => by positivity) hne)

theorem expAvg_neg (β : ℝ) (w : ℕ → ℝ) (n : ℕ) : expAvg β (fun s => -w s) n = -expAvg β w n := by
  simp [expAvg, neg_div]

theorem expAvg_one {β : ℝ} (hβ : 0 < β) {n : ℕ} (hn : 0 < n) : expAvg β (fun _ => 1) n = 1 := by
  have hne : (Finset.range n).Nonempty := Finset.nonempty_range_iff.2 hn.ne'
  have : 0 < ∑ s ∈ Finset.range n, β ^ (n - 1 - s) := Finset.sum_pos (fun s _ => by positivity) hne
  simp only [expAvg, mul_one]
  exact div_self this.ne'

theorem pace_neg (w : ℕ → ℝ) (n : ℕ) (g : ℝ) : pace (fun s => -w s) n g = -pace w n g := by
  simp only [pace, expAvg_neg, neg_sq, neg_mul, neg_div, Finset.sum_neg_distrib]

/-- **C114 (no noise).** If every noise factor is 1 — `noise_level = 0` — the pace of a coordinate is `n g / (|g| + 1e-8)`: very nearly one learning rate per step, in the direction of the gradient. -/
theorem C114_no_noise (n : ℕ) (g : ℝ) : pace (fun _ => 1) n g = n * (g / (|g| + 1 / 10 ^ 8)) := by
  simp only [pace, one_pow]
  rw [Finset.sum_congr rfl fun s _ => by rw [expAvg_one (by norm_num) (by omega), expAvg_one (by norm_num) (by omega), Real.sqrt_one, one_mul, one_mul]]
  simp

theorem mul_pace_pos {w : ℕ → ℝ} {n : ℕ} (hw : ∀ s < n, 0 < w s) (g : ℝ) : 0 ≤ g * pace w n g ∧ (0 < n → g ≠ 0 → 0 < g * pace w n g) := by
  have e : g * pace w n g = ∑ s ∈ Finset.range n, expAvg (9 / 10) w (s + 1) * g ^ 2 / (Real.sqrt (expAvg (999 / 1000) (fun r => w r ^ 2) (s + 1)) * |g| + 1 / 10 ^ 8) := by
    rw [pace, Finset.mul_sum]
    exact Finset.sum_congr rfl fun s _ => by ring
  have hp : ∀ s ∈ Finset.range n, 0 < expAvg (9 / 10) w (s + 1) := fun s hs => expAvg_pos (by norm_num) (by omega) fun r hr => hw r (by have := Finset.mem_range.1 hs; omega)
  have hden : ∀ s, 0 < Real.sqrt (expAvg (999 / 1000) (fun r => w r ^ 2) (s + 1)) * |g| + 1 / 10 ^ 8 := fun s => by positivity
  rw [e]
  refine ⟨Finset.sum_nonneg fun s hs => div_nonneg (mul_nonneg (hp s hs).le (sq_nonneg _)) (hden s).le, fun hn hg => ?_⟩
  exact Finset.sum_pos (fun s hs => div_pos (mul_pos (hp s hs) (by positivity)) (hden s)) (Finset.nonempty_range_iff.2 hn.ne')

variable {logpdf noise bounds data}
variable {x}

/-- **C114 (how far).** Calls of the optimisation strategy with the same settings and key and every learning rate `lr`; chain `j` starts at `x`, where the gradient is continuous and the bounds leave room, and the call with
learning rate `lr` returns it at `y lr`.  As `lr` goes to 0, `(y lr - x) / lr` goes, coordinate by coordinate, to `pace w n g`, where `g` is the derivative of the log-density at `x` and `w` the noise factors of the
chain. -/
theorem C114_pace (n : ℕ) (rng : Rng ℝ) (k : Key) (xs : List (Pos ℝ d)) (Y : ℝ → List (Pos ℝ d))
    (hrun : ∀ lr, ∃ k' lps, (adamOptimization logpdf n lr noise bounds).optimize rng data k xs = .ok (k', Y lr, lps)) (j : ℕ) (hx : xs[j]? = some x)
    (hg : ContinuousAt (fun y => logpdf.grad y data) x) (hroom : Room bounds x) (y : ℝ → Pos ℝ d) (hy : ∀ lr, (Y lr)[j]? = some (y lr)) (i : Fin d) :
    Tendsto (fun lr => (y lr i - x i) / lr) (𝓝[>] 0) (𝓝 (pace (noiseFactor rng noise k j) n (logpdf.grad x data i))) := by
  have e : ∀ lr, y lr = (noisyDescent (adamOptimization logpdf n lr noise bounds) data (fun t => rng.normal (stepKey (.child (.child k 1) j) t) 1 0) x n).1 := fun lr => by
    obtain ⟨k', lps, h⟩ := hrun lr
    rw [adam_out logpdf lr noise bounds rng data h j x (y lr) hx (hy lr), AdamOptimization.single, repeat_adam]
    rfl
  simp only [e]
  exact (descent_small logpdf noise bounds data _ x n hg hroom n).2.2.2 i

/-- **C114 (how much).** If moreover the log-density is differentiable at `x` with the gradient the strategy uses, then `(logpdf (y lr) - logpdf x) / lr` goes to the sum over the coordinates of `g · pace w n g`. -/
theorem C114_gain (n : ℕ) (rng : Rng ℝ) (k : Key) (xs : List (Pos ℝ d)) (Y : ℝ → List (Pos ℝ d))
    (hrun : ∀ lr, ∃ k' lps, (adamOptimization logpdf n lr noise bounds).optimize rng data k xs = .ok (k', Y lr, lps)) (j : ℕ) (hx : xs[j]? = some x)
    (hd : HasFDerivAt (fun y => logpdf.val y data) (∑ i, logpdf.grad x data i • (ContinuousLinearMap.proj i : (Fin d → ℝ) →L[ℝ] ℝ)) x)
    (hg : ContinuousAt (fun y => logpdf.grad y data) x) (hroom : Room bounds x) (y : ℝ → Pos ℝ d) (hy : ∀ lr, (Y lr)[j]? = some (y lr)) :
    Tendsto (fun lr => (logpdf.val (y lr) data - logpdf.val x data) / lr) (𝓝[>] 0) (𝓝 (∑ i, logpdf.grad x data i * pace (noiseFactor rng noise k j) n (logpdf.grad x data i))) := by
  set v : Fin d → ℝ := fun i => pace (noiseFactor rng noise k j) n (logpdf.grad x data i) with hv
  set γ : ℝ → Fin d → ℝ := fun lr => if 0 < lr then y lr else x with hγ
  have h0 : γ 0 = x := by simp [hγ]
  have hγd : HasDerivWithinAt γ v (Set.Ioi 0) 0 := by
    rw [hasDerivWithinAt_iff_tendsto_slope' (by simp)]
    refine tendsto_pi_nhds.2 fun i => (C114_pace n rng k xs Y hrun j hx hg hroom y hy i).congr' ?_
    filter_upwards [self_mem_nhdsWithin] with lr hl
    have hl' : 0 < lr := hl
    simp only [slope, hγ, lt_irrefl, if_false, hl', if_true, sub_zero, vsub_eq_sub, Pi.smul_apply, Pi.sub_apply, smul_eq_mul]
    rw [inv_mul_eq_div]
  have hd' : HasFDerivAt (fun y => logpdf.val y data) (∑ i, logpdf.grad x data i • (ContinuousLinearMap.proj i : (Fin d → ℝ) →L[ℝ] ℝ)) (γ 0) := by rw [h0]; exact hd
  have hc := hd'.comp_hasDerivWithinAt (0 : ℝ) hγd
  rw [hasDerivWithinAt_iff_tendsto_slope' (by simp)] at hc
  have e : (∑ i, logpdf.grad x data i • (ContinuousLinearMap.proj i : (Fin d → ℝ) →L[ℝ] ℝ)) v = ∑ i, logpdf.grad x data i * v i := by simp [ContinuousLinearMap.sum_apply]
  rw [e] at hc
  refine hc.congr' ?_
  filter_upwards [self_mem_nhdsWithin] with lr hl
  have hl' : 0 < lr := hl
  simp only [slope, Function.comp, hγ, lt_irrefl, if_false, hl', if_true, sub_zero, vsub_eq_sub, smul_eq_mul]
  rw [inv_mul_eq_div]

/-- The results of a call, as a function of the learning rate. -/
theorem adam_total (n : ℕ) (rng : Rng ℝ) (hlen : bounds.length = 1 ∨ bounds.length = d) (k : Key) (xs : List (Pos ℝ d)) (lr : ℝ) :
    (adamOptimization logpdf n lr noise bounds).optimize rng data k xs = .ok (.child k 0, ((splitN (.child k 1) xs.length).zip xs).map (fun p => (adamOptimization logpdf n lr noise bounds).single rng data p.1 p.2),
      (((splitN (.child k 1) xs.length).zip xs).map (fun p => (adamOptimization logpdf n lr noise bounds).single rng data p.1 p.2)).map (fun x => logpdf.val x data)) := by
  unfold AdamOptimization.optimize
  rw [if_pos (show (adamOptimization logpdf n lr noise bounds).bounds.length = 1 ∨ (adamOptimization logpdf n lr noise bounds).bounds.length = d from hlen)]
  rfl

/-- **C114 (which way).** For every call of the optimisation strategy with at least one step there is a learning rate below which, for every chain `j` whose start `x` has a continuous, nonzero gradient — the derivative of
the log-density there — and room to the bounds: if all noise factors of the chain are positive, the chain ends with a higher log-density than it started with, and if all are negative, with a lower one. -/
theorem C114_which_way (n : ℕ) (hn : 0 < n) (rng : Rng ℝ) (k : Key) (xs : List (Pos ℝ d)) :
    ∃ lr₀ > 0, ∀ lr, 0 < lr → lr < lr₀ → ∀ k' ys lps, (adamOptimization logpdf n lr noise bounds).optimize rng data k xs = .ok (k', ys, lps) →
      ∀ (j : ℕ) (x y : Pos ℝ d), xs[j]? = some x → ys[j]? = some y → ContinuousAt (fun y => logpdf.grad y data) x → Room bounds x →
        HasFDerivAt (fun y => logpdf.val y data) (∑ i, logpdf.grad x data i • (ContinuousLinearMap.proj i : (Fin d → ℝ) →L[ℝ] ℝ)) x → (∃ i, logpdf.grad x data i ≠ 0) →
        lps[j]? = some (logpdf.val y data) ∧
        ((∀ s < n, 0 < noiseFactor rng noise k j s) → logpdf.val x data < logpdf.val y data) ∧ ((∀ s < n, noiseFactor rng noise k j s < 0) → logpdf.val y data < logpdf.val x data) := by
  by_cases hlen : bounds.length = 1 ∨ bounds.length = d
  swap
  · refine ⟨1, one_pos, fun lr _ _ k' ys lps h => ?_⟩
    unfold AdamOptimization.optimize at h
    rw [if_neg (show ¬ ((adamOptimization logpdf n lr noise bounds).bounds.length = 1 ∨ (adamOptimization logpdf n lr noise bounds).bounds.length = d) from hlen)] at h
    cases h
  have one : ∀ j ∈ Finset.range xs.length, ∀ᶠ lr in 𝓝[>] (0 : ℝ), ∀ k' ys lps, (adamOptimization logpdf n lr noise bounds).optimize rng data k xs = .ok (k', ys, lps) →
      ∀ (x y : Pos ℝ d), xs[j]? = some x → ys[j]? = some y → ContinuousAt (fun y => logpdf.grad y data) x → Room bounds x →
        HasFDerivAt (fun y => logpdf.val y data) (∑ i, logpdf.grad x data i • (ContinuousLinearMap.proj i : (Fin d → ℝ) →L[ℝ] ℝ)) x → (∃ i, logpdf.grad x data i ≠ 0) →
        lps[j]? = some (logpdf.val y data) ∧
        ((∀ s < n, 0 < noiseFactor rng noise k j s) → logpdf.val x data < logpdf.val y data) ∧ ((∀ s < n, noiseFactor rng noise k j s < 0) → logpdf.val y data < logpdf.val x data) := by
    intro j hj
    obtain ⟨x, hx⟩ : ∃ x, xs[j]? = some x := ⟨_, List.getElem?_eq_getElem (Finset.mem_range.1 hj)⟩
    by_cases hall : ContinuousAt (fun y => logpdf.grad y data) x ∧ Room bounds x ∧
        HasFDerivAt (fun y => logpdf.val y data) (∑ i, logpdf.grad x data i • (ContinuousLinearMap.proj i : (Fin d → ℝ) →L[ℝ] ℝ)) x ∧ ∃ i, logpdf.grad x data i ≠ 0
    swap
    · refine Eventually.of_forall fun lr k' ys lps _ x' y hx' _ h1 h2 h3 h4 => absurd ?_ hall
      rw [hx, Option.some.injEq] at hx'
      subst hx'
      exact ⟨h1, h2, h3, h4⟩
    obtain ⟨h1, h2, h3, i0, h4⟩ := hall
    set y : ℝ → Pos ℝ d := fun lr => (adamOptimization logpdf n lr noise bounds).single rng data (.child (.child k 1) j) x with hyd
    set Y : ℝ → List (Pos ℝ d) := fun lr => ((splitN (.child k 1) xs.length).zip xs).map (fun p => (adamOptimization logpdf n lr noise bounds).single rng data p.1 p.2) with hY
    have hrun : ∀ lr, ∃ k' lps, (adamOptimization logpdf n lr noise bounds).optimize rng data k xs = .ok (k', Y lr, lps) := fun lr => ⟨_, _, adam_total n rng hlen k xs lr⟩
    have hy : ∀ lr, (Y lr)[j]? = some (y lr) := fun lr => by
      have hkj : (splitN (.child k 1) xs.length)[j]? = some (.child (.child k 1) j) := by simp [splitN, Finset.mem_range.1 hj]
      rw [hY, List.getElem?_map, show ((splitN (.child k 1) xs.length).zip xs)[j]? = some (.child (.child k 1) j, x) from by
        rw [List.getElem?_zip_eq_some]; exact ⟨hkj, hx⟩]
      rfl
    have hgain := C114_gain n rng k xs Y hrun j hx h3 h1 h2 y hy
    set w := noiseFactor rng noise k j with hw
    have up : (∀ s < n, 0 < w s) → 0 < ∑ i, logpdf.grad x data i * pace w n (logpdf.grad x data i) := fun hp =>
      Finset.sum_pos' (fun i _ => (mul_pace_pos hp _).1) ⟨i0, Finset.mem_univ _, (mul_pace_pos hp _).2 hn h4⟩
    have down : (∀ s < n, w s < 0) → ∑ i, logpdf.grad x data i * pace w n (logpdf.grad x data i) < 0 := fun hp => by
      have hp' : ∀ s < n, 0 < (fun s => -w s) s := fun s hs => neg_pos.2 (hp s hs)
      have := Finset.sum_pos' (s := Finset.univ) (f := fun i => logpdf.grad x data i * pace (fun s => -w s) n (logpdf.grad x data i)) (fun i _ => (mul_pace_pos hp' _).1) ⟨i0, Finset.mem_univ _, (mul_pace_pos hp' _).2 hn h4⟩
      simp only [pace_neg, mul_neg, Finset.sum_neg_distrib] at this
      linarith
    have e1 : ∀ᶠ lr in 𝓝[>] (0 : ℝ), ((∀ s < n, 0 < w s) → logpdf.val x data < logpdf.val (y lr) data) := by
      by_cases hp : ∀ s < n, 0 < w s
      · filter_upwards [hgain.eventually (lt_mem_nhds (up hp)), self_mem_nhdsWithin] with lr hl hl' _
        have := (div_pos_iff_of_pos_right (Set.mem_Ioi.1 hl')).1 hl
        linarith
      · exact Eventually.of_forall fun lr h => absurd h hp
    have e2 : ∀ᶠ lr in 𝓝[>] (0 : ℝ), ((∀ s < n, w s < 0) → logpdf.val (y lr) data < logpdf.val x data) := by
      by_cases hp : ∀ s < n, w s < 0
      · filter_upwards [hgain.eventually (gt_mem_nhds (down hp)), self_mem_nhdsWithin] with lr hl hl' _
        rw [div_neg_iff] at hl
        have h0 : (0 : ℝ) < lr := hl'
        rcases hl with ⟨_, h⟩ | ⟨h, _⟩ <;> linarith
      · exact Eventually.of_forall fun lr h => absurd h hp
    filter_upwards [e1, e2] with lr g1 g2 k' ys lps hr x' y' hx' hy' _ _ _ _
    rw [hx, Option.some.injEq] at hx'
    subst hx'
    rw [adam_total n rng hlen k xs lr] at hr
    simp only [Except.ok.injEq, Prod.mk.injEq] at hr
    obtain ⟨-, rfl, rfl⟩ := hr
    have := hy lr
    simp only [hY] at this
    rw [this, Option.some.injEq] at hy'
    subst hy'
    exact ⟨by rw [List.getElem?_map, this]; rfl, g1, g2⟩
  obtain ⟨lr₀, h0, hsub⟩ := mem_nhdsGT_iff_exists_Ioo_subset.1 ((Finset.eventually_all _).2 one)
  refine ⟨lr₀, h0, fun lr hl hl' k' ys lps hr j x y hx hy => ?_⟩
  exact hsub ⟨hl, hl'⟩ j (Finset.mem_range.2 (List.getElem?_eq_some_iff.1 hx).1) k' ys lps hr x y hx hy

/-- **C114 (without noise).** With `noise_level = 0`, at least one step and a small enough learning rate, a call of the optimisation strategy returns every chain that starts where the log-density is differentiable, with the
gradient the strategy uses, continuous and not zero, and not on the bounds, at a point of higher log-density. -/
theorem C114_climbs (n : ℕ) (hn : 0 < n) (rng : Rng ℝ) (k : Key) (xs : List (Pos ℝ d)) :
    ∃ lr₀ > 0, ∀ lr, 0 < lr → lr < lr₀ → ∀ k' ys lps, (adamOptimization logpdf n lr 0 bounds).optimize rng data k xs = .ok (k', ys, lps) →
      ∀ (j : ℕ) (x y : Pos ℝ d), xs[j]? = some x → ys[j]? = some y → ContinuousAt (fun y => logpdf.grad y data) x → Room bounds x →
        HasFDerivAt (fun y => logpdf.val y data) (∑ i, logpdf.grad x data i • (ContinuousLinearMap.proj i : (Fin d → ℝ) →L[ℝ] ℝ)) x → (∃ i, logpdf.grad x data i ≠ 0) →
        lps[j]? = some (logpdf.val y data) ∧ logpdf.val x data < logpdf.val y data := by
  obtain ⟨lr₀, h0, h⟩ := C114_which_way (noise := 0) n hn rng k xs (logpdf := logpdf) (bounds := bounds) (data := data)
  refine ⟨lr₀, h0, fun lr hl hl' k' ys lps hr j x y hx hy h1 h2 h3 h4 => ?_⟩
  obtain ⟨e1, e2, -⟩ := h lr hl hl' k' ys lps hr j x y hx hy h1 h2 h3 h4
  exact ⟨e1, e2 fun s _ => by simp [noiseFactor]⟩

end
end FlowMC
