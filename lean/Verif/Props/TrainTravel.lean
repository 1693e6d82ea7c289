import Verif.Model.TrainStep
import Verif.Props.Adam
/-
How far training can move the parameters of a flow (C79).
-/
set_option linter.unusedSectionVars false
open scoped BigOperators
namespace FlowMC
open Spec
noncomputable section
open Classical

variable {ι : Type} [Fintype ι] {d : ℕ} {M : Type}

/-- The flow's parameters are the numbers `get m`, `set` replaces them, and a training step is the gradient step of the library's optimizer with learning rate `lr` and
momentum `b1`.  Loss and gradient are arbitrary. -/
structure Spec.TrainsWithAdamW (ops : FlowOps ℝ d M (AdamState ι)) (get : M → ι → ℝ) (lr b1 : ℝ) where
  set : M → (ι → ℝ) → M
  get_set : ∀ m p, get (set m p) = p
  loss : M → List (Pos ℝ d) → ℝ
  grad : M → List (Pos ℝ d) → ι → ℝ
  step : ops.trainStep = gradStep get set loss grad lr b1

/-- An optimizer state some history of gradients leads to, from a fresh optimizer. -/
def Spec.OptReached (lr b1 : ℝ) (o : AdamState ι) : Prop := ∃ past p, o = (adamwRun lr b1 past (AdamState.init, p)).1

theorem adamwRun_append (lr b1 : ℝ) (gs hs : List ((ι → ℝ) → ι → ℝ)) (sp : AdamState ι × (ι → ℝ)) :
    adamwRun lr b1 (gs ++ hs) sp = adamwRun lr b1 hs (adamwRun lr b1 gs sp) := by
  induction gs generalizing sp with
  | nil => rfl
  | cons g gs ih => exact ih _

theorem Spec.OptReached.next {lr b1 : ℝ} {o : AdamState ι} (h : OptReached lr b1 o) (g p : ι → ℝ) : OptReached lr b1 (adamwStep lr b1 g (o, p)).1 := by
  obtain ⟨past, p0, rfl⟩ := h
  refine ⟨past ++ [fun _ => g], p0, ?_⟩
  rw [adamwRun_append]
  rfl

/-- The direction of one step, before the learning rate and the weight decay. -/
def adamwDir (b1 : ℝ) (g : ι → ℝ) (o : AdamState ι) (i : ι) : ℝ :=
  ((adamwStep 1 b1 g (o, fun _ => 0)).1.mu i / (1 - b1 ^ (o.count + 1))) /
    (Real.sqrt ((adamwStep 1 b1 g (o, fun _ => 0)).1.nu i / (1 - (999 / 1000) ^ (o.count + 1))) + 1 / 10 ^ 8)

theorem adamwStep_param (lr b1 : ℝ) (g : ι → ℝ) (o : AdamState ι) (p : ι → ℝ) (i : ι) :
    (adamwStep lr b1 g (o, p)).2 i = p i + -lr * (adamwDir b1 g o i + 1 / 10000 * p i) := rfl

/-- All steps have directions bounded by `K`. -/
def DirBound (ι : Type) [Fintype ι] (lr b1 K : ℝ) : Prop := ∀ (o : AdamState ι), OptReached lr b1 o → ∀ g i, |adamwDir b1 g o i| ≤ K

theorem clip_abs (g : ι → ℝ) (i : ι) : |clipByGlobalNorm g i| ≤ 1 := by
  unfold clipByGlobalNorm
  have hle : |g i| ≤ Real.sqrt (∑ i, g i ^ 2) := by
    rw [← Real.sqrt_sq_eq_abs]
    exact Real.sqrt_le_sqrt (Finset.single_le_sum (f := fun i => g i ^ 2) (fun j _ => sq_nonneg _) (Finset.mem_univ i))
  split
  · rename_i h
    exact hle.trans h.le
  · rename_i h
    rw [mul_one, abs_div, abs_of_nonneg (Real.sqrt_nonneg _)]
    exact div_le_one_of_le₀ hle (Real.sqrt_nonneg _)

theorem reached_default (lr : ℝ) (o : AdamState ι) (h : OptReached lr (9 / 10) o) (i : ι) : 0 ≤ o.nu i ∧ o.mu i ^ 2 ≤ 53 * o.nu i := by
  obtain ⟨past, p, rfl⟩ := h
  suffices hs : ∀ (gs : List ((ι → ℝ) → ι → ℝ)) (sp : AdamState ι × (ι → ℝ)), (0 ≤ sp.1.nu i ∧ sp.1.mu i ^ 2 ≤ 53 * sp.1.nu i) →
      0 ≤ (adamwRun lr (9 / 10) gs sp).1.nu i ∧ (adamwRun lr (9 / 10) gs sp).1.mu i ^ 2 ≤ 53 * (adamwRun lr (9 / 10) gs sp).1.nu i from
    hs past _ (by simp [AdamState.init])
  intro gs
  induction gs with
  | nil => exact fun sp h => h
  | cons g gs ih =>
    intro sp h
    apply ih
    obtain ⟨h0, h1⟩ := h
    show 0 ≤ 999 / 1000 * sp.1.nu i + (1 - 999 / 1000) * clipByGlobalNorm (g sp.2) i ^ 2 ∧ (9 / 10 * sp.1.mu i + (1 - 9 / 10) * clipByGlobalNorm (g sp.2) i) ^ 2 ≤
      53 * (999 / 1000 * sp.1.nu i + (1 - 999 / 1000) * clipByGlobalNorm (g sp.2) i ^ 2)
    refine ⟨by positivity, ?_⟩
    nlinarith [sq_nonneg (189 * (9 * sp.1.mu i) - 811 * clipByGlobalNorm (g sp.2) i), sq_nonneg (clipByGlobalNorm (g sp.2) i), sq_nonneg (sp.1.mu i)]

theorem reached_mu (lr b1 : ℝ) (h0 : 0 ≤ b1) (h1 : b1 < 1) (o : AdamState ι) (h : OptReached lr b1 o) (i : ι) : |o.mu i| ≤ 1 - b1 ^ o.count := by
  obtain ⟨past, p, rfl⟩ := h
  suffices hs : ∀ (gs : List ((ι → ℝ) → ι → ℝ)) (sp : AdamState ι × (ι → ℝ)), |sp.1.mu i| ≤ 1 - b1 ^ sp.1.count →
      |(adamwRun lr b1 gs sp).1.mu i| ≤ 1 - b1 ^ (adamwRun lr b1 gs sp).1.count from
    hs past _ (by simp [AdamState.init])
  intro gs
  induction gs with
  | nil => exact fun sp h => h
  | cons g gs ih =>
    intro sp h
    apply ih
    show |b1 * sp.1.mu i + (1 - b1) * clipByGlobalNorm (g sp.2) i| ≤ 1 - b1 ^ (sp.1.count + 1)
    have hc := clip_abs (g sp.2) i
    calc _ ≤ |b1 * sp.1.mu i| + |(1 - b1) * clipByGlobalNorm (g sp.2) i| := abs_add_le _ _
      _ = b1 * |sp.1.mu i| + (1 - b1) * |clipByGlobalNorm (g sp.2) i| := by rw [abs_mul, abs_mul, abs_of_nonneg h0, abs_of_pos (by linarith : 0 < 1 - b1)]
      _ ≤ b1 * (1 - b1 ^ sp.1.count) + (1 - b1) * 1 := add_le_add (mul_le_mul_of_nonneg_left h h0) (mul_le_mul_of_nonneg_left hc (by linarith))
      _ = _ := by ring

theorem dirBound_default (lr : ℝ) : DirBound ι lr (9 / 10) (73 / 10) := fun o ho g i => by
  obtain ⟨h1, h2⟩ := reached_default lr _ (ho.next g fun _ => 0) i
  exact adam_dir _ _ (o.count + 1) (by omega) h1 h2

theorem dirBound_any (lr b1 : ℝ) (h0 : 0 ≤ b1) (h1 : b1 < 1) : DirBound ι lr b1 (10 ^ 8) := fun o ho g i => by
  have h := reached_mu lr b1 h0 h1 _ (ho.next g fun _ => 0) i
  have hpos : 0 < 1 - b1 ^ (o.count + 1) := by
    have : b1 ^ (o.count + 1) < 1 := pow_lt_one₀ h0 h1 (by omega)
    linarith
  show |(_ / (1 - b1 ^ (o.count + 1))) / (Real.sqrt _ + 1 / 10 ^ 8)| ≤ _
  set S := Real.sqrt ((adamwStep 1 b1 g (o, fun _ => 0)).1.nu i / (1 - (999 / 1000) ^ (o.count + 1)))
  have hS : 0 ≤ S := Real.sqrt_nonneg _
  have hd : (0 : ℝ) < S + 1 / 10 ^ 8 := by positivity
  rw [abs_div, abs_of_pos hd, div_le_iff₀ hd]
  have e1 : |(adamwStep 1 b1 g (o, fun _ => 0)).1.mu i / (1 - b1 ^ (o.count + 1))| ≤ 1 := by
    rw [abs_div, abs_of_pos hpos]
    exact div_le_one_of_le₀ h hpos.le
  have : (0 : ℝ) ≤ 10 ^ 8 * S := by positivity
  have : (10 : ℝ) ^ 8 * (S + 1 / 10 ^ 8) = 10 ^ 8 * S + 1 := by ring
  linarith

/-! ### Through the training loop -/

section
variable {ops : FlowOps ℝ d M (AdamState ι)} {get : M → ι → ℝ} {lr b1 K : ℝ}

/-- After at most `n` steps from parameters `p0`. -/
def TrainNear (get : M → ι → ℝ) (lr b1 K : ℝ) (p0 : ι → ℝ) (n : ℕ) (m : M) (o : AdamState ι) : Prop :=
  OptReached lr b1 o ∧ ∀ i, |get m i - p0 i| ≤ n * (lr * (K + 1 / 10000 * |p0 i|)) ∧ |get m i| ≤ max |p0 i| (10000 * K)

theorem trainNear_step (hT : TrainsWithAdamW ops get lr b1) (hK : DirBound ι lr b1 K) (h0 : 0 ≤ lr) (h1 : lr ≤ 10000) {p0 : ι → ℝ} {n : ℕ} {m : M} {o : AdamState ι}
    (h : TrainNear get lr b1 K p0 n m o) (x : List (Pos ℝ d)) : TrainNear get lr b1 K p0 (n + 1) (ops.trainStep m o x).2.1 (ops.trainStep m o x).2.2 := by
  rw [hT.step]
  unfold gradStep
  dsimp only
  refine ⟨h.1.next _ _, fun i => ?_⟩
  rw [hT.get_set, adamwStep_param]
  have hd := hK o h.1 (hT.grad m x) i
  set D := adamwDir b1 (hT.grad m x) o i
  obtain ⟨h2, h3⟩ := h.2 i
  set p := get m i
  have ha : 0 ≤ 1 - lr / 10000 := by linarith [div_le_one_of_le₀ h1 (by norm_num : (0 : ℝ) ≤ 10000)]
  have ha1 : 1 - lr / 10000 ≤ 1 := by linarith [div_nonneg h0 (by norm_num : (0 : ℝ) ≤ 10000)]
  constructor
  · have e : p + -lr * (D + 1 / 10000 * p) - p0 i = (1 - lr / 10000) * (p - p0 i) + -lr * (D + 1 / 10000 * p0 i) := by ring
    rw [e]
    calc _ ≤ |(1 - lr / 10000) * (p - p0 i)| + |-lr * (D + 1 / 10000 * p0 i)| := abs_add_le _ _
      _ = (1 - lr / 10000) * |p - p0 i| + lr * |D + 1 / 10000 * p0 i| := by rw [abs_mul, abs_mul, abs_of_nonneg ha, abs_neg, abs_of_nonneg h0]
      _ ≤ 1 * |p - p0 i| + lr * (K + 1 / 10000 * |p0 i|) := by
        refine add_le_add (mul_le_mul_of_nonneg_right ha1 (abs_nonneg _)) (mul_le_mul_of_nonneg_left ?_ h0)
        refine (abs_add_le _ _).trans (add_le_add hd ?_)
        rw [abs_mul, abs_of_nonneg (by norm_num : (0 : ℝ) ≤ 1 / 10000)]
      _ ≤ _ := by push_cast; linarith
  · have e : p + -lr * (D + 1 / 10000 * p) = (1 - lr / 10000) * p + -lr * D := by ring
    rw [e]
    calc _ ≤ |(1 - lr / 10000) * p| + |-lr * D| := abs_add_le _ _
      _ = (1 - lr / 10000) * |p| + lr * |D| := by rw [abs_mul, abs_mul, abs_of_nonneg ha, abs_neg, abs_of_nonneg h0]
      _ ≤ (1 - lr / 10000) * max |p0 i| (10000 * K) + lr * K := add_le_add (mul_le_mul_of_nonneg_left h3 ha) (mul_le_mul_of_nonneg_left hd h0)
      _ ≤ _ := by nlinarith [le_max_right |p0 i| (10000 * K)]

theorem trainNear_mono (hK0 : 0 ≤ K) (h0 : 0 ≤ lr) {p0 : ι → ℝ} {n n' : ℕ} (hn : n ≤ n') {m : M} {o : AdamState ι} (h : TrainNear get lr b1 K p0 n m o) : TrainNear get lr b1 K p0 n' m o :=
  ⟨h.1, fun i => ⟨(h.2 i).1.trans (mul_le_mul_of_nonneg_right (by exact_mod_cast hn) (by positivity)), (h.2 i).2⟩⟩

theorem trainNear_batches (hT : TrainsWithAdamW ops get lr b1) (hK : DirBound ι lr b1 K) (h0 : 0 ≤ lr) (h1 : lr ≤ 10000) {p0 : ι → ℝ} (data : List (Pos ℝ d)) :
    ∀ (bs : List (List ℕ)) (n : ℕ) (s : ℝ × M × AdamState ι), TrainNear get lr b1 K p0 n s.2.1 s.2.2 →
      TrainNear get lr b1 K p0 (n + bs.length) (trainBatches ops data bs s).2.1 (trainBatches ops data bs s).2.2
  | [], n, s, h => h
  | b :: bs, n, s, h => by
    have := trainNear_batches hT hK h0 h1 data bs (n + 1) _ (trainNear_step hT hK h0 h1 h (b.filterMap (data[·]?)))
    rw [show n + (b :: bs).length = n + 1 + bs.length by simp; omega]
    exact this

/-- The number of gradient steps of one epoch. -/
def Spec.stepsPerEpoch (n batch : ℕ) : ℕ := max 1 (n / batch)

theorem trainNear_epoch (hT : TrainsWithAdamW ops get lr b1) (hK : DirBound ι lr b1 K) (h0 : 0 ≤ lr) (h1 : lr ≤ 10000) {p0 : ι → ℝ} (rng : Rng ℝ) (init : ℝ) (k : Key)
    (data : List (Pos ℝ d)) (batch n : ℕ) (m : M) (o : AdamState ι) (h : TrainNear get lr b1 K p0 n m o) :
    TrainNear get lr b1 K p0 (n + stepsPerEpoch data.length batch) (trainEpoch rng ops init k m o data batch).2.1 (trainEpoch rng ops init k m o data batch).2.2 := by
  unfold trainEpoch stepsPerEpoch
  split
  · rename_i hp
    have := trainNear_batches hT hK h0 h1 data (epochBatches rng k data.length batch) n (init, m, o) h
    rw [epochBatches, chunks_length] at this
    rw [Nat.max_eq_right hp]
    exact this
  · rename_i hp
    rw [show max 1 (data.length / batch) = 1 by omega]
    exact trainNear_step hT hK h0 h1 h data

theorem trainNear_loop (hT : TrainsWithAdamW ops get lr b1) (hK : DirBound ι lr b1 K) (hK0 : 0 ≤ K) (h0 : 0 ≤ lr) (h1 : lr ≤ 10000) {p0 : ι → ℝ} (rng : Rng ℝ) (init : ℝ)
    (data : List (Pos ℝ d)) (batch : ℕ) (m0 : M) (o0 : AdamState ι) :
    ∀ (e n : ℕ) (s : TrainState ℝ M (AdamState ι)), TrainNear get lr b1 K p0 n s.model s.state → ((s.bestModel = m0 ∧ s.bestState = o0) ∨ TrainNear get lr b1 K p0 n s.bestModel s.bestState) →
      ((trainLoop rng ops init data batch e s).bestModel = m0 ∧ (trainLoop rng ops init data batch e s).bestState = o0) ∨
      TrainNear get lr b1 K p0 (n + e * stepsPerEpoch data.length batch) (trainLoop rng ops init data batch e s).bestModel (trainLoop rng ops init data batch e s).bestState
  | 0, n, s, h, hb => by simpa [trainLoop] using hb
  | e + 1, n, s, h, hb => by
    have hn := trainNear_epoch hT hK h0 h1 rng init (split s.rng).2 data batch n s.model s.state h
    have := trainNear_loop hT hK hK0 h0 h1 rng init data batch m0 o0 e (n + stepsPerEpoch data.length batch) (trainLoopBody rng ops init data batch s) hn ?_
    · rw [show n + (e + 1) * stepsPerEpoch data.length batch = n + stepsPerEpoch data.length batch + e * stepsPerEpoch data.length batch by ring]
      exact this
    · unfold trainLoopBody
      dsimp only
      by_cases hbet : FCmp.blt (trainEpoch rng ops init (split s.rng).2 s.model s.state data batch).1 s.bestLoss = true
      · right
        simpa only [hbet, if_true] using hn
      · simp only [hbet, if_false, Bool.false_eq_true]
        rcases hb with hb | hb
        · exact .inl hb
        · exact .inr (trainNear_mono hK0 h0 (Nat.le_add_right _ _) hb)

/-- What a training call may do to the parameters: the flow it returns is the flow it was given, untouched, or has every parameter `w` within
`epochs · steps per epoch · lr · (K + 1e-4 |w|)` of its value once the data statistics were set, and never beyond `10⁴ K` unless it was already; and its optimizer state is again one
that a history of gradients leads to. -/
def Spec.BoundedTraining (ops : FlowOps ℝ d M (AdamState ι)) (get : M → ι → ℝ) (lr b1 K : ℝ) : Prop :=
  ∀ (rng : Rng ℝ) (init : ℝ) (k : Key) (m : M) (o : AdamState ι), OptReached lr b1 o → ∀ (data : List (Pos ℝ d)) (epochs batch : ℕ) (r : TrainResult ℝ M (AdamState ι)),
    train rng ops init k m o data epochs batch = .ok r →
    OptReached lr b1 r.state ∧
    (r.model = m ∨ ∀ i, |get r.model i - get (ops.setStats m data) i| ≤ (epochs * stepsPerEpoch data.length batch : ℕ) * (lr * (K + 1 / 10000 * |get (ops.setStats m data) i|)) ∧
      |get r.model i| ≤ max |get (ops.setStats m data) i| (10000 * K))

theorem bounded_training (hT : TrainsWithAdamW ops get lr b1) (hK : DirBound ι lr b1 K) (hK0 : 0 ≤ K) (h0 : 0 ≤ lr) (h1 : lr ≤ 10000) : BoundedTraining ops get lr b1 K := by
  intro rng init k m o ho data epochs batch r hr
  unfold train at hr
  split at hr
  · cases hr
  · simp only [Except.ok.injEq] at hr
    subst hr
    have hs : TrainNear get lr b1 K (get (ops.setStats m data)) 0 (trainInit ops init k m o data).model (trainInit ops init k m o data).state :=
      ⟨ho, fun i => ⟨by simp [trainInit], by simp [trainInit]⟩⟩
    have := trainNear_loop hT hK hK0 h0 h1 rng init data batch m o epochs 0 (trainInit ops init k m o data) hs (.inl ⟨rfl, rfl⟩)
    rw [Nat.zero_add] at this
    rcases this with ⟨e1, e2⟩ | hn
    · exact ⟨by rw [show (_ : TrainResult ℝ M (AdamState ι)).state = o from e2]; exact ho, .inl e1⟩
    · exact ⟨hn.1, .inr hn.2⟩

/-- **C79, the default optimizer.** Training moves every parameter of the flow by at most `epochs · steps per epoch · lr · (7.3 + 1e-4 |w|)`, and keeps it within `73000`, for all
losses and gradients however large, data, batches, shuffles, numbers of epochs, and optimizer histories, with the library's momentum 0.9. -/
theorem C79_travel (hT : TrainsWithAdamW ops get lr (9 / 10)) (h0 : 0 ≤ lr) (h1 : lr ≤ 10000) : BoundedTraining ops get lr (9 / 10) (73 / 10) :=
  bounded_training hT (dirBound_default lr) (by norm_num) h0 h1

/-- **C79, any momentum.** With any momentum in `[0, 1)` the same holds with `10⁸` for `7.3`: clipping bounds the direction. -/
theorem C79_any_momentum (hT : TrainsWithAdamW ops get lr b1) (hb0 : 0 ≤ b1) (hb1 : b1 < 1) (h0 : 0 ≤ lr) (h1 : lr ≤ 10000) : BoundedTraining ops get lr b1 (10 ^ 8) :=
  bounded_training hT (dirBound_any lr b1 hb0 hb1) (by norm_num) h0 h1

end

/-! ### Clipping: only the direction of a large gradient matters -/

/-- Two histories of gradients that agree up to the size of the large ones: at every step and all parameters they are equal, or both have norm at least 1 and one is a positive multiple
of the other. -/
def Spec.SameUpToSize (gs hs : List ((ι → ℝ) → ι → ℝ)) : Prop :=
  List.Forall₂ (fun g h => ∀ p, g p = h p ∨ (1 ≤ Real.sqrt (∑ i, g p i ^ 2) ∧ 1 ≤ Real.sqrt (∑ i, h p i ^ 2) ∧ ∃ c : ℝ, 0 < c ∧ ∀ i, h p i = c * g p i)) gs hs

theorem clip_scale (g h : ι → ℝ) (hg : 1 ≤ Real.sqrt (∑ i, g i ^ 2)) (hh : 1 ≤ Real.sqrt (∑ i, h i ^ 2)) (c : ℝ) (hc : 0 < c) (e : ∀ i, h i = c * g i) :
    clipByGlobalNorm h = clipByGlobalNorm g := by
  have hn : Real.sqrt (∑ i, h i ^ 2) = c * Real.sqrt (∑ i, g i ^ 2) := by
    have : ∑ i, h i ^ 2 = c ^ 2 * ∑ i, g i ^ 2 := by
      rw [Finset.mul_sum]
      exact Finset.sum_congr rfl fun i _ => by rw [e, mul_pow]
    rw [this, Real.sqrt_mul (sq_nonneg _), Real.sqrt_sq hc.le]
  funext i
  unfold clipByGlobalNorm
  rw [if_neg (not_lt.2 hh), if_neg (not_lt.2 hg), hn, e i, mul_div_mul_left _ _ hc.ne']

/-- **C79, outliers.** Two training histories whose gradients agree up to the size of the large ones give the same parameters and the same optimizer state: a batch with an enormous
gradient has the same effect as one with a gradient of norm 1. -/
theorem C79_outliers (lr b1 : ℝ) (gs hs : List ((ι → ℝ) → ι → ℝ)) (h : SameUpToSize gs hs) (sp : AdamState ι × (ι → ℝ)) : adamwRun lr b1 gs sp = adamwRun lr b1 hs sp := by
  induction h generalizing sp with
  | nil => rfl
  | cons h _ ih =>
    rename_i g hh l1 l2 _
    show adamwRun lr b1 _ (adamwStep lr b1 (g sp.2) sp) = adamwRun lr b1 _ (adamwStep lr b1 (hh sp.2) sp)
    rw [ih]
    congr 1
    rcases h sp.2 with e | ⟨h1, h2, c, hc, e⟩
    · rw [e]
    · unfold adamwStep
      rw [clip_scale _ _ h1 h2 c hc e]

/-- The gradient as the optimizer uses it: scaled down to norm 1 if its norm is larger. -/
def Spec.cappedGradient (g : ι → ℝ) (i : ι) : ℝ := g i / max 1 (Real.sqrt (∑ j, g j ^ 2))

theorem clip_eq_capped (g : ι → ℝ) (i : ι) : clipByGlobalNorm g i = cappedGradient g i := by
  unfold clipByGlobalNorm cappedGradient
  by_cases h : Real.sqrt (∑ j, g j ^ 2) < 1
  · simp only [h, if_true]
    rw [max_eq_left h.le, div_one]
  · simp only [h, if_false]
    rw [max_eq_right (not_lt.1 h), mul_one]

/-- **C79, first step.** The first training step of a fresh optimizer reports the loss of the batch and moves every parameter `w` by
`-lr · (g / (|g| + 1e-8) + 1e-4 · w)`, where `g` is the derivative of the loss after capping the gradient's norm at 1: downhill, by at most the learning rate, plus the decay. -/
theorem C79_first_step {ops : FlowOps ℝ d M (AdamState ι)} {get : M → ι → ℝ} {lr b1 : ℝ} (hb0 : 0 ≤ b1) (hb1 : b1 < 1) (hT : TrainsWithAdamW ops get lr b1) (m : M)
    (x : List (Pos ℝ d)) :
    (ops.trainStep m .init x).1 = hT.loss m x ∧
    ∀ i, get (ops.trainStep m .init x).2.1 i =
      get m i - lr * (cappedGradient (hT.grad m x) i / (|cappedGradient (hT.grad m x) i| + 1 / 10 ^ 8) + 1 / 10000 * get m i) := by
  rw [hT.step]
  refine ⟨rfl, fun i => ?_⟩
  unfold gradStep
  dsimp only
  rw [hT.get_set, adamwStep_param]
  have e : adamwDir b1 (hT.grad m x) .init i = cappedGradient (hT.grad m x) i / (|cappedGradient (hT.grad m x) i| + 1 / 10 ^ 8) := by
    rw [← clip_eq_capped]
    unfold adamwDir
    show (b1 * 0 + (1 - b1) * clipByGlobalNorm (hT.grad m x) i) / (1 - b1 ^ (0 + 1)) /
      (Real.sqrt ((999 / 1000 * 0 + (1 - 999 / 1000) * clipByGlobalNorm (hT.grad m x) i ^ 2) / (1 - (999 / 1000) ^ (0 + 1))) + 1 / 10 ^ 8) = _
    generalize clipByGlobalNorm (hT.grad m x) i = g
    have h1 : (b1 * 0 + (1 - b1) * g) / (1 - b1 ^ (0 + 1)) = g := by
      rw [zero_add, pow_one, mul_zero, zero_add, mul_div_cancel_left₀ _ (by linarith : (1 - b1) ≠ 0)]
    have h2 : (999 / 1000 * 0 + (1 - 999 / 1000) * g ^ 2) / (1 - (999 / 1000 : ℝ) ^ (0 + 1)) = g ^ 2 := by norm_num
    rw [h1, h2, Real.sqrt_sq_eq_abs]
  rw [e]
  ring

end
end FlowMC

namespace FlowMC
open Spec
noncomputable section

/-- A flow with two parameters, one of them the data mean, and a quadratic loss with a huge gradient. -/
def steepOps : FlowOps ℝ 1 (Fin 2 → ℝ) (AdamState (Fin 2)) where
  sample _ _ n := List.replicate n fun _ => 0
  logProb m x := -(x 0 - m 0) ^ 2
  trainStep := gradStep id (fun _ p => p) (fun m _ => 10 ^ 6 * m 1 ^ 2) (fun m _ i => if i = 1 then 2 * 10 ^ 6 * m 1 else 0) (1 / 1000) (9 / 10)
  setStats m data := fun i => if i = 0 then (data.map (· 0)).sum / data.length else m i

/-- It meets the hypotheses of C79_travel, and a training call of three epochs on two rows completes. -/
example (rng : Rng ℝ) : ∃ r, train rng steepOps (10 ^ 9) (.root 0) (fun _ => 5) .init [fun _ => 1, fun _ => 3] 3 1 = .ok r ∧
    (r.model = (fun _ => 5) ∨ |r.model 1 - 5| ≤ 1 / 20) := by
  have hT : TrainsWithAdamW steepOps (id : (Fin 2 → ℝ) → Fin 2 → ℝ) (1 / 1000) (9 / 10) := ⟨fun _ p => p, fun _ _ => rfl, _, _, rfl⟩
  refine ⟨_, by unfold train; rw [if_neg (by decide)], ?_⟩
  have := (C79_travel hT (by norm_num) (by norm_num) rng (10 ^ 9) (.root 0) (fun _ => 5) .init ⟨[], fun _ => 0, rfl⟩ [fun _ => 1, fun _ => 3] 3 1 _
    (by unfold train; rw [if_neg (by decide)])).2
  refine this.imp id fun h => ?_
  have e : steepOps.setStats (fun _ => 5) [fun _ => 1, fun _ => 3] 1 = 5 := by simp [steepOps]
  have h1 := (h 1).1
  rw [id, id, e] at h1
  refine h1.trans ?_
  norm_num [stepsPerEpoch]

/-- Gradients 5 and 7: the same effect. -/
example (sp : AdamState (Fin 1) × (Fin 1 → ℝ)) : adamwRun (1 / 1000) (9 / 10) [fun _ _ => 5] sp = adamwRun (1 / 1000) (9 / 10) [fun _ _ => 7] sp :=
  C79_outliers _ _ _ _ (.cons (fun p => .inr ⟨by simp, by simp, 7 / 5, by norm_num, fun i => by norm_num⟩) .nil) sp

end
end FlowMC
