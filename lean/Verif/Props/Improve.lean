import Verif.Spec.Improve
import Verif.Spec.Training
import Verif.Props.Training
import Verif.Jax.Ieee
import Mathlib.Analysis.Calculus.FDeriv.Comp
import Mathlib.Analysis.Calculus.Deriv.Slope
import Mathlib.Analysis.Calculus.FDeriv.Prod
import Mathlib.Analysis.Calculus.FDeriv.Add
import Mathlib.Analysis.Calculus.FDeriv.Mul
import Mathlib.Topology.Algebra.Monoid
/-
C115: training on all the data with a small learning rate improves the flow.
-/
open Filter
open scoped Topology
set_option linter.unusedSectionVars false
namespace FlowMC
open Spec
noncomputable section
open Classical

variable {ι : Type} [Fintype ι] {d : ℕ} {M : Type}

theorem clip_shortened (g : ι → ℝ) : clipByGlobalNorm g = shortened g := by
  funext i
  simp only [clipByGlobalNorm, shortened]
  split
  · rename_i h
    rw [max_eq_left h.le, div_one]
  · rename_i h
    rw [max_eq_right (not_lt.1 h), mul_one]

theorem shortened_continuousAt {X : Type} [TopologicalSpace X] {G : X → ι → ℝ} {x : X} (h : ContinuousAt G x) (i : ι) : ContinuousAt (fun y => shortened (G y) i) x := by
  have hi : ∀ j, ContinuousAt (fun y => G y j) x := fun j => (continuous_apply j).continuousAt.comp h
  have hs : ContinuousAt (fun y => ∑ j, G y j ^ 2) x := tendsto_finset_sum _ fun j _ => (hi j).pow 2
  exact (hi i).div (continuousAt_const.max hs.sqrt) (by positivity)

/-- Optimizer state and parameters after `n` steps on the same data. -/
def descent (G : (ι → ℝ) → ι → ℝ) (b1 : ℝ) (p : ι → ℝ) (lr : ℝ) (n : ℕ) : AdamState ι × (ι → ℝ) := (fun sp => adamwStep lr b1 (G sp.2) sp)^[n] (AdamState.init, p)

theorem descent_succ (G : (ι → ℝ) → ι → ℝ) (b1 : ℝ) (p : ι → ℝ) (lr : ℝ) (n : ℕ) :
    descent G b1 p lr (n + 1) = adamwStep lr b1 (G (descent G b1 p lr n).2) (descent G b1 p lr n) := Function.iterate_succ_apply' _ _ _

theorem tendsto_of_rate {f : ℝ → ℝ} {a c : ℝ} (h : Tendsto (fun lr => (f lr - a) / lr) (𝓝[>] 0) (𝓝 c)) : Tendsto f (𝓝[>] 0) (𝓝 a) := by
  have hlr : Tendsto (fun lr : ℝ => lr) (𝓝[>] 0) (𝓝 0) := tendsto_nhdsWithin_of_tendsto_nhds tendsto_id
  have e := (h.mul hlr).add (tendsto_const_nhds (x := a))
  rw [mul_zero, zero_add] at e
  refine e.congr' ?_
  filter_upwards [self_mem_nhdsWithin] with lr hl
  have : lr ≠ 0 := (Set.mem_Ioi.1 hl).ne'
  field_simp
  ring

theorem descent_rate (G : (ι → ℝ) → ι → ℝ) (b1 : ℝ) (hb0 : 0 ≤ b1) (hb1 : b1 < 1) (p : ι → ℝ) (hG : ContinuousAt G p) (n : ℕ) :
    (∀ lr, (descent G b1 p lr n).1.count = n) ∧
    (∀ i, Tendsto (fun lr => (descent G b1 p lr n).1.mu i) (𝓝[>] 0) (𝓝 ((1 - b1 ^ n) * shortened (G p) i))) ∧
    (∀ i, Tendsto (fun lr => (descent G b1 p lr n).1.nu i) (𝓝[>] 0) (𝓝 ((1 - (999 / 1000) ^ n) * shortened (G p) i ^ 2))) ∧
    (∀ i, Tendsto (fun lr => ((descent G b1 p lr n).2 i - p i) / lr) (𝓝[>] 0) (𝓝 (-(n * downward (G p) p i)))) := by
  induction n with
  | zero =>
    refine ⟨fun lr => rfl, fun i => ?_, fun i => ?_, fun i => ?_⟩ <;> simp [descent, AdamState.init]
  | succ n ih =>
    obtain ⟨hc, hmu, hnu, hp⟩ := ih
    have hpos : Tendsto (fun lr => (descent G b1 p lr n).2) (𝓝[>] 0) (𝓝 p) := tendsto_pi_nhds.2 fun i => tendsto_of_rate (hp i)
    set c := shortened (G p) with hcd
    have hgr : ∀ i, Tendsto (fun lr => clipByGlobalNorm (G (descent G b1 p lr n).2) i) (𝓝[>] 0) (𝓝 (c i)) := fun i => by
      simp only [clip_shortened]
      exact (shortened_continuousAt hG i).tendsto.comp hpos
    have hmu' : ∀ i, Tendsto (fun lr => b1 * (descent G b1 p lr n).1.mu i + (1 - b1) * clipByGlobalNorm (G (descent G b1 p lr n).2) i) (𝓝[>] 0) (𝓝 ((1 - b1 ^ (n + 1)) * c i)) := fun i => by
      refine (((hmu i).const_mul b1).add ((hgr i).const_mul (1 - b1))).trans (le_of_eq ?_)
      congr 1; ring
    have hnu' : ∀ i, Tendsto (fun lr => 999 / 1000 * (descent G b1 p lr n).1.nu i + (1 - 999 / 1000) * clipByGlobalNorm (G (descent G b1 p lr n).2) i ^ 2) (𝓝[>] 0)
        (𝓝 ((1 - (999 / 1000) ^ (n + 1)) * c i ^ 2)) := fun i => by
      refine (((hnu i).const_mul (999 / 1000)).add (((hgr i).pow 2).const_mul (1 - 999 / 1000))).trans (le_of_eq ?_)
      congr 1; ring
    have n1 : 1 - b1 ^ (n + 1) ≠ 0 := by exact (sub_pos.2 (pow_lt_one₀ hb0 hb1 (Nat.succ_ne_zero n))).ne'
    have n2 : (1 : ℝ) - (999 / 1000) ^ (n + 1) ≠ 0 := by exact (sub_pos.2 (pow_lt_one₀ (by norm_num : (0 : ℝ) ≤ 999 / 1000) (by norm_num) (Nat.succ_ne_zero n))).ne'
    refine ⟨fun lr => ?_, fun i => ?_, fun i => ?_, fun i => ?_⟩
    · rw [descent_succ]; show (descent G b1 p lr n).1.count + 1 = n + 1; rw [hc]
    · refine (hmu' i).congr fun lr => ?_
      rw [descent_succ]; rfl
    · refine (hnu' i).congr fun lr => ?_
      rw [descent_succ]; rfl
    · have hden : Real.sqrt ((1 - (999 / 1000) ^ (n + 1)) * c i ^ 2 / (1 - (999 / 1000) ^ (n + 1))) + 1 / 10 ^ 8 ≠ 0 := by positivity
      have hdir := ((hmu' i).div_const (1 - b1 ^ (n + 1))).div ((((hnu' i).div_const (1 - (999 / 1000) ^ (n + 1))).sqrt).add_const (1 / 10 ^ 8)) hden
      have hstep := (hp i).sub (hdir.add (((tendsto_pi_nhds.1 hpos) i).const_mul (1 / 10000)))
      refine (hstep.congr' ?_).trans (le_of_eq ?_)
      · filter_upwards [self_mem_nhdsWithin] with lr hl
        have : lr ≠ 0 := (Set.mem_Ioi.1 hl).ne'
        rw [descent_succ]
        simp only [adamwStep, hc, Pi.div_apply]
        rw [eq_div_iff this, sub_mul, div_mul_cancel₀ _ this]
        ring
      · congr 1
        rw [mul_div_cancel_left₀ _ n1, mul_div_cancel_left₀ _ n2, Real.sqrt_sq_eq_abs, downward, ← hcd]
        push_cast
        ring

/-- A function that is differentiable at the start changes along the descent at the rate its gradient says. -/
theorem descent_loss (G : (ι → ℝ) → ι → ℝ) (b1 : ℝ) (hb0 : 0 ≤ b1) (hb1 : b1 < 1) (p : ι → ℝ) (hG : ContinuousAt G p) (L : (ι → ℝ) → ℝ) (g : ι → ℝ)
    (hL : HasFDerivAt L (∑ i, g i • (ContinuousLinearMap.proj i : (ι → ℝ) →L[ℝ] ℝ)) p) (n : ℕ) :
    Tendsto (fun lr => (L (descent G b1 p lr n).2 - L p) / lr) (𝓝[>] 0) (𝓝 (-(n * ∑ i, g i * downward (G p) p i))) := by
  have hr := (descent_rate G b1 hb0 hb1 p hG n).2.2.2
  set y : ℝ → ι → ℝ := fun lr => (descent G b1 p lr n).2 with hy
  have hlim : Tendsto (fun lr => (lr⁻¹ : ℝ) • (y lr - p)) (𝓝[>] 0) (𝓝 fun i => -(n * downward (G p) p i)) := tendsto_pi_nhds.2 fun i => by
    refine (hr i).congr fun lr => ?_
    simp only [Pi.smul_apply, Pi.sub_apply, smul_eq_mul, hy]
    rw [div_eq_inv_mul]
  have h0 : Tendsto y (𝓝[>] 0) (𝓝 p) := tendsto_pi_nhds.2 fun i => tendsto_of_rate (hr i)
  have h1 : Tendsto (fun lr => y lr - p) (𝓝[>] 0) (𝓝 0) := by simpa using h0.sub_const p
  have := (hasFDerivWithinAt_univ.2 hL).lim h1 (Eventually.of_forall fun _ => Set.mem_univ _) hlim
  refine (this.congr fun lr => ?_).trans (le_of_eq ?_)
  · rw [add_sub_cancel, smul_eq_mul, div_eq_inv_mul]
  · congr 1
    simp only [ContinuousLinearMap.sum_apply, ContinuousLinearMap.smul_apply, ContinuousLinearMap.proj_apply, smul_eq_mul]
    rw [← neg_mul, Finset.mul_sum]
    exact Finset.sum_congr rfl fun i _ => by ring

variable {get : M → ι → ℝ} {set : M → (ι → ℝ) → M} {loss : M → List (Pos ℝ d) → ℝ} {grad : M → List (Pos ℝ d) → ι → ℝ}

theorem filterMap_range {α : Type} (l : List α) : (List.range l.length).filterMap (fun j => l[j]?) = l := by
  induction l using List.reverseRecOn with
  | nil => rfl
  | append_singleton l a ih =>
    rw [List.length_append, List.length_singleton, List.range_succ, List.filterMap_append]
    congr 1
    · refine Eq.trans (List.filterMap_congr fun j hj => ?_) ih
      rw [List.getElem?_append_left (List.mem_range.1 hj)]
    · simp

/-- If a batch holds all the data, every epoch is one step on the data. -/
theorem full_epoch (hord : OrderFree loss grad) (rng : Rng ℝ) (hr : rng.Lawful) (ops : FlowOps ℝ d M (AdamState ι)) (lr b1 init : ℝ) (k : Key) (m : M) (o : AdamState ι)
    (data : List (Pos ℝ d)) (hd : data ≠ []) (batch : ℕ) (hb : data.length ≤ batch) :
    trainEpoch rng (trainedBy ops get set loss grad lr b1) init k m o data batch = gradStep get set loss grad lr b1 m o data := by
  have hl : 0 < data.length := List.length_pos_iff.2 hd
  rcases lt_or_eq_of_le hb with h | h
  · simp only [trainEpoch, Nat.div_eq_of_lt h, lt_irrefl, if_false]
    rfl
  · have e1 : data.length / batch = 1 := by rw [← h]; exact Nat.div_self hl
    have hp := hr.perm k data.length
    have e2 : epochBatches rng k data.length batch = [rng.permutation k data.length] := by
      simp only [epochBatches, e1, chunks]
      rw [List.take_of_length_le (l := rng.permutation k data.length) (by rw [hp.length_eq, List.length_range]; omega), List.take_of_length_le (by rw [hp.length_eq, List.length_range]; omega)]
    simp only [trainEpoch, e1, Nat.one_pos, if_true, e2, trainBatches]
    have e3 : ((rng.permutation k data.length).filterMap (data[·]?)).Perm data := by
      refine (hp.filterMap _).trans (List.Perm.of_eq ?_)
      exact filterMap_range data
    obtain ⟨a, b⟩ := hord m _ _ e3
    show gradStep get set loss grad lr b1 m o _ = _
    simp only [gradStep, a, b]

theorem descent_trajectory (hP : Parameters get set) (hord : OrderFree loss grad) (rng : Rng ℝ) (hr : rng.Lawful) (ops : FlowOps ℝ d M (AdamState ι)) (lr b1 init : ℝ)
    (data : List (Pos ℝ d)) (hd : data ≠ []) (batch : ℕ) (hb : data.length ≤ batch) (m : M) (n : ℕ) : ∀ (k : Key) (s : ℕ),
    trajectory rng (trainedBy ops get set loss grad lr b1) init data batch n k (set m (descent (fun p => grad (set m p) data) b1 (get m) lr s).2) (descent (fun p => grad (set m p) data) b1 (get m) lr s).1 =
      (List.range n).map fun e => (loss (set m (descent (fun p => grad (set m p) data) b1 (get m) lr (s + e)).2) data, set m (descent (fun p => grad (set m p) data) b1 (get m) lr (s + e + 1)).2,
        (descent (fun p => grad (set m p) data) b1 (get m) lr (s + e + 1)).1) := by
  induction n with
  | zero => intro k s; rfl
  | succ n ih =>
    intro k s
    set D := fun s => descent (fun p => grad (set m p) data) b1 (get m) lr s with hD
    have e : trainEpoch rng (trainedBy ops get set loss grad lr b1) init (.child k 1) (set m (D s).2) (D s).1 data batch = (loss (set m (D s).2) data, set m (D (s + 1)).2, (D (s + 1)).1) := by
      rw [full_epoch hord rng hr ops lr b1 init _ _ _ data hd batch hb]
      simp only [gradStep, hP.get_set, hP.set_set, hD, descent_succ]
    rw [List.range_succ_eq_map, List.map_cons, List.map_map]
    show (trainEpoch _ _ _ _ _ _ _ _ :: trajectory _ _ _ _ _ _ _ _ _) = _
    rw [e]
    simp only
    rw [ih]
    simp only [hD, Nat.add_zero, List.cons.injEq, true_and]
    refine List.map_congr_left fun e _ => ?_
    simp only [Function.comp, show s + 1 + e = s + e.succ by omega]

theorem real_loss_order : LossOrder ℝ (fun a : ℝ => some a) := by
  intro a b
  simp

/-- **C115.** With a fresh optimizer and batches that hold all the data, the loss falls, to first order in the learning rate, by the same amount in every epoch: the product of the gradient
with the direction of the step. -/
theorem C115_rate (hP : Parameters get set) (hord : OrderFree loss grad) (rng : Rng ℝ) (hr : rng.Lawful) (ops : FlowOps ℝ d M (AdamState ι)) (b1 : ℝ) (hb0 : 0 ≤ b1) (hb1 : b1 < 1) (init : ℝ)
    (k : Key) (m : M) (data : List (Pos ℝ d)) (hd : data ≠ []) (epochs batch : ℕ) (hb : data.length ≤ batch)
    (hs : SmoothLoss get set loss grad (ops.setStats m data) data) (e : ℕ) (he : e < epochs) (l : ℝ → ℝ)
    (hl : ∀ lr, ∃ r, train rng (trainedBy ops get set loss grad lr b1) init k m .init data epochs batch = .ok r ∧ r.losses[e]? = some (l lr)) :
    Tendsto (fun lr => (l lr - loss (ops.setStats m data) data) / lr) (𝓝[>] 0) (𝓝 (-(e * descentRate (grad (ops.setStats m data) data) (get (ops.setStats m data))))) := by
  set m0 := ops.setStats m data with hm0
  have hG : ContinuousAt (fun p => grad (set m0 p) data) (get m0) := hs.cont
  have hx := descent_loss (fun p => grad (set m0 p) data) b1 hb0 hb1 (get m0) hG (fun p => loss (set m0 p) data) _ hs.deriv e
  simp only [hP.set_get] at hx
  refine hx.congr fun lr => ?_
  obtain ⟨r, hr1, hr2⟩ := hl lr
  have hbt : 0 < batch := lt_of_lt_of_le (List.length_pos_iff.2 hd) hb
  obtain ⟨r', h1, h2, -, -⟩ := C48_best_snapshot rng (trainedBy ops get set loss grad lr b1) init k m .init data epochs batch hbt _ real_loss_order init rfl
  obtain rfl : r = r' := by rw [hr1] at h1; injection h1
  have ht := descent_trajectory hP hord rng hr ops lr b1 init data hd batch hb m0 epochs k 0
  have e0 : descent (fun p => grad (set m0 p) data) b1 (get m0) lr 0 = (.init, get m0) := rfl
  rw [e0] at ht
  simp only [hP.set_get, Nat.zero_add] at ht
  have h2' : r.losses = (trajectory rng (trainedBy ops get set loss grad lr b1) init data batch epochs k m0 .init).map (·.1) := h2
  rw [h2', ht, List.map_map, List.getElem?_map, List.getElem?_range he] at hr2
  simp only [Option.map_some, Function.comp, Option.some.injEq] at hr2
  rw [hr2]

/-- What one training call with all the data in a batch returns. -/
theorem full_train (hP : Parameters get set) (hord : OrderFree loss grad) (rng : Rng ℝ) (hr : rng.Lawful) (ops : FlowOps ℝ d M (AdamState ι)) (lr b1 init : ℝ)
    (k : Key) (m m0 : M) (data : List (Pos ℝ d)) (hm0 : m0 = ops.setStats m data) (hd : data ≠ []) (epochs batch : ℕ) (hb : data.length ≤ batch) :
    ∃ r, train rng (trainedBy ops get set loss grad lr b1) init k m .init data epochs batch = .ok r ∧
      r.losses = (List.range epochs).map (fun e => loss (set m0 (descent (fun p => grad (set m0 p) data) b1 (get m0) lr e).2) data) ∧
      (((∀ e < epochs, init ≤ loss (set m0 (descent (fun p => grad (set m0 p) data) b1 (get m0) lr e).2) data) ∧ r.model = m) ∨
        ∃ e < epochs, r.model = set m0 (descent (fun p => grad (set m0 p) data) b1 (get m0) lr (e + 1)).2 ∧
          ∀ e' < epochs, loss (set m0 (descent (fun p => grad (set m0 p) data) b1 (get m0) lr e).2) data ≤ loss (set m0 (descent (fun p => grad (set m0 p) data) b1 (get m0) lr e').2) data) := by
  have hbt : 0 < batch := lt_of_lt_of_le (List.length_pos_iff.2 hd) hb
  obtain ⟨r, h1, h2, -, h4⟩ := C48_best_snapshot rng (trainedBy ops get set loss grad lr b1) init k m .init data epochs batch hbt _ real_loss_order init rfl
  have ht := descent_trajectory hP hord rng hr ops lr b1 init data hd batch hb m0 epochs k 0
  have e0 : descent (fun p => grad (set m0 p) data) b1 (get m0) lr 0 = (.init, get m0) := rfl
  rw [e0] at ht
  simp only [hP.set_get, Nat.zero_add] at ht
  have hst : (trainedBy ops get set loss grad lr b1).setStats m data = m0 := hm0.symm
  rw [hst, ht] at h2 h4
  refine ⟨r, h1, ?_, ?_⟩
  · rw [h2, List.map_map]; rfl
  · rcases h4 with ⟨ha, hm, -⟩ | ⟨e, l, x, he, hx, -, hmin⟩
    · exact .inl ⟨fun e he => ha _ (List.mem_map.2 ⟨e, List.mem_range.2 he, rfl⟩) _ rfl, hm⟩
    · have hlt : e < epochs := by
        by_contra hc
        rw [List.getElem?_eq_none (by simpa using hc)] at he
        cases he
      rw [List.getElem?_map, List.getElem?_range hlt] at he
      simp only [Option.map_some, Option.some.injEq, Prod.mk.injEq] at he
      refine .inr ⟨e, hlt, he.2.1.symm, fun e' he' => ?_⟩
      have := (hmin e' _ _ (by rw [List.getElem?_map, List.getElem?_range he']; rfl) rfl).1
      simp only [Option.some.injEq] at hx
      rw [he.1, hx]
      exact this

/-- For small learning rates the losses of successive epochs are ordered as the rate says. -/
theorem descent_ordered (G : (ι → ℝ) → ι → ℝ) (b1 : ℝ) (hb0 : 0 ≤ b1) (hb1 : b1 < 1) (p : ι → ℝ) (hG : ContinuousAt G p) (L : (ι → ℝ) → ℝ)
    (hL : HasFDerivAt L (∑ i, G p i • (ContinuousLinearMap.proj i : (ι → ℝ) →L[ℝ] ℝ)) p) (n : ℕ) :
    ∃ lr₀ > 0, ∀ lr, 0 < lr → lr < lr₀ → (0 < descentRate (G p) p → ∀ e < n, L (descent G b1 p lr (e + 1)).2 < L (descent G b1 p lr e).2) ∧
      (descentRate (G p) p < 0 → ∀ e < n, L (descent G b1 p lr e).2 < L (descent G b1 p lr (e + 1)).2) := by
  have hstep : ∀ e : ℕ, Tendsto (fun lr => (L (descent G b1 p lr (e + 1)).2 - L (descent G b1 p lr e).2) / lr) (𝓝[>] 0) (𝓝 (-descentRate (G p) p)) := fun e => by
    refine (((descent_loss G b1 hb0 hb1 p hG L _ hL (e + 1)).sub (descent_loss G b1 hb0 hb1 p hG L _ hL e)).congr fun lr => ?_).trans (le_of_eq ?_)
    · rw [← sub_div]; congr 1; ring
    · congr 1; rw [descentRate]; push_cast; ring
  have hev : ∀ e, ∀ᶠ lr in 𝓝[>] (0 : ℝ), (0 < descentRate (G p) p → L (descent G b1 p lr (e + 1)).2 < L (descent G b1 p lr e).2) ∧
      (descentRate (G p) p < 0 → L (descent G b1 p lr e).2 < L (descent G b1 p lr (e + 1)).2) := fun e => by
    rcases lt_trichotomy (descentRate (G p) p) 0 with h | h | h
    · filter_upwards [(hstep e).eventually (lt_mem_nhds (neg_pos.2 h)), self_mem_nhdsWithin] with lr h1 h2
      refine ⟨fun h' => absurd h (not_lt.2 h'.le), fun _ => ?_⟩
      have := (div_pos_iff_of_pos_right (Set.mem_Ioi.1 h2)).1 h1
      linarith
    · exact Eventually.of_forall fun lr => ⟨fun h' => absurd h h'.ne', fun h' => absurd h h'.ne⟩
    · filter_upwards [(hstep e).eventually (gt_mem_nhds (neg_lt_zero.2 h)), self_mem_nhdsWithin] with lr h1 h2
      refine ⟨fun _ => ?_, fun h' => absurd h (not_lt.2 h'.le)⟩
      have := (div_lt_iff₀ (Set.mem_Ioi.1 h2)).1 h1
      linarith
  have hall : ∀ᶠ lr in 𝓝[>] (0 : ℝ), ∀ e ∈ Finset.range n, (0 < descentRate (G p) p → L (descent G b1 p lr (e + 1)).2 < L (descent G b1 p lr e).2) ∧
      (descentRate (G p) p < 0 → L (descent G b1 p lr e).2 < L (descent G b1 p lr (e + 1)).2) := (Finset.eventually_all _).2 fun e _ => hev e
  obtain ⟨lr₀, h0, hh⟩ := mem_nhdsGT_iff_exists_Ioo_subset.1 hall
  exact ⟨lr₀, h0, fun lr g0 g1 => ⟨fun h e he => (hh ⟨g0, g1⟩ e (Finset.mem_range.2 he)).1 h, fun h e he => (hh ⟨g0, g1⟩ e (Finset.mem_range.2 he)).2 h⟩⟩

/-- **C115.** With a fresh optimizer, batches that hold all the data, a positive rate and a learning rate that is small enough, the losses of successive epochs fall strictly, starting from the
loss of the model whose statistics were just set, and the model that is returned has a smaller loss than all of them. -/
theorem C115_improves (hP : Parameters get set) (hord : OrderFree loss grad) (rng : Rng ℝ) (hr : rng.Lawful) (ops : FlowOps ℝ d M (AdamState ι)) (b1 : ℝ) (hb0 : 0 ≤ b1) (hb1 : b1 < 1) (init : ℝ)
    (k : Key) (m : M) (data : List (Pos ℝ d)) (hd : data ≠ []) (epochs : ℕ) (hn : 0 < epochs) (batch : ℕ) (hb : data.length ≤ batch)
    (hs : SmoothLoss get set loss grad (ops.setStats m data) data) (hinit : loss (ops.setStats m data) data < init)
    (hrate : 0 < descentRate (grad (ops.setStats m data) data) (get (ops.setStats m data))) :
    ∃ lr₀ > 0, ∀ lr, 0 < lr → lr < lr₀ → ∃ r, train rng (trainedBy ops get set loss grad lr b1) init k m .init data epochs batch = .ok r ∧ r.losses.length = epochs ∧
      r.losses[0]? = some (loss (ops.setStats m data) data) ∧ r.losses.Pairwise (fun a b => b < a) ∧ ∀ l ∈ r.losses, loss r.model data < l := by
  obtain ⟨m0, hm0⟩ : ∃ m0, m0 = ops.setStats m data := ⟨_, rfl⟩
  rw [← hm0] at hs hinit hrate ⊢
  have hgm : grad (set m0 (get m0)) data = grad m0 data := by rw [hP.set_get]
  obtain ⟨lr₀, h0, hh⟩ := descent_ordered (fun p => grad (set m0 p) data) b1 hb0 hb1 (get m0) hs.cont (fun p => loss (set m0 p) data) (by simp only [hP.set_get]; exact hs.deriv) epochs
  refine ⟨lr₀, h0, fun lr g0 g1 => ?_⟩
  have hdec := (hh lr g0 g1).1 (by simp only [hP.set_get]; exact hrate)
  obtain ⟨r, h1, h2, h3⟩ := full_train hP hord rng hr ops lr b1 init k m m0 data hm0 hd epochs batch hb
  set l : ℕ → ℝ := fun e => loss (set m0 (descent (fun p => grad (set m0 p) data) b1 (get m0) lr e).2) data with hl
  have l0 : l 0 = loss m0 data := by
    show loss (set m0 (get m0)) data = _
    rw [hP.set_get]
  have hanti : ∀ b ≤ epochs, ∀ a < b, l b < l a := by
    intro b hb
    induction b with
    | zero => intro a ha; omega
    | succ b ih =>
      intro a ha
      have h1 : l (b + 1) < l b := hdec b (by omega)
      rcases Nat.lt_succ_iff_lt_or_eq.1 ha with h | rfl
      · exact h1.trans (ih (by omega) a h)
      · exact h1
  refine ⟨r, h1, by rw [h2]; simp, ?_, ?_, ?_⟩
  · rw [h2, List.getElem?_map, List.getElem?_range hn]
    exact congrArg some l0
  · rw [h2, List.pairwise_map]
    refine List.pairwise_lt_range.imp_of_mem fun {a b} ha hb hab => hanti b (List.mem_range.1 hb).le a hab
  · rcases h3 with ⟨hall, -⟩ | ⟨e, he, hm, hmin⟩
    · exact absurd (hall 0 hn) (not_le.2 (by rw [show loss (set m0 (descent (fun p => grad (set m0 p) data) b1 (get m0) lr 0).2) data = l 0 from rfl, l0]; exact hinit))
    · have hlast : e + 1 = epochs := by
        by_contra hc
        exact absurd (hmin (e + 1) (by omega)) (not_le.2 (hanti (e + 1) (by omega) e (by omega)))
      intro x hx
      rw [h2] at hx
      obtain ⟨a, ha, rfl⟩ := List.mem_map.1 hx
      rw [hm]
      exact hanti (e + 1) (by omega) a (by have := List.mem_range.1 ha; omega)

/-- **C115.** If the rate is negative - weight decay works against the gradient and wins - then for every learning rate that is small enough the model that is returned is worse than the one
training started from. -/
theorem C115_decay (hP : Parameters get set) (hord : OrderFree loss grad) (rng : Rng ℝ) (hr : rng.Lawful) (ops : FlowOps ℝ d M (AdamState ι)) (b1 : ℝ) (hb0 : 0 ≤ b1) (hb1 : b1 < 1) (init : ℝ)
    (k : Key) (m : M) (data : List (Pos ℝ d)) (hd : data ≠ []) (epochs : ℕ) (hn : 0 < epochs) (batch : ℕ) (hb : data.length ≤ batch)
    (hs : SmoothLoss get set loss grad (ops.setStats m data) data) (hinit : loss (ops.setStats m data) data < init)
    (hrate : descentRate (grad (ops.setStats m data) data) (get (ops.setStats m data)) < 0) :
    ∃ lr₀ > 0, ∀ lr, 0 < lr → lr < lr₀ → ∃ r, train rng (trainedBy ops get set loss grad lr b1) init k m .init data epochs batch = .ok r ∧ r.losses.Pairwise (fun a b => a < b) ∧
      loss (ops.setStats m data) data < loss r.model data := by
  obtain ⟨m0, hm0⟩ : ∃ m0, m0 = ops.setStats m data := ⟨_, rfl⟩
  rw [← hm0] at hs hinit hrate ⊢
  obtain ⟨lr₀, h0, hh⟩ := descent_ordered (fun p => grad (set m0 p) data) b1 hb0 hb1 (get m0) hs.cont (fun p => loss (set m0 p) data) (by simp only [hP.set_get]; exact hs.deriv) epochs
  refine ⟨lr₀, h0, fun lr g0 g1 => ?_⟩
  have hinc := (hh lr g0 g1).2 (by simp only [hP.set_get]; exact hrate)
  obtain ⟨r, h1, h2, h3⟩ := full_train hP hord rng hr ops lr b1 init k m m0 data hm0 hd epochs batch hb
  set l : ℕ → ℝ := fun e => loss (set m0 (descent (fun p => grad (set m0 p) data) b1 (get m0) lr e).2) data with hl
  have l0 : l 0 = loss m0 data := by
    show loss (set m0 (get m0)) data = _
    rw [hP.set_get]
  have hmono : ∀ b ≤ epochs, ∀ a < b, l a < l b := by
    intro b hb
    induction b with
    | zero => intro a ha; omega
    | succ b ih =>
      intro a ha
      have h1 : l b < l (b + 1) := hinc b (by omega)
      rcases Nat.lt_succ_iff_lt_or_eq.1 ha with h | rfl
      · exact (ih (by omega) a h).trans h1
      · exact h1
  refine ⟨r, h1, ?_, ?_⟩
  · rw [h2, List.pairwise_map]
    refine List.pairwise_lt_range.imp_of_mem fun {a b} ha hb hab => hmono b (List.mem_range.1 hb).le a hab
  · rcases h3 with ⟨hall, -⟩ | ⟨e, he, hm, hmin⟩
    · exact absurd (hall 0 hn) (not_le.2 (by rw [show loss (set m0 (descent (fun p => grad (set m0 p) data) b1 (get m0) lr 0).2) data = l 0 from rfl, l0]; exact hinit))
    · rw [hm, ← l0]
      exact hmono (e + 1) (by omega) 0 (by omega)

/-- **C115.** The rate is positive if some derivative is not zero and no parameter is so large that its weight decay outweighs its gradient: it suffices that every parameter with a
non-zero derivative is below `10⁴ c / (c + 10⁻⁸)`, where `c` is the size of its derivative after the gradient was shortened to length one. -/
theorem C115_when (g p : ι → ℝ) (hne : ∃ i, g i ≠ 0) (hsmall : ∀ i, g i ≠ 0 → |p i| < 10 ^ 4 * (|shortened g i| / (|shortened g i| + 1 / 10 ^ 8))) : 0 < descentRate g p := by
  have hpos : ∀ i, g i ≠ 0 → 0 < g i * downward g p i := fun i hi => by
    have hsm := hsmall i hi
    set c := shortened g i with hc
    have hN : 0 < max 1 (Real.sqrt (∑ j, g j ^ 2)) := by positivity
    have hgc : g i = max 1 (Real.sqrt (∑ j, g j ^ 2)) * c := by
      rw [hc, shortened]; field_simp
    have hc0 : c ≠ 0 := fun h => hi (by rw [hgc, h, mul_zero])
    have hD : 0 < |c| + 1 / 10 ^ 8 := by positivity
    rw [hgc, downward, ← hc, mul_assoc]
    refine mul_pos hN ?_
    have e : c * (c / (|c| + 1 / 10 ^ 8) + 1 / 10000 * p i) = |c| * (|c| / (|c| + 1 / 10 ^ 8)) + 1 / 10000 * (c * p i) := by
      rw [mul_add, mul_div_assoc', mul_div_assoc', ← sq, ← sq, sq_abs]; ring
    rw [e]
    have h1 : -(|c| * |p i|) ≤ c * p i := by rw [← abs_mul]; exact neg_abs_le _
    have h2 : |c| * |p i| < |c| * (10 ^ 4 * (|c| / (|c| + 1 / 10 ^ 8))) := mul_lt_mul_of_pos_left hsm (abs_pos.2 hc0)
    nlinarith
  obtain ⟨i0, hi0⟩ := hne
  refine Finset.sum_pos' (fun i _ => ?_) ⟨i0, Finset.mem_univ _, hpos i0 hi0⟩
  by_cases h : g i = 0
  · rw [h, zero_mul]
  · exact (hpos i h).le

end
end FlowMC
