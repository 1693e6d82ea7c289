import Verif.Model.FMTrain
import Verif.Model.Stats
import Verif.Props.Training
import Mathlib.Tactic.Ring
import Mathlib.Tactic.FieldSimp
import Mathlib.Tactic.Linarith
import Mathlib.Tactic.NormNum
/-
C68 (flow-matching training), C69 (data statistics and whitening).
-/
set_option linter.unusedSectionVars false
namespace FlowMC
open Spec

section
variable {F : Type} {d : Nat} {M O : Type} [Add F] [Sub F] [Mul F] [Div F]

/-! ### C68 -/

/-- Loss, model and optimiser state at the end of each of `n` successive epochs of flow-matching training: every epoch continues from the previous one, with its own
fresh key. -/
def Spec.fmTrajectory (rng : Rng F) (ops : FMOps F d M O) (init : F) (data : List (FMRow F d)) (batch : Nat) : Nat → Key → M → O → List (F × M × O)
  | 0, _, _, _ => []
  | n + 1, k, m, o =>
    let r := fmTrainEpoch rng ops init (.child k 1) m o data batch
    r :: Spec.fmTrajectory rng ops init data batch n (.child k 0) r.2.1 r.2.2

/-- What the optimiser must be given for one training row: the point on the path at time `t` between `x0` and the whitened `x1`, the time, and the velocity of the path.
`α, α', σ, σ'` are the scheduler's values. -/
def Spec.FMExample (mean std : Pos F d) (sched : F → F × F × F × F) (r : FMRow F d) (e : Pos F d × F × Pos F d) : Prop :=
  e.2.1 = r.t ∧ ∀ α α' σ σ', sched r.t = (α, α', σ, σ') → ∀ i,
    e.1 i = σ * r.x0 i + α * ((r.x1 i - mean i) / std i) ∧ e.2.2 i = σ' * r.x0 i + α' * ((r.x1 i - mean i) / std i)

theorem fmInput_example (ops : FMOps F d M O) (self : M) (r : FMRow F d) : FMExample (ops.mean self) (ops.std self) ops.sched r (fmInput ops self r) := by
  refine ⟨rfl, fun α α' σ σ' h i => ?_⟩
  simp only [fmInput, fmPath, h, and_self]

theorem fmTrainBatches_foldl (ops : FMOps F d M O) (self : M) (data : List (FMRow F d)) (bs : List (List Nat)) : ∀ s,
    fmTrainBatches ops self data bs s = bs.foldl (fun s b => ops.trainStep s.2.1 s.2.2 ((b.filterMap (data[·]?)).map (fmInput ops self))) s := by
  induction bs with
  | nil => intro s; rfl
  | cons b bs ih => intro s; simp [fmTrainBatches, ih]

theorem filterMap_getElem {α : Type} (data : List α) : ∀ B : List Nat, (∀ i ∈ B, i < data.length) →
    (B.filterMap (data[·]?)).length = B.length ∧ ∀ j i : Nat, B[j]? = some i → (B.filterMap (data[·]?))[j]? = data[i]? := by
  intro B
  induction B with
  | nil => simp
  | cons i B ih =>
    intro h
    have hi := h i (by simp)
    obtain ⟨h1, h2⟩ := ih (fun j hj => h j (by simp [hj]))
    rw [List.filterMap_cons, List.getElem?_eq_getElem hi]
    refine ⟨by simp [h1], fun j i' hj => ?_⟩
    cases j with
    | zero => simp at hj; subst hj; simp [hi]
    | succ j => simpa using h2 j i' (by simpa using hj)

/-- **C68.** One epoch of flow-matching training with `0 < b ≤ n` rows is a sequence of `n / b` optimiser steps.  There are batches of row indices, each of exactly `b`
indices, no index in two places, fewer than `b` rows unused; the `j`-th example of a step is built from `x0`, `x1` and `t` of one and the same row, with `x1` whitened by
the statistics the model had when the epoch began.  The epoch's loss, model and state are those of the last step. -/
theorem C68_epoch (rng : Rng F) (hr : rng.Lawful) (ops : FMOps F d M O) (init : F) (k : Key) (m : M) (o : O) (data : List (FMRow F d)) (b : Nat)
    (hb : 0 < b) (hle : b ≤ data.length) :
    ∃ (batches : List (List Nat)) (examples : List (List (Pos F d × F × Pos F d))),
      batches.length = data.length / b ∧ (∀ B ∈ batches, B.length = b) ∧ batches.flatten.Nodup ∧ batches.flatten.length + data.length % b = data.length ∧
      List.Forall₂ (List.Forall₂ fun i e => ∃ r, data[i]? = some r ∧ FMExample (ops.mean m) (ops.std m) ops.sched r e) batches examples ∧
      fmTrainEpoch rng ops init k m o data b = examples.foldl (fun s E => ops.trainStep s.2.1 s.2.2 E) (init, m, o) := by
  obtain ⟨h1, h2, h3, h4, h5, _⟩ := C49_batches rng hr k data.length b hb
  refine ⟨epochBatches rng k data.length b, (epochBatches rng k data.length b).map (fun B => (B.filterMap (data[·]?)).map (fmInput ops m)), h1, h2, h3, h5, ?_, ?_⟩
  · rw [List.forall₂_map_right_iff]
    refine List.forall₂_same.2 fun B hB => ?_
    have hin : ∀ i ∈ B, i < data.length := fun i hi => h4 i (List.mem_flatten.2 ⟨B, hB, hi⟩)
    clear hB
    induction B with
    | nil => simp
    | cons i B ih =>
      have hi := hin i (by simp)
      rw [List.filterMap_cons, List.getElem?_eq_getElem hi]
      exact List.Forall₂.cons ⟨_, List.getElem?_eq_getElem hi, fmInput_example ops m _⟩ (ih fun j hj => hin j (by simp [hj]))
  · rw [fmTrainEpoch, if_pos (Nat.div_pos hle hb), fmTrainBatches_foldl, List.foldl_map]

/-- **C68.** If the batch size exceeds the number of rows, an epoch is one optimiser step on all rows in order. -/
theorem C68_small (rng : Rng F) (ops : FMOps F d M O) (init : F) (k : Key) (m : M) (o : O) (data : List (FMRow F d)) (b : Nat) (hlt : data.length < b) :
    ∃ E, List.Forall₂ (FMExample (ops.mean m) (ops.std m) ops.sched) data E ∧ fmTrainEpoch rng ops init k m o data b = ops.trainStep m o E := by
  refine ⟨data.map (fmInput ops m), ?_, ?_⟩
  · rw [List.forall₂_map_right_iff]
    exact List.forall₂_same.2 fun r _ => fmInput_example ops m r
  · rw [fmTrainEpoch, if_neg (by rw [Nat.div_eq_of_lt hlt]; omega)]

variable [FCmp F] {L : Type} [LinearOrder L]

theorem fmTrainLoop_best (rng : Rng F) (ops : FMOps F d M O) (init : F) (data : List (FMRow F d)) (batch : Nat) (ord : F → Option L)
    (hord : LossOrder F ord) (n : Nat) : ∀ (s : TrainState F M O) (b : L), ord s.bestLoss = some b →
    (fmTrainLoop rng ops init data batch n s).losses = s.losses ++ (fmTrajectory rng ops init data batch n s.rng s.model s.state).map (·.1) ∧
    FirstBest ord b (fmTrajectory rng ops init data batch n s.rng s.model s.state) s.bestModel s.bestState
      (fmTrainLoop rng ops init data batch n s).bestModel (fmTrainLoop rng ops init data batch n s).bestState := by
  induction n with
  | zero => intro s b hb; exact ⟨by simp [fmTrainLoop, fmTrajectory], .inl ⟨by simp [fmTrajectory], rfl, rfl⟩⟩
  | succ n ih =>
    intro s b hb
    simp only [fmTrainLoop, fmTrajectory]
    generalize hr : fmTrainEpoch rng ops init (Key.child s.rng 1) s.model s.state data batch = r
    by_cases hbetter : FCmp.blt r.1 s.bestLoss = true
    · have hs : fmTrainLoopBody rng ops init data batch s =
          { rng := .child s.rng 0, model := r.2.1, state := r.2.2, bestModel := r.2.1, bestState := r.2.2, bestLoss := r.1,
            losses := s.losses ++ [r.1] } := by
        simp only [fmTrainLoopBody, split, hr, hbetter, if_true]
      obtain ⟨x0, y0, hx0, hy0, hlt⟩ := (hord _ _).1 hbetter
      rw [hb] at hy0
      cases hy0
      rw [hs]
      obtain ⟨h1, h2⟩ := ih ⟨.child s.rng 0, r.2.1, r.2.2, r.2.1, r.2.2, r.1, s.losses ++ [r.1]⟩ x0 hx0
      refine ⟨by simp [h1], .inr ?_⟩
      rcases h2 with ⟨hall, hm, ho⟩ | ⟨e, loss, x, he, hx, hxb, hmin⟩
      · refine ⟨0, r.1, x0, ?_, hx0, hlt, ?_⟩
        · rw [hm, ho]; rfl
        · intro e' t x' ht hx'
          refine ⟨?_, fun h => absurd h (Nat.not_lt_zero _)⟩
          cases e' with
          | zero => simp only [List.getElem?_cons_zero, Option.some.injEq] at ht; subst ht; rw [hx0] at hx'; cases hx'; exact le_refl _
          | succ e' =>
            rw [List.getElem?_cons_succ] at ht
            exact hall t (List.mem_of_getElem? ht) x' hx'
      · refine ⟨e + 1, loss, x, by simpa using he, hx, hxb.trans hlt, ?_⟩
        intro e' t x' ht hx'
        cases e' with
        | zero =>
          simp only [List.getElem?_cons_zero, Option.some.injEq] at ht; subst ht
          rw [hx0] at hx'; cases hx'
          exact ⟨hxb.le, fun _ => hxb⟩
        | succ e' =>
          rw [List.getElem?_cons_succ] at ht
          have := hmin e' t x' ht hx'
          exact ⟨this.1, fun h => this.2 (by omega)⟩
    · have hbf : FCmp.blt r.1 s.bestLoss = false := by simpa using hbetter
      have hs : fmTrainLoopBody rng ops init data batch s =
          { rng := .child s.rng 0, model := r.2.1, state := r.2.2, bestModel := s.bestModel, bestState := s.bestState, bestLoss := s.bestLoss,
            losses := s.losses ++ [r.1] } := by
        simp only [fmTrainLoopBody, split, hr, hbf, Bool.false_eq_true, if_false]
      have hge : ∀ x, ord r.1 = some x → b ≤ x := by
        intro x hx
        by_contra hcon
        exact hbetter ((hord _ _).2 ⟨x, b, hx, hb, not_le.1 hcon⟩)
      rw [hs]
      obtain ⟨h1, h2⟩ := ih ⟨.child s.rng 0, r.2.1, r.2.2, s.bestModel, s.bestState, s.bestLoss, s.losses ++ [r.1]⟩ b hb
      refine ⟨by simp [h1], ?_⟩
      rcases h2 with ⟨hall, hm, ho⟩ | ⟨e, loss, x, he, hx, hxb, hmin⟩
      · refine .inl ⟨?_, hm, ho⟩
        intro t ht x hx
        rcases List.mem_cons.1 ht with rfl | ht
        · exact hge x hx
        · exact hall t ht x hx
      · refine .inr ⟨e + 1, loss, x, by simpa using he, hx, hxb, ?_⟩
        intro e' t x' ht hx'
        cases e' with
        | zero =>
          simp only [List.getElem?_cons_zero, Option.some.injEq] at ht; subst ht
          have := hge x' hx'
          exact ⟨hxb.le.trans this, fun _ => lt_of_lt_of_le hxb this⟩
        | succ e' =>
          rw [List.getElem?_cons_succ] at ht
          have := hmin e' t x' ht hx'
          exact ⟨this.1, fun h => this.2 (by omega)⟩

theorem fmTrajectory_length (rng : Rng F) (ops : FMOps F d M O) (init : F) (data : List (FMRow F d)) (batch : Nat) (n : Nat) :
    ∀ k m o, (fmTrajectory rng ops init data batch n k m o).length = n := by
  induction n with
  | zero => intro k m o; rfl
  | succ n ih => intro k m o; simp [fmTrajectory, ih]

/-- **C68.** `FlowMatchingModel.train` succeeds for every positive batch size; training starts from the model with the statistics of the rows of `x1`; one loss per
epoch is returned in order; the model and optimiser state are those of the first epoch with the smallest loss below `1e9` (never of an epoch with a NaN loss), or the
ones passed in if there is none. -/
theorem C68_best_snapshot (rng : Rng F) (ops : FMOps F d M O) (init : F) (k : Key) (m : M) (o : O) (data : List (FMRow F d))
    (epochs batch : Nat) (hbatch : 0 < batch) (ord : F → Option L) (hord : LossOrder F ord) (bound : L) (hinit : ord init = some bound) :
    ∃ r, fmTrain rng ops init k m o data epochs batch = .ok r ∧
      r.losses = (fmTrajectory rng ops init data batch epochs k (ops.setStats m (data.map (·.x1))) o).map (·.1) ∧
      r.losses.length = epochs ∧
      FirstBest ord bound (fmTrajectory rng ops init data batch epochs k (ops.setStats m (data.map (·.x1))) o) m o r.model r.state := by
  have hb : ¬ (batch = 0 ∧ 0 < epochs) := by omega
  obtain ⟨h1, h2⟩ := fmTrainLoop_best rng ops init data batch ord hord epochs (fmTrainInit ops init k m o data) bound hinit
  refine ⟨_, by simp only [fmTrain, if_neg hb]; rfl, ?_, ?_, ?_⟩
  · simpa [fmTrainInit] using h1
  · simp only [h1]; simp [fmTrainInit, fmTrajectory_length]
  · simpa [fmTrainInit] using h2

theorem fmTrainBatches_stats (ops : FMOps F d M O) (self : M) (data : List (FMRow F d)) (Q : M → Prop) (hQ : ∀ m o E, Q m → Q (ops.trainStep m o E).2.1) (bs : List (List Nat)) :
    ∀ s, Q s.2.1 → Q (fmTrainBatches ops self data bs s).2.1 := by
  induction bs with
  | nil => intro s h; exact h
  | cons b bs ih => intro s h; exact ih _ (hQ _ _ _ h)

theorem fmTrajectory_inv (rng : Rng F) (ops : FMOps F d M O) (init : F) (data : List (FMRow F d)) (batch : Nat) (Q : M → Prop)
    (hQ : ∀ m o E, Q m → Q (ops.trainStep m o E).2.1) (n : Nat) : ∀ k m o, Q m → ∀ t ∈ fmTrajectory rng ops init data batch n k m o, Q t.2.1 := by
  induction n with
  | zero => intro k m o _ t ht; simp [fmTrajectory] at ht
  | succ n ih =>
    intro k m o hm t ht
    have hr : Q (fmTrainEpoch rng ops init (.child k 1) m o data batch).2.1 := by
      unfold fmTrainEpoch
      split
      · exact fmTrainBatches_stats ops m data Q hQ _ _ hm
      · exact hQ _ _ _ hm
    simp only [fmTrajectory, List.mem_cons] at ht
    rcases ht with rfl | ht
    · exact hr
    · exact ih _ _ _ hr t ht

/-- **C68.** With an optimiser that does not move the statistics (no weight decay, see C52), every epoch of the run, not only the first, whitens with the statistics
assigned from the rows of `x1`, and the returned model is either the one passed in or carries exactly those statistics. -/
theorem C68_stats (rng : Rng F) (ops : FMOps F d M O) (init : F) (k : Key) (m : M) (o : O) (data : List (FMRow F d)) (epochs batch : Nat) (hbatch : 0 < batch)
    (ord : F → Option L) (hord : LossOrder F ord) (bound : L) (hinit : ord init = some bound)
    (hkeep : ∀ m o E, ops.mean (ops.trainStep m o E).2.1 = ops.mean m ∧ ops.std (ops.trainStep m o E).2.1 = ops.std m) :
    (∀ t ∈ fmTrajectory rng ops init data batch epochs k (ops.setStats m (data.map (·.x1))) o,
      ops.mean t.2.1 = ops.mean (ops.setStats m (data.map (·.x1))) ∧ ops.std t.2.1 = ops.std (ops.setStats m (data.map (·.x1)))) ∧
    ∃ r, fmTrain rng ops init k m o data epochs batch = .ok r ∧ (r.model = m ∨
      ops.mean r.model = ops.mean (ops.setStats m (data.map (·.x1))) ∧ ops.std r.model = ops.std (ops.setStats m (data.map (·.x1)))) := by
  have hall := fmTrajectory_inv rng ops init data batch
    (fun m' => ops.mean m' = ops.mean (ops.setStats m (data.map (·.x1))) ∧ ops.std m' = ops.std (ops.setStats m (data.map (·.x1))))
    (fun m' o E h => ⟨(hkeep m' o E).1.trans h.1, (hkeep m' o E).2.trans h.2⟩) epochs k (ops.setStats m (data.map (·.x1))) o ⟨rfl, rfl⟩
  refine ⟨hall, ?_⟩
  obtain ⟨r, hr, _, _, hbest⟩ := C68_best_snapshot rng ops init k m o data epochs batch hbatch ord hord bound hinit
  refine ⟨r, hr, ?_⟩
  rcases hbest with ⟨_, hm, _⟩ | ⟨e, loss, x, he, _⟩
  · exact .inl hm
  · exact .inr (hall _ (List.mem_of_getElem? he))

end

/-- A tiny flow-matching setting over the integers for the examples: the model is a counter of optimiser steps together with a mean; the loss is the number of rows. -/
def Toy.fmOps : FMOps ℤ 1 (ℤ × ℤ) Unit where
  mean m _ := m.1
  std _ _ := 1
  setStats m rows := ((rows.map (· 0)).sum, m.2)
  sched t := (t, 1, 1 - t, -1)
  trainStep m _ E := ((E.map (fun e => e.1 0 + e.2.2 0)).sum, (m.1, m.2 + 1), ())

instance : FCmp ℤ where
  blt a b := decide (a < b)

/-- Seven rows, batch size 3, two epochs: two steps per epoch; the loss is computed from whitened targets (mean 21). -/
example : fmTrain (F := ℤ) { uniform := fun _ => 0, normal := fun _ _ _ => 0, permutation := fun _ n => List.range n, choice := fun _ _ m => List.replicate m 0 }
    Toy.fmOps 1000 (.root 0) (0, 0) () ((List.range 7).map fun i => ⟨fun _ => 0, fun _ => (i : ℤ), 1⟩) 2 3
    = .ok { rng := .child (.child (.root 0) 0) 0, model := (21, 2), state := (), losses := [-102, -102] } := by
  rfl

/-! ### C69 -/

noncomputable section
open Classical
variable {d : Nat}

/-- The average of a list of numbers. -/
def Spec.avg (l : List ℝ) : ℝ := l.sum / l.length

/-- The unbiased sample variance of a list of numbers. -/
def Spec.sampleVar (l : List ℝ) : ℝ := (l.map (fun x => (x - avg l) ^ 2)).sum / (l.length - 1)

theorem rowMean_avg (data : List (Pos ℝ d)) (i : Fin d) : rowMean data i = avg (data.map (· i)) := by simp [rowMean, avg]

theorem rowCov_var (data : List (Pos ℝ d)) (i : Fin d) : rowCov data i i = sampleVar (data.map (· i)) := by
  simp [rowCov, sampleVar, rowMean_avg, List.map_map, Function.comp_def, pow_two]

theorem sum_map_sub_const (l : List ℝ) (c : ℝ) : (l.map (fun x => x - c)).sum = l.sum - l.length * c := by
  induction l with
  | nil => simp
  | cons a l ih => simp [ih]; ring

theorem sum_map_div_const (l : List ℝ) (c : ℝ) : (l.map (fun x => x / c)).sum = l.sum / c := by
  induction l with
  | nil => simp
  | cons a l ih => simp [ih]; ring

theorem sampleVar_pos {l : List ℝ} (hn : 2 ≤ l.length) (hc : ∃ x ∈ l, ∃ y ∈ l, x ≠ y) : 0 < sampleVar l := by
  have hlen : (0 : ℝ) < l.length - 1 := by
    have : (2 : ℝ) ≤ l.length := by exact_mod_cast hn
    linarith
  refine div_pos ?_ hlen
  have hnn : ∀ z ∈ l.map (fun x => (x - avg l) ^ 2), 0 ≤ z := by
    intro z hz; obtain ⟨x, _, rfl⟩ := List.mem_map.1 hz; exact sq_nonneg _
  have h0 := List.sum_nonneg hnn
  refine lt_of_le_of_ne h0 fun h => ?_
  have hz : ∀ x ∈ l, x = avg l := by
    intro x hx
    have : (x - avg l) ^ 2 ≤ 0 := by
      rw [h]; exact List.single_le_sum hnn _ (List.mem_map.2 ⟨x, hx, rfl⟩)
    have := pow_eq_zero_iff two_ne_zero |>.1 (le_antisymm this (sq_nonneg _))
    linarith
  obtain ⟨x, hx, y, hy, hne⟩ := hc
  exact hne ((hz x hx).trans (hz y hy).symm)

/-- **C69.** Whitening with the statistics of the data: for at least two rows and a feature that is not constant, the whitened training data have average 0 and sample
variance 1 in that feature, and un-whitening recovers the data. -/
theorem C69_whitened (data : List (Pos ℝ d)) (i : Fin d) (hn : 2 ≤ data.length) (hc : ∃ x ∈ data, ∃ y ∈ data, x i ≠ y i) :
    avg (data.map (fun r => whiten (rowMean data) (fun j => rowCov data j j) r i)) = 0 ∧
    sampleVar (data.map (fun r => whiten (rowMean data) (fun j => rowCov data j j) r i)) = 1 ∧
    ∀ r : Pos ℝ d, unwhiten (rowMean data) (fun j => rowCov data j j) (whiten (rowMean data) (fun j => rowCov data j j) r) i = r i := by
  set l := data.map (· i) with hl
  have hll : l.length = data.length := by simp [hl]
  have hv : 0 < sampleVar l := sampleVar_pos (by omega) (by
    obtain ⟨x, hx, y, hy, h⟩ := hc
    exact ⟨x i, List.mem_map.2 ⟨x, hx, rfl⟩, y i, List.mem_map.2 ⟨y, hy, rfl⟩, h⟩)
  have hs : 0 < Real.sqrt (sampleVar l) := Real.sqrt_pos.2 hv
  have hw : data.map (fun r => whiten (rowMean data) (fun j => rowCov data j j) r i) = l.map (fun x => (x - avg l) / Real.sqrt (sampleVar l)) := by
    rw [hl, List.map_map]
    refine List.map_congr_left fun r _ => ?_
    simp only [whiten, rowMean_avg, rowCov_var, Function.comp_apply]
  have hrm : rowMean data i = avg l := rowMean_avg data i
  have hrc : rowCov data i i = sampleVar l := rowCov_var data i
  have hlen : (0 : ℝ) < l.length := by rw [hll]; exact_mod_cast (by omega : 0 < data.length)
  clear_value l
  have ha : avg (l.map (fun x => (x - avg l) / Real.sqrt (sampleVar l))) = 0 := by
    have : (l.map (fun x => (x - avg l) / Real.sqrt (sampleVar l))).sum = 0 := by
      have e : l.map (fun x => (x - avg l) / Real.sqrt (sampleVar l)) = (l.map (fun x => x - avg l)).map (fun x => x / Real.sqrt (sampleVar l)) := by
        rw [List.map_map]; rfl
      rw [e, sum_map_div_const, sum_map_sub_const, avg, mul_div_cancel₀ _ hlen.ne', sub_self, zero_div]
    rw [avg, this, zero_div]
  rw [hw]
  refine ⟨ha, ?_, fun r => ?_⟩
  · unfold sampleVar at ha ⊢
    rw [ha]
    have e : ((l.map (fun x => (x - avg l) / Real.sqrt (sampleVar l))).map (fun x => (x - 0) ^ 2)).sum
        = (l.map (fun x => (x - avg l) ^ 2)).sum / sampleVar l := by
      rw [← sum_map_div_const, List.map_map, List.map_map]
      congr 1
      refine List.map_congr_left fun x _ => ?_
      simp only [Function.comp_apply, sub_zero, div_pow, Real.sq_sqrt hv.le]
    have hs0 : (l.map (fun x => (x - avg l) ^ 2)).sum ≠ 0 := by
      intro h0; rw [sampleVar, h0, zero_div] at hv; exact lt_irrefl _ hv
    have hl1 : ((l.length : ℝ) - 1) ≠ 0 := by
      intro h0; rw [sampleVar, h0, div_zero] at hv; exact lt_irrefl _ hv
    unfold sampleVar at e
    rw [e, List.length_map]
    field_simp
  · simp only [unwhiten, whiten, hrm, hrc]
    rw [div_mul_cancel₀ _ hs.ne']
    ring

/-- The hypotheses are met by two different rows. -/
example : (2 ≤ ([fun _ => 0, fun _ => 3] : List (Pos ℝ 2)).length) ∧ ∃ x ∈ ([fun _ => 0, fun _ => 3] : List (Pos ℝ 2)), ∃ y ∈ ([fun _ => 0, fun _ => 3] : List (Pos ℝ 2)), x 0 ≠ y 0 :=
  ⟨by simp, fun _ => 0, by simp, fun _ => 3, by simp, by norm_num⟩

section
variable {F : Type} {M O : Type}

theorem trajectory_inv (rng : Rng F) (ops : FlowOps F d M O) (init : F) (data : List (Pos F d)) (batch : Nat) (Q : M → Prop)
    (hQ : ∀ m o E, Q m → Q (ops.trainStep m o E).2.1) (n : Nat) : ∀ k m o, Q m → ∀ t ∈ trajectory rng ops init data batch n k m o, Q t.2.1 := by
  have hb : ∀ bs s, Q s.2.1 → Q (trainBatches ops data bs s).2.1 := by
    intro bs
    induction bs with
    | nil => intro s h; exact h
    | cons b bs ih => intro s h; exact ih _ (hQ _ _ _ h)
  induction n with
  | zero => intro k m o _ t ht; simp [trajectory] at ht
  | succ n ih =>
    intro k m o hm t ht
    have hr : Q (trainEpoch rng ops init (.child k 1) m o data batch).2.1 := by
      unfold trainEpoch
      split
      · exact hb _ _ hm
      · exact hQ _ _ _ hm
    simp only [trajectory, List.mem_cons] at ht
    rcases ht with rfl | ht
    · exact hr
    · exact ih _ _ _ hr t ht

/-- **C69.** For a spline flow trained by any optimiser that leaves the statistics alone (no weight decay, see C52): every epoch ends with a model that whitens with the
mean and the unbiased covariance of the training data, and so does the returned model unless it is the one passed in. -/
theorem C69_spline_stats [FCmp ℝ] {L : Type} [LinearOrder L] {K : Nat} (rng : Rng ℝ) (ops : FlowOps ℝ d (SplineFlow d K) O) (hset : ops.setStats = SplineFlow.setStats)
    (hkeep : ∀ m o E, (ops.trainStep m o E).2.1.dataMean = m.dataMean ∧ (ops.trainStep m o E).2.1.dataVar = m.dataVar)
    (init : ℝ) (k : Key) (m : SplineFlow d K) (o : O) (data : List (Pos ℝ d)) (epochs batch : Nat) (hbatch : 0 < batch)
    (ord : ℝ → Option L) (hord : LossOrder ℝ ord) (bound : L) (hinit : ord init = some bound) :
    ∃ r, train rng ops init k m o data epochs batch = .ok r ∧ (r.model = m ∨ ∀ i,
      r.model.dataMean i = avg (data.map (· i)) ∧ r.model.dataVar i = sampleVar (data.map (· i))) := by
  obtain ⟨r, hr, _, _, hbest⟩ := C48_best_snapshot rng ops init k m o data epochs batch hbatch ord hord bound hinit
  refine ⟨r, hr, ?_⟩
  have hall := trajectory_inv rng ops init data batch (fun m' : SplineFlow d K => ∀ i, m'.dataMean i = avg (data.map (· i)) ∧ m'.dataVar i = sampleVar (data.map (· i)))
    (fun m' o E h i => by rw [(hkeep m' o E).1, (hkeep m' o E).2]; exact h i) epochs k (ops.setStats m data) o
    (fun i => by rw [hset]; exact ⟨rowMean_avg data i, rowCov_var data i⟩)
  rcases hbest with ⟨_, hm, _⟩ | ⟨e, loss, x, he, _⟩
  · exact .inl hm
  · exact .inr (hall _ (List.mem_of_getElem? he))

/-- **C69.** The same for a RealNVP flow. -/
theorem C69_nvp_stats [FCmp ℝ] {L : Type} [LinearOrder L] (rng : Rng ℝ) (ops : FlowOps ℝ d (RealNVP d) O) (hset : ops.setStats = RealNVP.setStats)
    (hkeep : ∀ m o E, (ops.trainStep m o E).2.1.dataMean = m.dataMean ∧ (ops.trainStep m o E).2.1.dataVar = m.dataVar)
    (init : ℝ) (k : Key) (m : RealNVP d) (o : O) (data : List (Pos ℝ d)) (epochs batch : Nat) (hbatch : 0 < batch)
    (ord : ℝ → Option L) (hord : LossOrder ℝ ord) (bound : L) (hinit : ord init = some bound) :
    ∃ r, train rng ops init k m o data epochs batch = .ok r ∧ (r.model = m ∨ ∀ i,
      r.model.dataMean i = avg (data.map (· i)) ∧ r.model.dataVar i = sampleVar (data.map (· i))) := by
  obtain ⟨r, hr, _, _, hbest⟩ := C48_best_snapshot rng ops init k m o data epochs batch hbatch ord hord bound hinit
  refine ⟨r, hr, ?_⟩
  have hall := trajectory_inv rng ops init data batch (fun m' : RealNVP d => ∀ i, m'.dataMean i = avg (data.map (· i)) ∧ m'.dataVar i = sampleVar (data.map (· i)))
    (fun m' o E h i => by rw [(hkeep m' o E).1, (hkeep m' o E).2]; exact h i) epochs k (ops.setStats m data) o
    (fun i => by rw [hset]; exact ⟨rowMean_avg data i, rowCov_var data i⟩)
  rcases hbest with ⟨_, hm, _⟩ | ⟨e, loss, x, he, _⟩
  · exact .inl hm
  · exact .inr (hall _ (List.mem_of_getElem? he))

/-- **C69.** The same for a flow-matching model, whose statistics are those of the rows of `x1`; and whitened with the statistics of the
returned model (unless it is the one passed in) the rows of `x1` have average 0 and variance 1 in every non-constant feature. -/
theorem C69_fm_stats [FCmp ℝ] {L : Type} [LinearOrder L] (rng : Rng ℝ) (ops : FMOps ℝ d (FlowMatching d) O) (hset : ops.setStats = FlowMatching.setStats)
    (hmean : ops.mean = FlowMatching.dataMean) (hstd : ops.std = fun m i => Real.sqrt (m.dataVar i))
    (hkeep : ∀ m o E, (ops.trainStep m o E).2.1.dataMean = m.dataMean ∧ (ops.trainStep m o E).2.1.dataVar = m.dataVar)
    (init : ℝ) (k : Key) (m : FlowMatching d) (o : O) (data : List (FMRow ℝ d)) (epochs batch : Nat) (hbatch : 0 < batch)
    (ord : ℝ → Option L) (hord : LossOrder ℝ ord) (bound : L) (hinit : ord init = some bound) :
    ∃ r, fmTrain rng ops init k m o data epochs batch = .ok r ∧
      (r.model = m ∨ ∀ i, r.model.dataMean i = avg (data.map (·.x1 i)) ∧ r.model.dataVar i = sampleVar (data.map (·.x1 i))) ∧
      (r.model ≠ m → ∀ i, 2 ≤ data.length → (∃ x ∈ data, ∃ y ∈ data, x.x1 i ≠ y.x1 i) →
        avg (data.map fun row => (row.x1 i - ops.mean r.model i) / ops.std r.model i) = 0 ∧ sampleVar (data.map fun row => (row.x1 i - ops.mean r.model i) / ops.std r.model i) = 1) := by
  obtain ⟨r, hr, _, _, hbest⟩ := C68_best_snapshot rng ops init k m o data epochs batch hbatch ord hord bound hinit
  refine ⟨r, hr, ?_⟩
  have hmap : ∀ i, (data.map (·.x1)).map (· i) = data.map (·.x1 i) := fun i => by rw [List.map_map]; rfl
  have hall := fmTrajectory_inv rng ops init data batch
    (fun m' : FlowMatching d => m'.dataMean = rowMean (data.map (·.x1)) ∧ m'.dataVar = fun i => rowCov (data.map (·.x1)) i i)
    (fun m' o E h => by rw [(hkeep m' o E).1, (hkeep m' o E).2]; exact h) epochs k (ops.setStats m (data.map (·.x1))) o
    (by rw [hset]; exact ⟨rfl, rfl⟩)
  have key : r.model = m ∨ (r.model.dataMean = rowMean (data.map (·.x1)) ∧ r.model.dataVar = fun i => rowCov (data.map (·.x1)) i i) := by
    rcases hbest with ⟨_, hm, _⟩ | ⟨e, loss, x, he, _⟩
    · exact .inl hm
    · exact .inr (hall _ (List.mem_of_getElem? he))
  refine ⟨key.imp id fun h i => ?_, fun hne i hn hc => ?_⟩
  · rw [h.1, h.2, ← hmap]; exact ⟨rowMean_avg _ i, rowCov_var _ i⟩
  · obtain ⟨h1, h2⟩ := key.resolve_left hne
    obtain ⟨x, hx, y, hy, hxy⟩ := hc
    obtain ⟨w1, w2, _⟩ := C69_whitened (data.map (·.x1)) i (by simpa using hn) ⟨x.x1, List.mem_map_of_mem hx, y.x1, List.mem_map_of_mem hy, hxy⟩
    have e : (data.map fun row => (row.x1 i - ops.mean r.model i) / ops.std r.model i) =
        (data.map (·.x1)).map (fun r => whiten (rowMean (data.map (·.x1))) (fun j => rowCov (data.map (·.x1)) j j) r i) := by
      rw [List.map_map, hmean, hstd]
      simp only [h1, h2]
      rfl
    rw [e]
    exact ⟨w1, w2⟩

/-- The hypotheses on the flow-matching optimiser step are met, for instance, by a step that changes the network only. -/
example : ∃ ops : FMOps ℝ d (FlowMatching d) Unit, ops.setStats = FlowMatching.setStats ∧ ops.mean = FlowMatching.dataMean ∧ (ops.std = fun m i => Real.sqrt (m.dataVar i)) ∧
    ∀ m o E, (ops.trainStep m o E).2.1.dataMean = m.dataMean ∧ (ops.trainStep m o E).2.1.dataVar = m.dataVar :=
  ⟨{ mean := FlowMatching.dataMean, std := fun m i => Real.sqrt (m.dataVar i), setStats := FlowMatching.setStats, sched := fun t => (t, 1, 1 - t, -1),
     trainStep := fun m _ _ => (1, { m with net := fun x t => m.net x (t / 2) }, ()) }, rfl, rfl, rfl, fun _ _ _ => ⟨rfl, rfl⟩⟩

/-- The hypotheses on the optimiser step are met, for instance, by a step that changes the layers only. -/
example {K : Nat} : ∃ ops : FlowOps ℝ d (SplineFlow d K) Unit, ops.setStats = SplineFlow.setStats ∧
    ∀ m o E, (ops.trainStep m o E).2.1.dataMean = m.dataMean ∧ (ops.trainStep m o E).2.1.dataVar = m.dataVar :=
  ⟨{ sample := fun _ _ n => List.replicate n 0, logProb := fun _ _ => 0, setStats := SplineFlow.setStats,
     trainStep := fun m _ _ => (1, { m with layers := m.layers.map (fun l => { l with shift := l.shift / 2 }) }, ()) }, rfl, fun _ _ _ => ⟨rfl, rfl⟩⟩

end

end
end FlowMC
