import Verif.Spec.Training
import Verif.Lemmas.StepCall
import Verif.Lemmas.Toy
import Verif.Jax.Ieee
import Mathlib.Data.List.Nodup
import Mathlib.Data.List.Perm.Basic
/-
Training: C48 – C51.
-/
set_option linter.unusedSectionVars false
namespace FlowMC
open Spec

variable {F D : Type} {d : Nat} {M O : Type}

/-! ### C48 -/

section
variable [FCmp F] {L : Type} [LinearOrder L]

theorem trainLoop_best (rng : Rng F) (ops : FlowOps F d M O) (init : F) (data : List (Pos F d)) (batch : Nat) (ord : F → Option L)
    (hord : LossOrder F ord) (n : Nat) : ∀ (s : TrainState F M O) (b : L), ord s.bestLoss = some b →
    (trainLoop rng ops init data batch n s).losses = s.losses ++ (trajectory rng ops init data batch n s.rng s.model s.state).map (·.1) ∧
    FirstBest ord b (trajectory rng ops init data batch n s.rng s.model s.state) s.bestModel s.bestState
      (trainLoop rng ops init data batch n s).bestModel (trainLoop rng ops init data batch n s).bestState := by
  induction n with
  | zero => intro s b hb; exact ⟨by simp [trainLoop, trajectory], .inl ⟨by simp [trajectory], rfl, rfl⟩⟩
  | succ n ih =>
    intro s b hb
    simp only [trainLoop, trajectory]
    generalize hr : trainEpoch rng ops init (Key.child s.rng 1) s.model s.state data batch = r
    by_cases hbetter : FCmp.blt r.1 s.bestLoss = true
    · have hs : trainLoopBody rng ops init data batch s =
          { rng := .child s.rng 0, model := r.2.1, state := r.2.2, bestModel := r.2.1, bestState := r.2.2, bestLoss := r.1,
            losses := s.losses ++ [r.1] } := by
        simp only [trainLoopBody, split, hr, hbetter, if_true]
      obtain ⟨x0, y0, hx0, hy0, hlt⟩ := (hord _ _).1 hbetter
      rw [hb] at hy0
      cases hy0
      rw [hs]
      obtain ⟨h1, h2⟩ := ih ⟨.child s.rng 0, r.2.1, r.2.2, r.2.1, r.2.2, r.1, s.losses ++ [r.1]⟩ x0 hx0
      refine ⟨by simp [h1], .inr ?_⟩
      rcases h2 with ⟨hall, hm, ho⟩ | ⟨e, loss, x, he, hx, hxb, hmin⟩
      · refine ⟨0, r.1, x0, ?_, hx0, hlt, ?_⟩
        · rw [hm, ho]; rfl
        · intro e' t x' ht hx'
          refine ⟨?_, fun h => absurd h (Nat.not_lt_zero _)⟩
          cases e' with
          | zero => simp only [List.getElem?_cons_zero, Option.some.injEq] at ht; subst ht; rw [hx0] at hx'; cases hx'; exact le_refl _
          | succ e' =>
            rw [List.getElem?_cons_succ] at ht
            exact hall t (List.mem_of_getElem? ht) x' hx'
      · refine ⟨e + 1, loss, x, by simpa using he, hx, hxb.trans hlt, ?_⟩
        intro e' t x' ht hx'
        cases e' with
        | zero =>
          simp only [List.getElem?_cons_zero, Option.some.injEq] at ht; subst ht
          rw [hx0] at hx'; cases hx'
          exact ⟨hxb.le, fun _ => hxb⟩
        | succ e' =>
          rw [List.getElem?_cons_succ] at ht
          have := hmin e' t x' ht hx'
          exact ⟨this.1, fun h => this.2 (by omega)⟩
    · have hbf : FCmp.blt r.1 s.bestLoss = false := by simpa using hbetter
      have hs : trainLoopBody rng ops init data batch s =
          { rng := .child s.rng 0, model := r.2.1, state := r.2.2, bestModel := s.bestModel, bestState := s.bestState, bestLoss := s.bestLoss,
            losses := s.losses ++ [r.1] } := by
        simp only [trainLoopBody, split, hr, hbf, Bool.false_eq_true, if_false]
      have hge : ∀ x, ord r.1 = some x → b ≤ x := by
        intro x hx
        by_contra hcon
        exact hbetter ((hord _ _).2 ⟨x, b, hx, hb, not_le.1 hcon⟩)
      rw [hs]
      obtain ⟨h1, h2⟩ := ih ⟨.child s.rng 0, r.2.1, r.2.2, s.bestModel, s.bestState, s.bestLoss, s.losses ++ [r.1]⟩ b hb
      refine ⟨by simp [h1], ?_⟩
      rcases h2 with ⟨hall, hm, ho⟩ | ⟨e, loss, x, he, hx, hxb, hmin⟩
      · refine .inl ⟨?_, hm, ho⟩
        intro t ht x hx
        rcases List.mem_cons.1 ht with rfl | ht
        · exact hge x hx
        · exact hall t ht x hx
      · refine .inr ⟨e + 1, loss, x, by simpa using he, hx, hxb, ?_⟩
        intro e' t x' ht hx'
        cases e' with
        | zero =>
          simp only [List.getElem?_cons_zero, Option.some.injEq] at ht; subst ht
          have := hge x' hx'
          exact ⟨hxb.le.trans this, fun _ => lt_of_lt_of_le hxb this⟩
        | succ e' =>
          rw [List.getElem?_cons_succ] at ht
          have := hmin e' t x' ht hx'
          exact ⟨this.1, fun h => this.2 (by omega)⟩

theorem trajectory_length (rng : Rng F) (ops : FlowOps F d M O) (init : F) (data : List (Pos F d)) (batch : Nat) (n : Nat) :
    ∀ k m o, (trajectory rng ops init data batch n k m o).length = n := by
  induction n with
  | zero => intro k m o; rfl
  | succ n ih => intro k m o; simp [trajectory, ih]

/-- **C48.** `train` succeeds for every positive batch size; it returns the loss of every epoch in order (one per epoch), and the model and
optimiser state of the first epoch with the smallest loss below the bound `1e9`; NaN losses are never selected; if no epoch's loss is below
the bound, the model and state that were passed in (with their old data statistics) are returned. -/
theorem C48_best_snapshot (rng : Rng F) (ops : FlowOps F d M O) (init : F) (k : Key) (m : M) (o : O) (data : List (Pos F d))
    (epochs batch : Nat) (hbatch : 0 < batch) (ord : F → Option L) (hord : LossOrder F ord) (bound : L) (hinit : ord init = some bound) :
    ∃ r, train rng ops init k m o data epochs batch = .ok r ∧
      r.losses = (trajectory rng ops init data batch epochs k (ops.setStats m data) o).map (·.1) ∧
      r.losses.length = epochs ∧
      FirstBest ord bound (trajectory rng ops init data batch epochs k (ops.setStats m data) o) m o r.model r.state := by
  have hb : ¬ (batch = 0 ∧ 0 < epochs) := by omega
  obtain ⟨h1, h2⟩ := trainLoop_best rng ops init data batch ord hord epochs (trainInit ops init k m o data) bound hinit
  refine ⟨_, by simp only [train, if_neg hb]; rfl, ?_, ?_, ?_⟩
  · simpa [trainInit] using h1
  · simp only [h1]; simp [trainInit, trajectory_length]
  · simpa [trainInit] using h2

end

open Classical in
/-- The order hypothesis of C48 is met by the extended reals with NaN and infinities: everything but NaN has a value. -/
example : LossOrder XR (L := EReal) (fun a => match a with
    | .fin x => some (x : EReal) | .pinf => some ⊤ | .ninf => some ⊥ | .nan => none) := by
  intro a b
  cases a <;> cases b <;> simp [FCmp.blt, XR.blt]

/-! ### C49 -/

/-- **C49.** For `0 < b ≤ n` an epoch uses `n / b` batches of exactly `b` examples, no example index twice, all indices valid, and fewer than `b`
examples are skipped. -/
theorem C49_batches (rng : Rng F) (hr : rng.Lawful) (k : Key) (n b : Nat) (hb : 0 < b) :
    (epochBatches rng k n b).length = n / b ∧ (∀ B ∈ epochBatches rng k n b, B.length = b) ∧
    (epochBatches rng k n b).flatten.Nodup ∧ (∀ i ∈ (epochBatches rng k n b).flatten, i < n) ∧
    (epochBatches rng k n b).flatten.length + n % b = n ∧ n % b < b := by
  have hperm := hr.perm k n
  have hlen : (rng.permutation k n).length = n := by rw [hperm.length_eq, List.length_range]
  have hle : n / b * b ≤ n := Nat.div_mul_le_self n b
  have hfl : (epochBatches rng k n b).flatten = (rng.permutation k n).take (n / b * b) := by
    rw [epochBatches, chunks_flatten, List.take_take, Nat.min_self]
  refine ⟨chunks_length _ _ _, ?_, ?_, ?_, ?_, Nat.mod_lt _ hb⟩
  · exact chunks_mem_length b (n / b) _ (by rw [List.length_take, hlen]; omega)
  · rw [hfl]
    exact (hperm.nodup_iff.2 List.nodup_range).sublist (List.take_sublist _ _)
  · intro i hi
    rw [hfl] at hi
    have := hperm.mem_iff.1 (List.mem_of_mem_take hi)
    simpa using this
  · rw [hfl, List.length_take, hlen, Nat.min_eq_left hle, Nat.mul_comm]
    exact Nat.div_add_mod n b

theorem trainBatches_foldl (ops : FlowOps F d M O) (data : List (Pos F d)) (bs : List (List Nat)) : ∀ s,
    trainBatches ops data bs s = bs.foldl (fun s b => ops.trainStep s.2.1 s.2.2 (b.filterMap (data[·]?))) s := by
  induction bs with
  | nil => intro s; rfl
  | cons b bs ih => intro s; simp [trainBatches, ih]

/-- **C49.** An epoch is the sequence of optimiser steps on the batches of `C49_batches`, each on exactly `b` examples of the data, and its
loss is that of the last step; if the batch size exceeds the number of examples it is one optimiser step on all the data. -/
theorem C49_epoch (rng : Rng F) (hr : rng.Lawful) (ops : FlowOps F d M O) (init : F) (k : Key) (m : M) (o : O) (data : List (Pos F d)) (b : Nat)
    (hb : 0 < b) :
    (b ≤ data.length → trainEpoch rng ops init k m o data b =
      (epochBatches rng k data.length b).foldl (fun s B => ops.trainStep s.2.1 s.2.2 (B.filterMap (data[·]?))) (init, m, o) ∧
      ∀ B ∈ epochBatches rng k data.length b, (B.filterMap (data[·]?)).length = b) ∧
    (data.length < b → trainEpoch rng ops init k m o data b = ops.trainStep m o data) := by
  constructor
  · intro h
    refine ⟨?_, ?_⟩
    · have : 0 < data.length / b := Nat.div_pos h hb
      rw [trainEpoch, if_pos this, trainBatches_foldl]
    · intro B hB
      obtain ⟨_, h2, _, h4, _, _⟩ := C49_batches rng hr k data.length b hb
      have hin : ∀ i ∈ B, i < data.length := fun i hi => h4 i (List.mem_flatten.2 ⟨B, hB, hi⟩)
      have : ∀ B : List Nat, (∀ i ∈ B, i < data.length) → (B.filterMap (data[·]?)).length = B.length := by
        intro B
        induction B with
        | nil => simp
        | cons i B ih =>
          intro h
          have hi := h i (by simp)
          have := ih (fun j hj => h j (by simp [hj]))
          rw [List.filterMap_cons, List.getElem?_eq_getElem hi]
          simp [this]
      rw [this B hin, h2 B hB]
  · intro h
    rw [trainEpoch, if_neg (by rw [Nat.div_eq_of_lt h]; omega)]

example : Toy.rng.Lawful where
  perm _ n := .refl _
  choice_length _ _ m _ := by simp [Toy.rng]
  choice_lt _ n m hn i hi := by simp [Toy.rng] at hi; omega

example : epochBatches Toy.rng (Key.root 0) 7 3 = [[0, 1, 2], [3, 4, 5]] := by decide

/-! ### C50 -/

section
variable [Zero F] [One F] [Add F] [Mul F] [Div F] [Sub F] [Neg F] [NatCast F] [Transc F] [FCmp F] [BufNum F]

/-- `Trained env name h calls h'`: starting from resources `h`, a sequence of events leads to `h'`: successful calls of `TrainModel` strategies
whose loss buffer is `name` (`calls` collects, in order, the epoch losses each of them computed), and arbitrary other changes that leave
the resource `name` alone. -/
inductive Spec.Trained (env : Env F D d M O) (name : String) : Heap F D d M O → List (List F) → Heap F D d M O → Prop
  | done (h) : Spec.Trained env name h [] h
  | other {h h1 h' calls} (hsame : h1.res name = h.res name) (rest : Spec.Trained env name h1 calls h') : Spec.Trained env name h calls h'
  | call {h h1 h' calls k xs out r} (s : TrainModel) (hname : s.lossBufferName = name)
      (hplan : s.plan env k h = .ok r) (hrun : s.run env k xs h = (.ok out, h1))
      (rest : Spec.Trained env name h1 calls h') : Spec.Trained env name h (r.losses :: calls) h'

theorem recordLosses_log (h : Heap F D d M O) (name : String) (hne : name ≠ "") (T : Nat) (log losses : List F) (hlog : LossLog h name T log)
    (hfit : log.length + losses.length ≤ T) :
    ∃ b, recordLosses name losses h = (.ok (), h.setRes name (.buffer b)) ∧ LossLog (h.setRes name (.buffer b)) name T (log ++ losses) := by
  obtain ⟨b, hb, hs, hd, hc, hg⟩ := hlog
  obtain ⟨r, h1, h2, h3⟩ := dynUpdate_slab b.data (arr1 BufNum.negInf losses) (b.cursor : Nat) 0 losses.length (by simp [hs])
    (by simp [hs, arr1]) (by simp [hs]; omega)
  rw [hs] at h2 h3
  have hcl : clampStart (b.cursor : Int) T losses.length = b.cursor := clampStart_fits _ _ _ (by omega)
  simp only [List.getD_cons_zero, hcl] at h3
  refine ⟨{ b with data := r, cursor := b.cursor + losses.length }, ?_, { b with data := r, cursor := b.cursor + losses.length },
    by simp [Heap.setRes, dictSet], h2, hd, ?_, ?_⟩
  · simp [recordLosses, hne, Heap.getBuffer_of hb, Buffer.updateBuffer, hd, h1]
  · simp [hc]
  · intro i v hi
    have hlt : i < log.length + losses.length := by
      have := (List.getElem?_eq_some_iff.1 hi).1
      simpa using this
    have hget := h3 [i] (by simp [InBounds]; omega)
    simp only [List.getD_cons_zero, List.set_cons_zero] at hget
    show r.get [i] = v
    rw [hget]
    by_cases hlo : i < log.length
    · rw [if_neg (by omega)]
      rw [List.getElem?_append_left hlo] at hi
      exact hg i v hi
    · rw [if_pos (by omega)]
      rw [List.getElem?_append_right (by omega)] at hi
      simp [arr1, hc, hi]

/-- **C50.** Over any history of training calls recording into the loss buffer `name` (by any trainers, with any other activity in between), as long as
the total number of losses fits, the buffer holds exactly the concatenation of the calls' loss sequences after what it held before, and its
cursor is the total length. -/
theorem C50_loss_log (env : Env F D d M O) (name : String) (hne : name ≠ "") (T : Nat) (h h' : Heap F D d M O) (calls : List (List F))
    (log : List F) (htr : Trained env name h calls h') (hlog : LossLog h name T log)
    (hfit : log.length + (calls.map List.length).sum ≤ T) : LossLog h' name T (log ++ calls.flatten) := by
  induction htr generalizing log with
  | done h => simpa using hlog
  | other hsame rest ih =>
    apply ih log _ hfit
    obtain ⟨b, hb, hrest⟩ := hlog
    exact ⟨b, by rw [hsame, hb], hrest⟩
  | @call h h1 h' calls k xs out r s hname hplan hrun rest ih =>
    simp only [List.map_cons, List.sum_cons] at hfit
    obtain ⟨b, hrec, hl⟩ := recordLosses_log h name hne T log r.losses hlog (by omega)
    have hbuf : ∃ b0, h.res name = some (.buffer b0) := by obtain ⟨b0, hb0, _⟩ := hlog; exact ⟨b0, hb0⟩
    obtain ⟨b0, hb0⟩ := hbuf
    have hmodel : s.modelName ≠ name := by
      rintro hm
      simp [TrainModel.plan, Heap.getModel, Heap.get, hm, hb0, bind, Except.bind] at hplan
    have hopt : s.optimizerName ≠ name := by
      rintro ho
      simp only [TrainModel.plan, bind, Except.bind] at hplan
      repeat' split at hplan <;> try (cases hplan; done)
      all_goals simp [Heap.getOptimizer, Heap.get, ho, hb0] at *
    simp only [TrainModel.run, hplan, hname, hrec, Prod.mk.injEq] at hrun
    obtain ⟨_, rfl⟩ := hrun
    have := ih (log ++ r.losses) (by
      obtain ⟨b1, hb1, hrest⟩ := hl
      refine ⟨b1, ?_, hrest⟩
      simpa [Heap.setRes, dictSet, hmodel.symm, hopt.symm] using hb1) (by simp; omega)
    simpa using this

/-- **C50.** Each call contributes exactly `n_epochs` losses. -/
theorem C50_losses_per_call (env : Env F D d M O) (s : TrainModel) (k : Key) (h : Heap F D d M O) (r : TrainResult F M O)
    (hplan : s.plan env k h = .ok r) : r.losses.length = s.nEpochs := by
  have key : ∀ (n : Nat) (st : TrainState F M O) (data : List (Pos F d)) (b : Nat),
      (trainLoop env.rng env.ops env.big data b n st).losses.length = st.losses.length + n := by
    intro n
    induction n with
    | zero => intro st data b; rfl
    | succ n ih => intro st data b; simp only [trainLoop, ih]; simp [trainLoopBody]; omega
  simp only [TrainModel.plan, bind, Except.bind] at hplan
  repeat' split at hplan <;> try (cases hplan; done)
  all_goals
    simp only [train] at hplan
    split at hplan
    · cases hplan
    · simp only [Except.ok.injEq] at hplan
      subst hplan
      simp [key, trainInit]

/-- A capacity-6 loss buffer that starts empty satisfies the invariant. -/
example : LossLog (F := Int) (D := Unit) (d := 1) (M := Int) (O := Int)
    ⟨fun n => if n = "loss" then some (.buffer (Buffer.new "loss" [6] 0)) else none, fun _ => 0⟩ "loss" 6 [] :=
  ⟨_, rfl, rfl, rfl, rfl, by simp⟩

/-! ### C51 -/

theorem chunks_flatMap_uniform {α : Type} (q : Nat) (n : Nat) : ∀ (f : Nat → List α), (∀ i, i < n → (f i).length = q) →
    chunks q n ((List.range n).flatMap f) = (List.range n).map f := by
  induction n with
  | zero => intro f _; rfl
  | succ n ih =>
    intro f hf
    have h0 : (f 0).length = q := hf 0 (by omega)
    rw [List.range_succ_eq_map, List.flatMap_cons, List.map_cons, chunks, List.take_left' h0, List.drop_left' h0, List.flatMap_map,
      List.map_map]
    rw [ih (fun i => f (i + 1)) (fun i hi => hf (i + 1) (by omega))]
    rfl

theorem trainingRows_uniform (a : NDArr F) (n T w q : Nat) (hn : 0 < n) (hw : 0 < w)
    (hu : ∀ i, i < n → (finiteRowsOf a T i : List (Pos F d)).length = q) :
    trainingRows a n T w = .ok ((List.range n).flatMap (fun i => (lastN w (finiteRowsOf a T i) : List (Pos F d)))) := by
  have hfr : (finiteRows a n T : List (Pos F d)) = (List.range n).flatMap (fun i => (finiteRowsOf a T i : List (Pos F d))) := rfl
  have hlen : ((List.range n).flatMap (fun i => (finiteRowsOf a T i : List (Pos F d)))).length = n * q := by
    rw [List.length_flatMap]
    have : (List.range n).map (fun i => (finiteRowsOf a T i : List (Pos F d)).length) = List.replicate n q := by
      apply List.ext_getElem
      · simp
      · intro i h1 h2
        simp at h1
        simp [hu i h1]
    rw [this]; simp
  unfold trainingRows
  simp only [hfr, hlen, if_neg (by omega : ¬ n = 0), Nat.mul_mod_right, if_true, Nat.mul_div_cancel_left q hn]
  rw [chunks_flatMap_uniform q n _ hu, List.flatMap_map]
  have : (takeLast w : List (Pos F d) → List (Pos F d)) = lastN w := by
    funext xs; simp [takeLast, lastN, if_neg (by omega : ¬ w = 0)]
  rw [this]

/-- **C51, the part that holds.** If the history window is positive and all chains have the same number of recorded (finite) rows, a successful
training call trained on examples each of which is one of the last `history_window` finite rows of some chain; the examples were selected by
`choice` among exactly those rows of all chains.  (Missing: with `history_window = 0` or chains with different numbers of finite rows the
claim is false, see `C51_window_zero` and `C51_misaligned`.) -/
theorem C51_recent_rows_partial (env : Env F D d M O) (s : TrainModel) (k : Key) (h : Heap F D d M O) (b : Buffer F) (n T q : Nat)
    (r : TrainResult F M O) (hb : h.res s.dataName = some (.buffer b)) (hshape : b.data.shape = [n, T, d]) (hw : 0 < s.historyWindow)
    (hu : ∀ i, i < n → (finiteRowsOf b.data T i : List (Pos F d)).length = q) (hplan : s.plan env k h = .ok r) :
    ∃ m o examples,
      h.res s.modelName = some (.model m) ∧ h.res s.optimizerName = some (.optimizer o) ∧
      train env.rng env.ops env.big (.child (.child k 0) 1) m o examples s.nEpochs s.batchSize = .ok r ∧
      examples = (env.rng.choice (.child k 1) ((List.range n).flatMap
        (fun i => (lastN s.historyWindow (finiteRowsOf b.data T i) : List (Pos F d)))).length s.nMaxExamples).filterMap
        (((List.range n).flatMap (fun i => (lastN s.historyWindow (finiteRowsOf b.data T i) : List (Pos F d))))[·]?) ∧
      ∀ x ∈ examples, ∃ i < n, x ∈ lastN s.historyWindow (finiteRowsOf b.data T i) := by
  have hn : 0 < n := by
    rcases Nat.eq_zero_or_pos n with rfl | h0
    · exfalso
      simp only [TrainModel.plan, bind, Except.bind, Heap.getBuffer_of hb, hshape, if_true, trainingRows] at hplan
      repeat' split at hplan <;> try (cases hplan; done)
    · exact h0
  have hrows := trainingRows_uniform (d := d) b.data n T s.historyWindow q hn hw hu
  simp only [TrainModel.plan, bind, Except.bind, Heap.getBuffer_of hb, hshape, if_true, hrows] at hplan
  cases hm : h.getModel s.modelName with
  | error e => rw [hm] at hplan; cases hplan
  | ok m =>
    cases ho : h.getOptimizer s.optimizerName with
    | error e => rw [hm, ho] at hplan; cases hplan
    | ok o =>
      rw [hm, ho] at hplan
      have hm' : h.res s.modelName = some (.model m) := by
        unfold Heap.getModel Heap.get at hm
        repeat' split at hm <;> try (cases hm; done)
        rename_i heq; revert heq; split <;> intro heq <;> simp_all
      have ho' : h.res s.optimizerName = some (.optimizer o) := by
        unfold Heap.getOptimizer Heap.get at ho
        repeat' split at ho <;> try (cases ho; done)
        rename_i heq; revert heq; split <;> intro heq <;> simp_all
      simp only [split] at hplan
      split at hplan
      · cases hplan
      · refine ⟨m, o, _, hm', ho', hplan, rfl, ?_⟩
        intro x hx
        obtain ⟨i, _, hi⟩ := List.mem_filterMap.1 hx
        have := List.mem_of_getElem? hi
        obtain ⟨i, hi, hx⟩ := List.mem_flatMap.1 this
        exact ⟨i, by simpa using hi, hx⟩

end

/-- **C51 is false with `history_window = 0`**: the slice `[-0:]` selects every row, not none. -/
theorem C51_window_zero [BufNum F] (a : NDArr F) (n T q : Nat) (hn : 0 < n) (hu : ∀ i, i < n → (finiteRowsOf a T i : List (Pos F d)).length = q) :
    trainingRows a n T 0 = .ok ((List.range n).flatMap (fun i => (finiteRowsOf a T i : List (Pos F d)))) := by
  have hfr : (finiteRows a n T : List (Pos F d)) = (List.range n).flatMap (fun i => (finiteRowsOf a T i : List (Pos F d))) := rfl
  have hlen : ((List.range n).flatMap (fun i => (finiteRowsOf a T i : List (Pos F d)))).length = n * q := by
    rw [List.length_flatMap]
    have : (List.range n).map (fun i => (finiteRowsOf a T i : List (Pos F d)).length) = List.replicate n q := by
      apply List.ext_getElem
      · simp
      · intro i h1 h2
        simp at h1
        simp [hu i h1]
    rw [this]; simp
  unfold trainingRows
  simp only [hfr, hlen, if_neg (by omega : ¬ n = 0), Nat.mul_mod_right, if_true, Nat.mul_div_cancel_left q hn]
  rw [chunks_flatMap_uniform q n _ hu, List.flatMap_map]
  have : (takeLast 0 : List (Pos F d) → List (Pos F d)) = id := by funext xs; simp [takeLast]
  rw [this]; rfl

/-- Two chains, three steps; chain 0 has one finite row (10), chain 1 has three (20, 21, 22). -/
def Toy.ragged : NDArr Int := arr3 0 2 3 (d := 1) [[fun _ => 10, fun _ => -1000000, fun _ => -1000000], [fun _ => 20, fun _ => 21, fun _ => 22]]

/-- **C51 is false when chains have different numbers of finite rows**: with window 1 the training data contain the *oldest* row of chain 1 (20),
which is not among its last 1 rows, and no row of chain 0. -/
theorem C51_misaligned :
    (match (trainingRows Toy.ragged 2 3 1 : Except Err (List (Pos Int 1))) with
      | .ok rows => rows.map (fun v => v 0) | .error _ => []) = [20, 22] ∧
    (lastN 1 (finiteRowsOf Toy.ragged 3 0 : List (Pos Int 1))).map (fun v => v 0) = [10] ∧
    (lastN 1 (finiteRowsOf Toy.ragged 3 1 : List (Pos Int 1))).map (fun v => v 0) = [22] := by decide

/-- Resources of a small training site: two chains with three recorded rows each. -/
def Toy.trainHeap : Heap Int Unit 1 Int Int where
  res := fun n => match n with
    | "model" => some (.model 0)
    | "optimizer" => some (.optimizer 0)
    | "P" => some (.buffer { (Buffer.new "P" [2, 3, 1] 1 : Buffer Int) with data := arr3 0 2 3 (d := 1) [[fun _ => 1, fun _ => 2, fun _ => 3], [fun _ => 4, fun _ => 5, fun _ => 6]] })
    | "loss" => some (.buffer (Buffer.new "loss" [6] 0))
    | _ => none
  pos := fun _ => 0

def Toy.trainer : TrainModel := { modelName := "model", dataName := "P", optimizerName := "optimizer", lossBufferName := "loss", nEpochs := 3, batchSize := 2, nMaxExamples := 4, historyWindow := 2 }

example : (match Toy.trainer.plan Toy.env (Key.root 0) Toy.trainHeap with | .ok r => some (r.losses, r.model) | .error _ => none) = some ([5, 5, 5], 2) := by decide
example : (match (Toy.trainer.run Toy.env (Key.root 0) Toy.start Toy.trainHeap).1 with | .ok _ => true | .error _ => false) = true := by decide
example : ∀ i, i < 2 → (finiteRowsOf (arr3 0 2 3 (d := 1) [[fun _ => 1, fun _ => 2, fun _ => 3], [fun _ => 4, fun _ => 5, fun _ => 6]] : NDArr Int) 3 i : List (Pos Int 1)).length = 3 := by decide

end FlowMC
