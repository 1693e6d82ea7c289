import Verif.Spec.Learning
import Verif.Props.Keys
/-
The outcome of a training call is a measurable function of the draws it makes, its flow, optimiser state and data.
-/
open MeasureTheory
set_option linter.unusedSectionVars false
namespace FlowMC
open Spec

variable {F Ω D M O : Type} {d : ℕ} [MeasurableSpace F] [FCmp F] [MeasurableSpace Ω] [MeasurableSpace M] [MeasurableSpace O]

/-- What the training lemmas need: shuffles at the keys `U` are measurable. -/
structure TrainSetup (U : Key → Prop) (env : Ω → Env F D d M O) (G : Set M) (step : M → O → List (Pos F d) → F × M × O) (stats : M → List (Pos F d) → M) (big : F) : Prop where
  shuffle : ∀ k, U k → ∀ n, Measurable fun ω => (env ω).rng.permutation k n
  choose : ∀ k, U k → ∀ n m, Measurable fun ω => (env ω).rng.choice k n m
  stepMeas : Measurable fun p : M × O × List (Pos F d) => step p.1 p.2.1 p.2.2
  stepEq : ∀ ω, (env ω).ops.trainStep = step
  stepG : ∀ m ∈ G, ∀ o b, (step m o b).2.1 ∈ G
  statsMeas : Measurable fun p : M × List (Pos F d) => stats p.1 p.2
  statsEq : ∀ ω, (env ω).ops.setStats = stats
  statsG : ∀ m ∈ G, ∀ b, stats m b ∈ G
  bigEq : ∀ ω, (env ω).big = big
  ltMeas : MeasurableSet {p : F × F | FCmp.blt p.1 p.2 = true}

variable {U : Key → Prop} {env : Ω → Env F D d M O} {G : Set M} {step : M → O → List (Pos F d) → F × M × O} {stats : M → List (Pos F d) → M} {big : F}

theorem TrainSetup.step_meas (h : TrainSetup U env G step stats big) {m : Ω → M} {o : Ω → O} {b : Ω → List (Pos F d)} (hm : Measurable m) (ho : Measurable o) (hb : Measurable b) :
    Measurable fun ω => (env ω).ops.trainStep (m ω) (o ω) (b ω) := by
  simp only [h.stepEq]
  exact Measurable.comp h.stepMeas (hm.prodMk (ho.prodMk hb))

theorem TrainSetup.batches (h : TrainSetup U env G step stats big) {data : Ω → List (Pos F d)} (hd : Measurable data) (bs : List (List ℕ)) :
    ∀ s : Ω → F × M × O, Measurable s → Measurable fun ω => trainBatches (env ω).ops (data ω) bs (s ω) := by
  induction bs with
  | nil => intro s hs; simpa only [trainBatches] using hs
  | cons b bs ih =>
    intro s hs
    simp only [trainBatches]
    exact ih _ (h.step_meas (measurable_fst.comp (measurable_snd.comp hs)) (measurable_snd.comp (measurable_snd.comp hs)) ((measurable_select b).comp hd))

theorem TrainSetup.batches_G (h : TrainSetup U env G step stats big) (ω : Ω) (data : List (Pos F d)) (bs : List (List ℕ)) : ∀ s : F × M × O, s.2.1 ∈ G →
    (trainBatches (env ω).ops data bs s).2.1 ∈ G := by
  induction bs with
  | nil => intro s hs; exact hs
  | cons b bs ih => intro s hs; simp only [trainBatches]; exact ih _ (by rw [h.stepEq]; exact h.stepG _ hs _ _)

theorem TrainSetup.epoch (h : TrainSetup U env G step stats big) {k : Key} (hk : U k) {m : Ω → M} {o : Ω → O} {data : Ω → List (Pos F d)} (hm : Measurable m) (ho : Measurable o) (hd : Measurable data)
    (batch : ℕ) : Measurable fun ω => trainEpoch (env ω).rng (env ω).ops big k (m ω) (o ω) (data ω) batch := by
  have hlen : Measurable fun ω => (data ω).length := measurable_length.comp hd
  have hperm : Measurable fun ω => (env ω).rng.permutation k (data ω).length := measurable_index (f := fun n ω => (env ω).rng.permutation k n) hlen fun n => h.shuffle k hk n
  have hI : Measurable fun ω => ((data ω).length, (env ω).rng.permutation k (data ω).length) := hlen.prodMk hperm
  unfold trainEpoch epochBatches
  refine Measurable.ite ?_ ?_ ?_
  · exact hlen (MeasurableSet.of_discrete (s := {n : ℕ | 0 < n / batch}))
  · exact measurable_index (f := fun (q : ℕ × List ℕ) ω => trainBatches (env ω).ops (data ω) (chunks batch (q.1 / batch) (q.2.take (q.1 / batch * batch))) (big, m ω, o ω)) hI
      fun q => h.batches hd _ _ (measurable_const.prodMk (hm.prodMk ho))
  · exact h.step_meas hm ho hd

theorem TrainSetup.epoch_G (h : TrainSetup U env G step stats big) (ω : Ω) (k : Key) (m : M) (hm : m ∈ G) (o : O) (data : List (Pos F d)) (batch : ℕ) :
    (trainEpoch (env ω).rng (env ω).ops big k m o data batch).2.1 ∈ G := by
  unfold trainEpoch
  split
  · exact h.batches_G ω _ _ _ hm
  · rw [h.stepEq]; exact h.stepG _ hm _ _

/-- The loop variables of training are measurable. -/
structure StateMeas (s : Ω → TrainState F M O) (G : Set M) (k : Key) : Prop where
  key : ∀ ω, (s ω).rng = k
  model : Measurable fun ω => (s ω).model
  state : Measurable fun ω => (s ω).state
  bestModel : Measurable fun ω => (s ω).bestModel
  bestState : Measurable fun ω => (s ω).bestState
  bestLoss : Measurable fun ω => (s ω).bestLoss
  modelG : ∀ ω, (s ω).model ∈ G
  bestG : ∀ ω, (s ω).bestModel ∈ G

theorem TrainSetup.body (h : TrainSetup U env G step stats big) {data : Ω → List (Pos F d)} (hd : Measurable data) (batch : ℕ) {s : Ω → TrainState F M O} {k : Key} (hk : U (.child k 1))
    (hs : StateMeas s G k) : StateMeas (fun ω => trainLoopBody (env ω).rng (env ω).ops big (data ω) batch (s ω)) G (.child k 0) := by
  have he : Measurable fun ω => trainEpoch (env ω).rng (env ω).ops big (.child k 1) (s ω).model (s ω).state (data ω) batch := h.epoch hk hs.model hs.state hd batch
  have h1 : Measurable fun ω => (trainEpoch (env ω).rng (env ω).ops big (.child k 1) (s ω).model (s ω).state (data ω) batch).1 := measurable_fst.comp he
  have h2 : Measurable fun ω => (trainEpoch (env ω).rng (env ω).ops big (.child k 1) (s ω).model (s ω).state (data ω) batch).2.1 := measurable_fst.comp (measurable_snd.comp he)
  have h3 : Measurable fun ω => (trainEpoch (env ω).rng (env ω).ops big (.child k 1) (s ω).model (s ω).state (data ω) batch).2.2 := measurable_snd.comp (measurable_snd.comp he)
  have hc : MeasurableSet {ω | FCmp.blt (trainEpoch (env ω).rng (env ω).ops big (.child k 1) (s ω).model (s ω).state (data ω) batch).1 (s ω).bestLoss = true} := by
    exact (h1.prodMk hs.bestLoss) h.ltMeas
  have hG := fun ω => h.epoch_G ω (.child k 1) (s ω).model (hs.modelG ω) (s ω).state (data ω) batch
  constructor <;> simp only [trainLoopBody, split, hs.key]
  · exact fun _ => trivial
  · exact h2
  · exact h3
  · exact Measurable.ite hc h2 hs.bestModel
  · exact Measurable.ite hc h3 hs.bestState
  · exact Measurable.ite hc h1 hs.bestLoss
  · exact hG
  · intro ω; split
    · exact hG ω
    · exact hs.bestG ω

theorem TrainSetup.loop (h : TrainSetup U env G step stats big) {data : Ω → List (Pos F d)} (hd : Measurable data) (batch n : ℕ) :
    ∀ (s : Ω → TrainState F M O) (k : Key), (∀ j < n, U (stepKey k j)) → StateMeas s G k →
      StateMeas (fun ω => trainLoop (env ω).rng (env ω).ops big (data ω) batch n (s ω)) G (carryKey k n) := by
  induction n with
  | zero => intro s k _ hs; exact hs
  | succ n ih =>
    intro s k hU hs
    simp only [trainLoop]
    exact ih _ _ (fun j hj => hU (j + 1) (by omega)) (h.body hd batch (hU 0 (by omega)) hs)

/-- Training: flow and optimiser state are measurable, and the flow stays in the class. -/
theorem TrainSetup.train (h : TrainSetup U env G step stats big) {data : Ω → List (Pos F d)} (hd : Measurable data) (batch n : ℕ) {m : Ω → M} {o : Ω → O} (hm : Measurable m) (ho : Measurable o)
    (hG : ∀ ω, m ω ∈ G) (k : Key) (hU : ∀ j < n, U (stepKey k j)) (r : Ω → TrainResult F M O)
    (hr : ∀ ω, FlowMC.train (env ω).rng (env ω).ops (env ω).big k (m ω) (o ω) (data ω) n batch = .ok (r ω)) :
    (Measurable fun ω => (r ω).model) ∧ (Measurable fun ω => (r ω).state) ∧ (∀ ω, (r ω).model ∈ G) ∧ ∀ ω, (r ω).rng = carryKey k n := by
  have hs : StateMeas (fun ω => trainInit (env ω).ops big k (m ω) (o ω) (data ω)) G k := by
    constructor <;> simp only [trainInit, h.statsEq]
    · exact fun _ => trivial
    · exact Measurable.comp h.statsMeas (hm.prodMk hd)
    · exact ho
    · exact hm
    · exact ho
    · exact measurable_const
    · exact fun ω => h.statsG _ (hG ω) _
    · exact hG
  have hl := h.loop hd batch n _ k hU hs
  have e : ∀ ω, r ω = (fun t : TrainState F M O => (⟨t.rng, t.bestModel, t.bestState, t.losses⟩ : TrainResult F M O))
      (trainLoop (env ω).rng (env ω).ops big (data ω) batch n (trainInit (env ω).ops big k (m ω) (o ω) (data ω))) := by
    intro ω
    have := hr ω
    rw [h.bigEq] at this
    unfold FlowMC.train at this
    split at this
    · cases this
    · exact (Except.ok.inj this).symm
  simp only [e]
  exact ⟨hl.bestModel, hl.bestState, hl.bestG, hl.key⟩

end FlowMC
