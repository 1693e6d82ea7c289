import Verif.Props.Schedule
import Verif.Lemmas.Toy
/-
What the flow of a library bundle is trained on (C58), and how many steps a tempered replica makes (C61).
-/
set_option linter.unusedSectionVars false
namespace FlowMC
open Spec

variable {F D : Type} {d : Nat} {M O : Type}
variable [Zero F] [One F] [Add F] [Mul F] [Div F] [Sub F] [Neg F] [NatCast F] [Transc F] [FCmp F] [BufNum F]

/-- Two states that agree on the named resources. -/
def Spec.SameResources (names : List String) (h h' : Heap F D d M O) : Prop := ∀ n ∈ names, h.res n = h'.res n

theorem getModel_congr {h h' : Heap F D d M O} {n : String} (e : h.res n = h'.res n) : h.getModel n = h'.getModel n := by
  unfold Heap.getModel Heap.get; rw [e]

theorem getOptimizer_congr {h h' : Heap F D d M O} {n : String} (e : h.res n = h'.res n) : h.getOptimizer n = h'.getOptimizer n := by
  unfold Heap.getOptimizer Heap.get; rw [e]

theorem getBuffer_congr {h h' : Heap F D d M O} {n : String} (e : h.res n = h'.res n) : h.getBuffer n = h'.getBuffer n := by
  unfold Heap.getBuffer Heap.get; rw [e]

theorem trainModel_plan_congr (env : Env F D d M O) (s : TrainModel) (k : Key) {h h' : Heap F D d M O} (e : SameResources [s.modelName, s.dataName, s.optimizerName] h h') :
    s.plan env k h = s.plan env k h' := by
  unfold TrainModel.plan
  rw [getModel_congr (e s.modelName (by simp)), getBuffer_congr (e s.dataName (by simp)), getOptimizer_congr (e s.optimizerName (by simp))]

theorem trainModel_run_congr (env : Env F D d M O) (s : TrainModel) (k : Key) (xs : List (Pos F d)) {h h' : Heap F D d M O}
    (e : SameResources [s.modelName, s.dataName, s.optimizerName, s.lossBufferName] h h') :
    (s.run env k xs h).1 = (s.run env k xs h').1 ∧ SameResources [s.modelName, s.dataName, s.optimizerName, s.lossBufferName] (s.run env k xs h).2 (s.run env k xs h').2 := by
  unfold TrainModel.run
  rw [trainModel_plan_congr env s k (h' := h') fun n hn => e n (by simp at hn ⊢; tauto)]
  cases s.plan env k h' with
  | error er => exact ⟨rfl, e⟩
  | ok r =>
    dsimp only
    unfold recordLosses
    rw [getBuffer_congr (e s.lossBufferName (by simp))]
    by_cases hl : s.lossBufferName = ""
    · simp only [hl, if_true]
      refine ⟨trivial, fun n hn => ?_⟩
      simp only [Heap.setRes, dictSet]
      have := e n (by rw [hl]; exact hn)
      split <;> [rfl; split <;> [rfl; exact this]]
    · simp only [hl, if_false]
      cases h'.getBuffer s.lossBufferName with
      | error er => exact ⟨rfl, e⟩
      | ok b =>
        dsimp only
        cases b.updateBuffer (arr1 BufNum.negInf r.losses) (b.cursor : Nat) with
        | error er => exact ⟨rfl, e⟩
        | ok b' =>
          refine ⟨rfl, fun n hn => ?_⟩
          simp only [Heap.setRes, dictSet]
          have := e n hn
          split <;> [rfl; split <;> [rfl; split <;> [rfl; exact this]]]

/-- **C58, what the flow learns from.** In either library bundle, for every configuration and state, a training call sees nothing but the flow, its optimizer, the training positions and
the loss buffer: two states that agree on these four give the same new flow, optimizer and losses (or the same exception), whatever the production buffers, log-probabilities, acceptances,
tempered replicas or the sampler state contain. -/
theorem C58_training_source (env : Env F D d M O) (c : BundleCfg F D d M O) (b : Bundle F D d M O) (hb : LibraryBundle c b) (data : Data D) (s : Strategy F D d M O)
    (hs : b.strategies.lookup "model_trainer" = some s) (k : Key) (xs : List (Pos F d)) (h h' : Heap F D d M O)
    (e : SameResources ["model", "optimizer", "positions_training", "loss_buffer"] h h') :
    (s.run env k xs data h).1 = (s.run env k xs data h').1 ∧
    SameResources ["model", "optimizer", "positions_training", "loss_buffer"] (s.run env k xs data h).2 (s.run env k xs data h').2 := by
  rcases hb.isBundle.cases' _ s hs with h1 | h1 | ⟨-, w, rfl⟩ | h1 | h1 | h1 | h1 | h1 | h1 | h1
  all_goals try exact absurd h1.1 (by decide)
  have := trainModel_run_congr env (modelTrainer c w) k xs (h := h) (h' := h') fun n hn => e n (by simp [modelTrainer] at hn ⊢; tauto)
  exact ⟨this.1, fun n hn => this.2 n (by simp [modelTrainer] at hn ⊢; tauto)⟩

/-- **C61, tempered steps.** The tempering strategy of the tempered bundle makes as many steps of each replica as asked for, and as many as a local phase if asked for none or fewer. -/
theorem C61_tempered_steps (c : BundleCfg F D d M O) (p : PTCfg F D d) :
    ∃ s, (ptBundle c p).strategies.lookup "parallel_tempering" = some (.parallelTempering s) ∧
      ((0 < p.nTempered → (s.nSteps : ℤ) = p.nTempered) ∧ (p.nTempered ≤ 0 → s.nSteps = c.nLocal)) := by
  refine ⟨ptStrat c p, rfl, fun h => ?_, fun h => ?_⟩
  · simp only [ptStrat, temperedSteps, if_neg (not_le.2 h)]
    exact Int.toNat_of_nonneg h.le
  · simp only [ptStrat, temperedSteps, if_pos h]

/-- States that differ in the production samples meet the hypotheses of C58_training_source. -/
example (c : BundleCfg F D d M O) (pos : String → Nat) (other : Resource F D d M O) :
    SameResources ["model", "optimizer", "positions_training", "loss_buffer"] ⟨bundleResources c, pos⟩ ((⟨bundleResources c, pos⟩ : Heap F D d M O).setRes "positions_production" other) := by
  intro n hn
  simp only [List.mem_cons, List.not_mem_nil, or_false] at hn
  rcases hn with rfl | rfl | rfl | rfl <;> simp [Heap.setRes, dictSet]

end FlowMC
