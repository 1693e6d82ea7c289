import Verif.Props.Steps
import Verif.Model.Sampler
import Verif.Model.Bundle
/-
C12 for sequences of calls and for whole runs of the bundles.
-/
set_option linter.unusedSectionVars false
namespace FlowMC

variable {F D : Type} {d : Nat} {M O : Type}
variable [Zero F] [One F] [Add F] [Mul F] [Div F] [Sub F] [Neg F] [NatCast F] [Transc F] [FCmp F] [BufNum F]

/-- The same strategy, or the same stepper with another chain batch size. -/
def Spec.SameButBatching (s s' : Strategy F D d M O) : Prop := s' = s ∨ ∃ (t : TakeSteps) (b : ℕ), s = .takeSteps t ∧ s' = .takeSteps { t with chainBatchSize := b }

/-- Two dictionaries with the same names, in which the strategies are the same up to chain batch sizes (each stepper may have its own). -/
def Spec.SameDictButBatching (S S' : String → Option (Strategy F D d M O)) : Prop :=
  ∀ n, (S n = none ∧ S' n = none) ∨ ∃ s s', S n = some s ∧ S' n = some s' ∧ Spec.SameButBatching s s'

open Spec

theorem run_batching {s s' : Strategy F D d M O} (hs : SameButBatching s s') (env : Env F D d M O) (k : Key) (xs : List (Pos F d)) (data : Data D) (h : Heap F D d M O) :
    s'.run env k xs data h = s.run env k xs data h := by
  rcases hs with rfl | ⟨t, b, rfl, rfl⟩
  · rfl
  · exact C12_chain_batching env t b t.chainBatchSize k xs data h

/-- **C12 (sequences of calls).** Whatever the strategies of a dictionary, the order of the calls and the chain batch sizes of the steppers: the outcome (key and positions, or the exception,
and all resources) is the same. -/
theorem C12_sequence (env : Env F D d M O) (S S' : String → Option (Strategy F D d M O)) (hS : SameDictButBatching S S') (data : Data D) (names : List String) (k : Key) (xs : List (Pos F d))
    (h : Heap F D d M O) : runOrder env S' names k xs data h = runOrder env S names k xs data h := by
  induction names generalizing k xs h with
  | nil => rfl
  | cons a as ih =>
    unfold runOrder
    rcases hS a with ⟨h1, h2⟩ | ⟨s, s', h1, h2, hs⟩
    · rw [h1, h2]
    · rw [h1, h2]
      simp only [run_batching hs, ih]

theorem bundle_batching (b : BundleCfg F D d M O) (n : ℕ) : SameDictButBatching (bundleStrategies b).lookup (bundleStrategies { b with chainBatch := n }).lookup := by
  intro name
  simp only [bundleStrategies]
  split
  case h_9 => exact .inl ⟨rfl, rfl⟩
  case h_1 => exact .inr ⟨_, _, rfl, rfl, .inr ⟨_, n, rfl, rfl⟩⟩
  case h_2 => exact .inr ⟨_, _, rfl, rfl, .inr ⟨_, n, rfl, rfl⟩⟩
  all_goals exact .inr ⟨_, _, rfl, rfl, .inl rfl⟩

theorem pt_batching (b : BundleCfg F D d M O) (p : PTCfg F D d) (n : ℕ) : SameDictButBatching (ptStrategies b p).lookup (ptStrategies { b with chainBatch := n } p).lookup := by
  intro name
  simp only [ptStrategies]
  split
  case h_4 => exact bundle_batching b n _
  all_goals exact .inr ⟨_, _, rfl, rfl, .inl rfl⟩

theorem sample_batching {V : Type} (env : Env F D d M O) (s s' : Sampler F D d M O V) (hS : SameDictButBatching s.strategies s'.strategies) (ho : s'.strategyOrder = s.strategyOrder)
    (hk : s'.rngKey = s.rngKey) (hh : s'.heap = s.heap) (init : InitPos F d) (data : Data D) :
    (s'.sample env init data).1 = (s.sample env init data).1 ∧ (s'.sample env init data).2.heap = (s.sample env init data).2.heap := by
  unfold Sampler.sample
  rw [ho]
  cases s.strategyOrder with
  | none => exact ⟨rfl, hh⟩
  | some order =>
    simp only [C12_sequence env s.strategies s'.strategies hS, hk, hh]
    split <;> simp

/-- **C12 (the MALA bundle).** `chain_batch_size` changes nothing in a run of the bundle: `sample` returns or raises the same and leaves the same resources, in particular the same recorded
positions, log-densities, acceptance flags and the same trained flow. -/
theorem C12_bundle {V : Type} (env : Env F D d M O) (b : BundleCfg F D d M O) (n : ℕ) (nd nc : ℕ) (key : Key) (kw : List (String × V)) (s s' : Sampler F D d M O V)
    (hs : Sampler.new nd nc key none none none (some (malaBundle b)) kw = .ok s) (hs' : Sampler.new nd nc key none none none (some (malaBundle { b with chainBatch := n })) kw = .ok s')
    (init : InitPos F d) (data : Data D) :
    (s'.sample env init data).1 = (s.sample env init data).1 ∧ (s'.sample env init data).2.heap = (s.sample env init data).2.heap := by
  simp only [Sampler.new, Except.ok.injEq] at hs hs'
  subst hs hs'
  apply sample_batching env
  · exact bundle_batching b n
  all_goals rfl

/-- **C12 (the tempering bundle).** -/
theorem C12_pt_bundle {V : Type} (env : Env F D d M O) (b : BundleCfg F D d M O) (p : PTCfg F D d) (n : ℕ) (nd nc : ℕ) (key : Key) (kw : List (String × V)) (s s' : Sampler F D d M O V)
    (hs : Sampler.new nd nc key none none none (some (ptBundle b p)) kw = .ok s) (hs' : Sampler.new nd nc key none none none (some (ptBundle { b with chainBatch := n } p)) kw = .ok s')
    (init : InitPos F d) (data : Data D) :
    (s'.sample env init data).1 = (s.sample env init data).1 ∧ (s'.sample env init data).2.heap = (s.sample env init data).2.heap := by
  simp only [Sampler.new, Except.ok.injEq] at hs hs'
  subst hs hs'
  apply sample_batching env
  · exact pt_batching b p n
  all_goals rfl

/-- Non-vacuity: both samplers can be constructed, whatever the batch size. -/
example (b : BundleCfg F D d M O) (p : PTCfg F D d) (n : ℕ) (key : Key) :
    (∃ s, Sampler.new (V := Unit) d b.nChains key none none none (some (malaBundle { b with chainBatch := n })) [] = .ok s) ∧
    ∃ s, Sampler.new (V := Unit) d b.nChains key none none none (some (ptBundle { b with chainBatch := n } p)) [] = .ok s := ⟨⟨_, rfl⟩, ⟨_, rfl⟩⟩

/-- … and dictionaries in which two steppers have different batch sizes are covered. -/
example (t u : TakeSteps) : SameDictButBatching (F := F) (D := D) (d := d) (M := M) (O := O)
    (fun n => if n = "a" then some (.takeSteps t) else if n = "b" then some (.takeSteps u) else none)
    (fun n => if n = "a" then some (.takeSteps { t with chainBatchSize := 7 }) else if n = "b" then some (.takeSteps { u with chainBatchSize := 3 }) else none) := by
  intro n
  by_cases ha : n = "a"
  · exact .inr ⟨_, _, by simp [ha], by simp [ha], .inr ⟨t, 7, rfl, rfl⟩⟩
  · by_cases hb : n = "b"
    · exact .inr ⟨_, _, by simp [hb], by simp [hb], .inr ⟨u, 3, rfl, rfl⟩⟩
    · exact .inl (by simp [ha, hb])

end FlowMC
