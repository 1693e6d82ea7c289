import Verif.Props.Production
import Verif.Props.Totality
import Verif.Props.Keys
import Verif.Props.IdealWorld
/-
C63 for whole `sample` calls, and non-vacuity of C28, C63, C66.
-/
open MeasureTheory ProbabilityTheory
open scoped ENNReal
set_option linter.unusedSectionVars false
namespace FlowMC
open Spec

/-- The random key with which the production phase starts: every training loop splits the key once per stepper and, in the trainer, twice and once per epoch. -/
def Spec.trainedKey (nLoops nEpochs : ℕ) (k : Key) : Key := (fun k => Key.child (trainOut (Key.child k 0) nEpochs) 0)^[nLoops] k

section
variable {F D : Type} {d : Nat} {M O V : Type}
variable [Zero F] [One F] [Add F] [Mul F] [Div F] [Sub F] [Neg F] [NatCast F] [Transc F] [FCmp F] [BufNum F]

theorem trained_key (env : Env F D d M O) (c : BundleCfg F D d M O) (data : Data D) (n : ℕ) : ∀ w w', Completes env (bundleStrategies c).lookup data (repeatPhase n trainingPhase) w w' →
    w'.key = trainedKey n c.nEpochs w.key := by
  induction n with
  | zero => intro w w' h; simp only [repeatPhase, List.replicate_zero, List.flatten_nil, completes_nil] at h; subst h; rfl
  | succ n ih =>
    intro w w' h
    rw [repeatPhase_succ, completes_append] at h
    obtain ⟨w1, h1, h2⟩ := h
    have e1 := ih w w1 h1
    rw [trainedKey, Function.iterate_succ_apply', ← trainedKey, ← e1]
    simp only [trainingPhase, completes_cons, completes_nil, bundleStrategies, Option.some.injEq] at h2
    obtain ⟨_, k2, x2, g2, rfl, r2, _, k3, x3, g3, rfl, r3, _, k4, x4, g4, rfl, r4, _, k5, x5, g5, rfl, r5, _, k6, x6, g6, rfl, r6, _, k7, x7, g7, rfl, r7, rfl⟩ := h2
    have a2 := (C29_next_key env _ rfl _ _ _ _ _ _ _ r2).1
    have a3 := (C29_next_key env _ rfl _ _ _ _ _ _ _ r3).1
    have a4 := (C29_next_key env _ rfl _ _ _ _ _ _ _ r4).1
    have a5 := (C29_next_key env _ rfl _ _ _ _ _ _ _ r5).1
    have a6 := (C29_next_key env _ rfl _ _ _ _ _ _ _ r6).1
    have a7 := (C29_next_key env _ rfl _ _ _ _ _ _ _ r7).1
    simp only [nextKey] at a2 a3 a4 a5 a6 a7
    rw [a7, a6, a5, a4, a3, a2]
    rfl

theorem switch_key (env : Env F D d M O) (c : BundleCfg F D d M O) (data : Data D) (n : ℕ) (w w' : World F D d M O)
    (h : Completes env (bundleStrategies c).lookup data (repeatPhase n trainingPhase ++ ["reset_steppers", "update_state"]) w w') :
    w'.key = trainedKey n c.nEpochs w.key := by
  rw [completes_append] at h
  obtain ⟨w1, h1, h2⟩ := h
  rw [← trained_key env c data n w w1 h1]
  simp only [completes_cons, completes_nil, bundleStrategies, Option.some.injEq] at h2
  obtain ⟨_, k2, x2, g2, rfl, r2, _, k3, x3, g3, rfl, r3, rfl⟩ := h2
  have a2 := (C29_next_key env _ rfl _ _ _ _ _ _ _ r2).1
  have a3 := (C29_next_key env _ rfl _ _ _ _ _ _ _ r3).1
  simp only [nextKey] at a2 a3
  rw [a3, a2]
end

variable {Ω D M O V : Type} {d : ℕ} [BufNum ℝ]
variable {past : MeasurableSpace Ω} {sig : Key → MeasurableSpace Ω} [mΩ : MeasurableSpace Ω] {P : Measure Ω} [IsProbabilityMeasure P] {env : Ω → Env ℝ D d M O}

/-- **C63 (whole `sample` call).** `Sampler(rqs_mala_bundle).sample(initial_position, data)` in an ideal random world, with exact arithmetic.  The call never raises.
Let `w ω` be the situation when training ends and production starts, in outcome `ω`.  For every event `E` of positive probability decided before production
starts, and every flow `m` (whose `log_prob` is up to a constant the log-density of its samples): if on `E` the frozen flow is `m`, and given `E` the position of
every chain at that moment is decided before production and has the target distribution `μ`, then given `E` every cell (chain `i`, step `j`) of the production
position buffer after the call has distribution `μ`. -/
theorem C63_sample (h : IdealDraws past sig P env) (hl : ∀ ω, (env ω).ops.Lawful) (c : BundleCfg ℝ D d M O) (hc : GoodCfg c) (hn : 0 < c.nChains) (hb : 0 < c.batchSize)
    (hfin : ∀ x : ℝ, BufNum.isFinite x = true) (data : Data D)
    (nd nc : ℕ) (key : Key) (kw : List (String × V)) (s : Sampler ℝ D d M O V) (hs : Sampler.new nd nc key none none none (some (malaBundle c)) kw = .ok s)
    (init : Ω → InitPos ℝ d) (hx : ∀ ω, (init ω).atleast2d.length = c.nChains) :
    ∃ (w : Ω → World ℝ D d M O) (s' : Ω → Sampler ℝ D d M O V), (∀ ω, s.sample (env ω) (init ω) data = (.ok (), s' ω)) ∧
      (∀ ω, Completes (env ω) (malaBundle c).strategies.lookup data (repeatPhase c.nTrainLoops trainingPhase ++ ["reset_steppers", "update_state"])
        ⟨key, (init ω).atleast2d, ⟨(malaBundle c).resources, fun _ => 0⟩⟩ (w ω)) ∧
      ∀ (E : Set Ω) (m : M) (μ : Measure (Pos ℝ d)) (_ : IsProbabilityMeasure μ), ExactBundle (fun _ => True) P sig env c data m μ →
        MeasurableSet[before past sig (trainedKey c.nTrainLoops c.nEpochs key)] E → P E ≠ 0 →
        (∀ ω ∈ E, (w ω).heap.res "global_sampler" = some (.kernel (.nf m c.nfBatch))) →
        (∀ i < c.nChains, ∃ X : Ω → Pos ℝ d, (∀ ω ∈ E, (w ω).xs[i]? = some (X ω)) ∧
          Measurable[before past sig (trainedKey c.nTrainLoops c.nEpochs key)] X ∧ (P[|E]).map X = μ) →
        ∀ i < c.nChains, ∀ j < c.nProdSteps, ∃ Y : E → Pos ℝ d, Measurable Y ∧ (condOn P E).map Y = μ ∧
          ∀ ω : E, ∃ b, (s' ω).heap.res "positions_production" = some (.buffer b) ∧ ∀ a : Fin d, b.data.get [i, j, a] = Y ω a := by
  simp only [Sampler.new, Except.ok.injEq] at hs
  subst hs
  have hG : ∀ ω, StaysIn (env ω) c data (fun _ => True) := fun ω => ⟨fun _ _ _ _ _ => trivial, fun _ _ _ _ _ _ _ _ => trivial, fun x _ i => hfin _⟩
  choose w w' h1 h2 using fun ω => bundle_total (env ω) (hl ω) c hc data hn hb _ (hG ω) key (init ω).atleast2d (hx ω) (fun _ _ => trivial)
  have h3 : ∀ ω, Completes (env ω) (bundleStrategies c).lookup data (bundleOrder c) ⟨key, (init ω).atleast2d, ⟨bundleResources c, fun _ => 0⟩⟩ (w' ω) := fun ω => by
    rw [bundleOrder, completes_append]; exact ⟨w ω, h1 ω, h2 ω⟩
  have h4 := fun ω => completes_sample (h3 ω)
  have hsample : ∀ ω, Sampler.sample (V := V) (env ω) ⟨nd, nc, key, ⟨bundleResources c, fun _ => 0⟩, (bundleStrategies c).lookup, some (bundleOrder c), setAttrs kw (fun _ => none)⟩ (init ω) data =
      (.ok (), ⟨nd, nc, key, (w' ω).heap, (bundleStrategies c).lookup, some (bundleOrder c), setAttrs kw (fun _ => none)⟩) := by
    intro ω
    simp only [Sampler.sample]
    rw [h4 ω]
  refine ⟨w, _, hsample, h1, ?_⟩
  intro E m μ hμ hE hEm hP hflow hstart
  exact C63_given_training h c data m μ hE key (fun ω => (init ω).atleast2d) hx w w' (trainedKey c.nTrainLoops c.nEpochs key) E hEm hP (fun ω _ => h1 ω)
    (fun ω _ => switch_key (env ω) c data _ _ _ (h1 ω)) hflow hstart (fun ω _ => h2 ω)

end FlowMC
