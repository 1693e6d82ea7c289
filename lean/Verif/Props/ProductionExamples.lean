import Verif.Props.ProductionRun
import Verif.Props.TemperTotal
/-
Non-vacuity of C28 (recorded), C63 and C66.
-/
open MeasureTheory ProbabilityTheory
open scoped ENNReal
set_option linter.unusedSectionVars false
namespace FlowMC
open Spec
namespace Ideal

/-- Buffers of real numbers (the fill value is irrelevant here). -/
noncomputable instance : BufNum ℝ := ⟨-1, fun _ => true, fun b => if b then 1 else 0⟩

/-- Two chains, one production loop of four local (thinned by two) and six global steps in flow batches of four; no training loop, so that the frozen
flow is the initial one and the starting positions are those given to `sample`. -/
noncomputable def cfg : BundleCfg ℝ Unit 2 Unit Unit where
  key := .root 0
  nChains := 2
  logpdf := target
  nLocal := 4
  nGlobal := 6
  nTrainLoops := 0
  nProdLoops := 3
  nEpochs := 5
  stepSize := 1 / 10
  localThin := 2
  globalThin := 3
  nfBatch := 4
  mkModel := fun _ => ()
  mkOptim := fun _ => ()

theorem cfg_good : GoodCfg cfg := ⟨by decide, by decide, by decide, by decide, by decide, by decide, by decide⟩

noncomputable def start2 (ω : Outcome) : Pos ℝ 2 := fun i => (ω none).1 1 i
theorem start2_known : Measurable[past] start2 := (by fun_prop : Measurable fun (x : Raw) (i : Fin 2) => x.1 1 i).comp past_measurable
theorem start2_law : prob.map start2 = stdNormal 2 := (prob_at none (fun x (i : Fin 2) => x.1 1 i) (by fun_prop)).trans (raw_row 1 2)

theorem exact : ExactBundle (fun _ => True) prob sig env cfg ⟨(), none⟩ () (stdNormal 2) where
  good := cfg_good
  step := by norm_num [cfg]
  meas := by simp only [cfg, target]; fun_prop
  gradMeas := by refine measurable_pi_lambda _ fun i => ?_; simp only [cfg, target]; fun_prop
  ignores := fun _ _ _ _ => rfl
  target := Toy.normal_samplesFrom
  flow := ⟨stdNormal 2, _, inferInstance, by fun_prop, flow⟩

/-- Non-vacuity of C63: a whole `sample` call in the ideal world; each of the 2 × 12 cells of the production buffer is standard normal. -/
example : ∃ s' : Outcome → Sampler ℝ Unit 2 Unit Unit Unit,
    (∀ ω, ∃ s, Sampler.new 2 2 (.root 7) none none none (some (malaBundle cfg)) [] = .ok s ∧ s.sample (env ω) (.mat [start ω, start2 ω]) ⟨(), none⟩ = (.ok (), s' ω)) ∧
    ∀ i < 2, ∀ j < 12, ∃ Y : ↑(Set.univ : Set Outcome) → Pos ℝ 2, Measurable Y ∧ (condOn prob Set.univ).map Y = stdNormal 2 ∧
      ∀ ω : ↑(Set.univ : Set Outcome), ∃ b, (s' ω).heap.res "positions_production" = some (.buffer b) ∧ ∀ a : Fin 2, b.data.get [i, j, a] = Y ω a := by
  obtain ⟨w, s', h1, h2, h3⟩ := C63_sample (V := Unit) draws (fun ω => flow.lawful ω) cfg cfg_good (by decide) (by decide) (fun _ => rfl) ⟨(), none⟩ 2 2 (.root 7) [] _ rfl
    (fun ω => .mat [start ω, start2 ω]) (fun _ => rfl)
  have hw : ∀ ω, w ω = ⟨.root 7, [start ω, start2 ω], (w ω).heap⟩ ∧ (w ω).heap.res "global_sampler" = some (.kernel (.nf () 4)) := by
    intro ω
    have h := h2 ω
    simp only [cfg, repeatPhase, List.replicate_zero, List.flatten_nil, List.nil_append] at h
    obtain ⟨e1, e2, -, -, -, e3, -⟩ := switch_step (env ω) cfg _ (bundle_hasCore cfg) ⟨(), none⟩ _ _ h (fun _ => []) (bundleInv_fresh cfg _ (fun _ _ => rfl))
    refine ⟨?_, by rw [e3 _ (by decide)]; rfl⟩
    simp only at e1 e2
    cases hw : w ω
    rw [hw] at e1 e2
    simp only at e1 e2
    rw [e1, e2]
    rfl
  refine ⟨s', fun ω => ⟨_, rfl, h1 ω⟩, ?_⟩
  refine h3 Set.univ () (stdNormal 2) inferInstance exact MeasurableSet.univ (by simp) (fun ω _ => (hw ω).2) ?_
  intro i hi
  rw [show cfg.nChains = 2 from rfl] at hi
  rcases (show i = 0 ∨ i = 1 by omega) with rfl | rfl
  · refine ⟨start, fun ω _ => by rw [(hw ω).1]; rfl, start_known.mono (past_le_info ?_) le_rfl, by rw [cond_univ, start_law]⟩
    rintro ⟨a, ha, -⟩; simp at ha
  · refine ⟨start2, fun ω _ => by rw [(hw ω).1]; rfl, start2_known.mono (past_le_info ?_) le_rfl, by rw [cond_univ, start2_law]⟩
    rintro ⟨a, ha, -⟩; simp at ha

/-- Resources of a single step call: fresh buffers for two chains and ten steps. -/
noncomputable def stepHeap : Heap ℝ Unit 2 Unit Unit where
  res := fun n => match n with
    | "state" => some (.state (State.new (fun k => match k with
        | "p" => some (.str "P") | "l" => some (.str "L") | "a" => some (.str "A") | _ => none)))
    | "P" => some (.buffer (Buffer.new "P" [2, 10, 2] 1))
    | "L" => some (.buffer (Buffer.new "L" [2, 10] 1))
    | "A" => some (.buffer (Buffer.new "A" [2, 10] 1))
    | "kernel" => some (.kernel (.mala (1 / 10)))
    | "logpdf" => some (.logpdf ⟨target, []⟩)
    | _ => none
  pos := fun _ => 4

/-- Non-vacuity of C28 (recorded): the rows a stepper records at steps 4, 5, 6 (five MALA steps thinned by two) are standard normal. -/
example : ∃ (ys : Outcome → List (Pos ℝ 2)) (h' : Outcome → Heap ℝ Unit 2 Unit Unit),
    (∀ ω, (Toy.stepper 5 2).run (env ω) (.root 3) [start ω, start2 ω] ⟨(), none⟩ stepHeap = (.ok (.child (.root 3) 0, ys ω), h' ω)) ∧
      (∃ Y : Outcome → Pos ℝ 2, (∀ ω, (ys ω)[1]? = some (Y ω)) ∧ Measurable Y ∧ prob.map Y = stdNormal 2) ∧
      ∀ j, j < 3 → ∃ Y : Outcome → Pos ℝ 2, Measurable Y ∧ prob.map Y = stdNormal 2 ∧
        ∀ ω, ∃ b, (h' ω).res "P" = some (.buffer b) ∧ ∀ a : Fin 2, b.data.get [1, 4 + j, a] = Y ω a :=
  C28_recorded draws (Toy.stepper 5 2) (.root 3) 2 (fun ω => [start ω, start2 ω]) (fun _ => rfl) ⟨(), none⟩ (fun _ => stepHeap) 10 "P" "L" "A" _ _ _
    (fun _ => ⟨_, "p", "l", "a", [], rfl, rfl, rfl, rfl, rfl⟩) (fun _ => ⟨rfl, rfl, rfl, rfl, rfl, rfl, rfl, rfl, rfl, by decide⟩) 4 (fun _ => rfl) (by decide)
    (.mala (1 / 10)) (show (1 / 10 : ℝ) ≠ 0 by norm_num) _ target (fun _ => ⟨rfl, rfl, rfl, ⟨_, rfl, rfl⟩⟩) (by decide) (by decide)
    (by simp only [target]; fun_prop) (by refine measurable_pi_lambda _ fun i => ?_; simp only [target]; fun_prop) _ Toy.normal_samplesFrom 1 start2 (fun _ => rfl)
    start2_known start2_law

end Ideal

namespace Toy
open XR

/-- Buffers of extended reals. -/
noncomputable instance : BufNum XR := ⟨ninf, fun x => match x with | fin _ => true | _ => false, fun b => if b then fin 1 else fin 0⟩

/-- A log-density on the extended reals: `-x²` at finite points, `-inf` elsewhere. -/
noncomputable def xrTarget : Target XR Unit 1 where
  val x _ := match x 0 with | fin a => fin (-(a * a)) | _ => ninf
  grad x _ := fun _ => match x 0 with | fin a => fin (-2 * a) | _ => nan

/-- An environment on the extended reals, whose flow proposes infinite positions. -/
noncomputable def xrEnv : Env XR Unit 1 Unit Unit where
  rng := { normal := fun _ _ _ => fin 1, uniform := fun _ => fin (1 / 2), permutation := fun _ n => List.range n, choice := fun _ _ m => List.replicate m 0 }
  ops := { sample := fun _ _ n => List.replicate n (fun _ => pinf), logProb := fun _ _ => fin 0, trainStep := fun m o _ => (fin 1, m, o), setStats := fun m _ => m }
  big := fin 1000000000

noncomputable def xrCfg : BundleCfg XR Unit 1 Unit Unit where
  key := .root 0
  nChains := 2
  logpdf := xrTarget
  nLocal := 4
  nGlobal := 6
  nTrainLoops := 3
  nProdLoops := 2
  nEpochs := 5
  stepSize := fin (1 / 10)
  localThin := 2
  nfBatch := 4
  mkModel := fun _ => ()
  mkOptim := fun _ => ()

/-- Non-vacuity of C66: three training and two production loops, with a flow that proposes infinite positions. -/
example : ∃ s s' : Sampler XR Unit 1 Unit Unit Unit, Sampler.new 1 2 (.root 7) none none none (some (malaBundle xrCfg)) [] = .ok s ∧
    s.sample xrEnv (.mat [fun _ => fin 3, fun _ => fin 0]) ⟨(), none⟩ = (.ok (), s') := by
  obtain ⟨s', h⟩ := C66_never_raises (V := Unit) xrEnv (fun m k n => by simp [xrEnv]) xrCfg ⟨by decide, by decide, by decide, by decide, by decide, by decide, by decide⟩
    (by decide) (by decide) ⟨(), none⟩ (fun _ _ _ _ => rfl) (fun x i hx => by
      obtain rfl : i = 0 := Subsingleton.elim _ _
      right
      simp only [xrCfg, xrTarget]
      cases h : x 0 with
      | fin a => rw [h] at hx; simp [BufNum.isFinite] at hx
      | _ => rfl) 1 2 (.root 7) [] _ rfl (.mat [fun _ => fin 3, fun _ => fin 0]) rfl (fun x hx => by
      simp only [InitPos.atleast2d, List.mem_cons, List.not_mem_nil, or_false] at hx
      rcases hx with rfl | rfl <;> · intro i; rfl)
  exact ⟨_, s', rfl, h⟩

/-- The tempered bundle: three temperatures up to 10, a flat prior (which is finite even at infinite positions). -/
noncomputable def xrPT : PTCfg XR Unit 1 where
  nTemps := 3
  maxTemp := fin 10
  logprior := { val := fun _ _ => fin 0, grad := fun _ _ _ => fin 0 }

/-- Non-vacuity of C66 for the tempered bundle. -/
example : ∃ s s' : Sampler XR Unit 1 Unit Unit Unit, Sampler.new 1 2 (.root 7) none none none (some (ptBundle xrCfg xrPT)) [] = .ok s ∧
    s.sample xrEnv (.mat [fun _ => fin 3, fun _ => fin 0]) ⟨(), none⟩ = (.ok (), s') := by
  obtain ⟨s', h⟩ := C66_tempered_any_prior (V := Unit) xrEnv (fun m k n => by simp [xrEnv]) xrCfg ⟨by decide, by decide, by decide, by decide, by decide, by decide, by decide⟩
    xrPT (by decide) (by decide) (by decide) 10 rfl (by norm_num) ⟨(), none⟩ (fun _ _ _ _ => rfl) (fun x i hx => by
      obtain rfl : i = 0 := Subsingleton.elim _ _
      right
      simp only [xrCfg, xrTarget]
      cases h : x 0 with
      | fin a => rw [h] at hx; simp [BufNum.isFinite] at hx
      | _ => rfl) 1 2 (.root 7) [] _ rfl (.mat [fun _ => fin 3, fun _ => fin 0]) rfl (fun x hx => by
      simp only [InitPos.atleast2d, List.mem_cons, List.not_mem_nil, or_false] at hx
      rcases hx with rfl | rfl <;> · intro i; rfl)
  exact ⟨_, s', rfl, h⟩

end Toy
end FlowMC
