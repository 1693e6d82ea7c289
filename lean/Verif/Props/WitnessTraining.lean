import Verif.Props.TrainCall
import Verif.Props.FMTrain
import Verif.Props.Optimization
import Verif.Props.SecondRun
import Verif.Props.Serialise
import Verif.Props.Precision
import Verif.Props.Frozen
import Verif.Props.TrainTravel
import Verif.Props.Adam
import Verif.Props.IdealWorld
/-
Non-vacuity of the theorems about tempering adaptation, training, optimisation and saving.  Every `example` applies a theorem to concrete data; its statement is the
theorem's conclusion at that data.
-/
set_option linter.unusedSectionVars false
namespace FlowMC
open Spec
namespace Toy

/-! C33–C35, C65 -/
theorem temperSite (b : Bool) : TemperSite temperStrat (temperHeap b) env.rng start.length 2 "P" "T" (Buffer.new "P" [2, 2, 1] 2)
    { (Buffer.new "T" [3] 0 : Buffer Int) with data := arr1 0 [1, 2, 3] } (fun k x lp t data => grwKernel Toy.rng 1 k x lp t data)
    ⟨⟨Toy.target, []⟩, Toy.target⟩ (.bool b) where
  names := ⟨[], rfl⟩
  ne := by decide
  kernel := ⟨.grw 1, rfl, rfl⟩
  density := rfl
  posBuf := rfl
  tempBuf := rfl
  state := ⟨_, rfl, rfl⟩
  posShape := rfl
  tempShape := rfl
  posDim := by decide
  tempDim := rfl

example := C33_adaptation [[[false, true, true], [true, true, false]], [[true, true, false], [true, false, false]]] [1, 2, 3, 10] (by unfold OrderedBelowTop; norm_num)
example := C33_gaps [[false, true, true], [true, true, false]] [1, 2, 3, 10] 1 (by simp)
example := C34_bounded_partial [[false, true], [true, true]] [1, 2, 10] (by
  intro i hi
  have : i = 0 := by simp at hi; omega
  subst this
  norm_num [exchangedFraction]) (by unfold OrderedBelowTop; norm_num)
example := C35_frozen env temperStrat (.root 3) start data (temperHeap false) 2 "P" "T" _ _ _ _ _ (temperSite false) rfl
example := C35_training env temperStrat (.root 3) start data (temperHeap true) 2 "P" "T" _ _ _ _ _ (temperSite true) rfl
example := C65_replicas_reset env temperStrat (.root 3) (.root 4) start [fun _ => 8, fun _ => 9] data data (temperHeap false) 2 "P" "T" _ _ _ _ _ (temperSite false) rfl rfl

/-! C48–C51 -/
theorem int_order : LossOrder Int (fun a => some a) := by intro a b; simp [FCmp.blt]
theorem rng_lawful : rng.Lawful where
  perm _ n := .refl _
  choice_length _ _ m _ := by simp [rng]
  choice_lt _ n m hn i hi := by simp [rng] at hi; omega

example := C48_call env trainer (.root 3) start trainHeap 0 0 _ 2 3 3 6 [] rfl rfl rfl rfl (by decide) (by decide) (by decide) (by decide) (by decide) (by decide)
  ⟨_, rfl, rfl, rfl, rfl, by simp⟩ (by decide) _ int_order _ rfl
example := C48_best_snapshot rng ops 1000 (.root 3) 7 0 [fun _ => 1, fun _ => 2, fun _ => 3] 5 2 (by decide) _ int_order _ rfl
example := C49_batches rng rng_lawful (.root 3) 7 3 (by decide)
example := C49_epoch rng rng_lawful ops 1000 (.root 3) 7 0 [fun _ => 1, fun _ => 2, fun _ => 3, fun _ => 4, fun _ => 5] 2 (by decide)
example := C50_losses_per_call env trainer (.root 3) trainHeap _ rfl
/-- two training calls on the same heap, whose loss buffer has room for six epochs -/
example := C50_loss_log env "loss" (by decide) 6 trainHeap _ _ [] (.call (k := .root 3) (xs := start) trainer rfl rfl rfl (.call (k := .root 4) (xs := start) trainer rfl rfl rfl (.done _)))
  ⟨_, rfl, rfl, rfl, rfl, by simp⟩ (by decide)
example := C51_recent_rows_partial env trainer (.root 3) trainHeap _ 2 3 3 _ rfl rfl (by decide) (by decide) rfl
example := C51_window_zero (d := 1) (arr3 0 2 3 (d := 1) [[fun _ => 1, fun _ => 2, fun _ => 3], [fun _ => 4, fun _ => 5, fun _ => 6]] : NDArr Int) 2 3 3 (by decide) (by decide)

/-! C53 -/
/-- A maximiser of `-x²` in two dimensions with bounds [-1, 1], from a start outside them. -/
noncomputable def maximiser (n : Nat) : AdamOptimization ℝ Unit 2 :=
  ⟨⟨fun x _ => -(x 0)^2, fun x _ => fun i => -2 * x i⟩, n, 10, [(-1, 1)], ⟨Unit, fun _ => (), fun g _ _ => (fun i => -g i, ())⟩⟩
example := C53_bounds_real ⟨fun _ _ _ => 0, fun _ => 0, fun _ _ => [], fun _ _ _ => []⟩ (maximiser 2) ⟨(), none⟩ (.root 1) [fun _ => 5] (by decide)
  (by intro b hb; simp only [maximiser, List.mem_singleton] at hb; subst hb; norm_num) _ _ _ rfl
example := C53_zero_steps ⟨fun _ _ _ => 0, fun _ => 0, fun _ _ => [], fun _ _ _ => []⟩ (maximiser 0) ⟨(), none⟩ (.root 1) [fun _ => 5] rfl (.inl rfl)
example := C53_bounds _ int_order rng (⟨target, 2, 1, [(-1, 1)], ⟨Unit, fun _ => (), fun g _ _ => (fun i => -g i, ())⟩⟩ : AdamOptimization Int Unit 1) data (.root 1) [fun _ => 5] (by decide)
  (by intro b hb; simp only [List.mem_singleton] at hb; subst hb; exact ⟨_, _, rfl, rfl, by decide⟩) _ _ _ rfl

/-! C68, C69 -/
def fmRng : Rng ℤ := { uniform := fun _ => 0, normal := fun _ _ _ => 0, permutation := fun _ n => List.range n, choice := fun _ _ m => List.replicate m 0 }
def fmRows : List (FMRow ℤ 1) := (List.range 7).map fun i => ⟨fun _ => 0, fun _ => (i : ℤ), 1⟩
example := C68_best_snapshot fmRng fmOps 1000 (.root 0) (0, 0) () fmRows 2 3 (by decide) _ int_order _ rfl
example := C68_epoch fmRng ⟨fun _ n => .refl _, fun _ _ m _ => by simp [fmRng], fun _ n m hn i hi => by simp [fmRng] at hi; omega⟩ fmOps 1000 (.root 0) (0, 0) () fmRows 3 (by decide) (by decide)
example := C68_small fmRng fmOps 1000 (.root 0) (0, 0) () fmRows 30 (by decide)
example := C68_stats fmRng fmOps 1000 (.root 0) (0, 0) () fmRows 2 3 (by decide) _ int_order _ rfl (fun _ _ _ => ⟨rfl, rfl⟩)
example := C69_whitened ([fun _ => 0, fun _ => 3] : List (Pos ℝ 2)) 0 (by simp) ⟨fun _ => 0, by simp, fun _ => 3, by simp, by norm_num⟩

/-- Training operations of a spline flow and of a RealNVP that leave the whitening statistics alone. -/
noncomputable def splineOps : FlowOps ℝ 2 (SplineFlow 2 4) Unit :=
  { sample := fun _ _ n => List.replicate n 0, logProb := fun _ _ => 0, setStats := SplineFlow.setStats,
    trainStep := fun m _ _ => (1, { m with layers := m.layers.map (fun l => { l with shift := l.shift / 2 }) }, ()) }
noncomputable def nvpOps : FlowOps ℝ 2 (RealNVP 2) Unit :=
  { sample := fun _ _ n => List.replicate n 0, logProb := fun _ _ => 0, setStats := RealNVP.setStats, trainStep := fun m _ _ => (1, m, ()) }
section
open Classical
noncomputable local instance : FCmp ℝ := ⟨fun a b => decide (a < b)⟩
theorem real_order : LossOrder ℝ (fun a => some a) := by intro a b; simp [FCmp.blt]
noncomputable example (rng : Rng ℝ) (m : SplineFlow 2 4) := C69_spline_stats rng splineOps rfl (fun _ _ _ => ⟨rfl, rfl⟩) (10 ^ 9) (.root 0) m () [fun _ => 0, fun _ => 3, fun _ => 5] 3 2 (by decide) _
  real_order _ rfl
noncomputable example (rng : Rng ℝ) (m : RealNVP 2) := C69_nvp_stats rng nvpOps rfl (fun _ _ _ => ⟨rfl, rfl⟩) (10 ^ 9) (.root 0) m () [fun _ => 0, fun _ => 3, fun _ => 5] 3 2 (by decide) _
  real_order _ rfl
end

/-! C77: one chain started at 1, density `-x²`, learning rate 1/100, noise 10, bounds [-5, 5] -/
section
open MeasureTheory ProbabilityTheory
noncomputable def parabola : Target ℝ Unit 1 := ⟨fun x _ => -(x 0) ^ 2, fun x _ i => -2 * x i⟩
theorem room : ∀ z : Fin 1 → ℝ, (∀ i, |z i - (fun _ => 1 : Pos ℝ 1) i| ≤ 1 / 100) → InBox [(-5, 5)] z := by
  intro z hz i b hb
  simp [boundOf] at hb
  subst hb
  have := abs_le.1 (hz i)
  constructor <;> linarith
theorem inBox (a : ℝ) (h : |a| ≤ 5) : InBox [(-5, 5)] (fun _ : Fin 1 => a) := by
  intro i b hb
  simp [boundOf] at hb
  subst hb
  exact abs_le.1 h
noncomputable def quiet : Rng ℝ := ⟨fun _ _ _ => 0, fun _ => 0, fun _ _ => [], fun _ _ _ => []⟩
example := C77_first_step parabola (1 / 100) 10 [(-5, 5)] quiet ⟨(), none⟩ (.root 1) [fun _ => 1] _ _ _ (by norm_num) rfl 0 (fun _ => 1) _ rfl rfl room 0
example := C77_direction parabola (1 / 100) 10 [(-5, 5)] quiet ⟨(), none⟩ (.root 1) [fun _ => 1] _ _ _ (by norm_num) rfl 0 (fun _ => 1) _ rfl rfl room 0
example := C77_travel parabola (1 / 100) 10 [(-5, 5)] quiet ⟨(), none⟩ 100 (by simp) (by norm_num) (.root 1) [fun _ => 1] _ _ _ rfl 0 (fun _ => 1) _ rfl rfl (inBox 1 (by norm_num)) 0
/-- started at the maximum -/
example := C77_stationary parabola (1 / 100) 10 [(-5, 5)] quiet ⟨(), none⟩ 100 (.root 1) [fun _ => 0] _ _ _ rfl 0 (fun _ => 0) _ rfl rfl (inBox 0 (by norm_num)) (by simp [parabola])
example := C77_noise parabola (1 / 100) 10 [(-5, 5)] ⟨(), none⟩ Ideal.prob (fun ω => (Ideal.env ω).rng) (fun k => by simp only [Ideal.env]; fun_prop) (fun k => by
    refine (Ideal.prob_at (some k) (fun x => x.1 0 0) (by fun_prop)).trans ?_
    have h := Ideal.raw_row 0 1
    have : (Ideal.raw.map (fun x (i : Fin 1) => x.1 0 i)).map (fun v => v 0) = gaussianReal 0 1 := by
      rw [h]; exact (measurePreserving_eval (fun _ : Fin 1 => gaussianReal 0 1) 0).map_eq
    rw [Measure.map_map (by fun_prop) (by fun_prop)] at this
    exact this)
  (by norm_num) (by norm_num) (.inl rfl) (.root 1) [fun _ => 1] 0 (fun _ => 1) rfl room 0 (by simp [parabola])
end

/-! C79, C52 -/
section
noncomputable def steep : TrainsWithAdamW steepOps (id : (Fin 2 → ℝ) → Fin 2 → ℝ) (1 / 1000) (9 / 10) := ⟨fun _ p => p, fun _ _ => rfl, _, _, rfl⟩
example := C79_any_momentum steep (by norm_num) (by norm_num) (by norm_num) (by norm_num)
example := C79_first_step (by norm_num) (by norm_num) steep (fun _ => 5) [fun _ => 1, fun _ => 3]
example := C52_frozen_decay_partial (1 / 1000) (9 / 10) [fun _ _ => 0, fun _ i => if i = 0 then 0 else 3] (0 : Fin 2) (by simp) fun _ => 5
example := C52_not_frozen (9 / 10) (fun _ _ => 0) (by simp)
example := C52_mask_decay_breaks_inverse (1 / 1000) (9 / 10) (by norm_num) (by norm_num) [fun _ _ => 0, fun _ _ => 0] (by simp) (by simp) 2 (by norm_num)
end

/-! C81, C82 -/
def model1 : Module' ℕ := [.arr "float32" [2] 7, .num .int 3, .other "tanh"]
def model2 : Module' ℕ := [.arr "float32" [2] 9, .num .int 4, .other "tanh"]
example := C81_all_from_file (saveModel (fun _ => none) "f" model1) "f" model2 _ rfl
example := C81_last_save (fun _ => none) [("f", model2), ("g", model2)] "f" model1 [("g", model1)] (by simp) model2 rfl
theorem low64 : ("Float64" : String).toLower = "float64" := by rw [← String.toList_inj, String.toLower, String.toList_map]; decide
theorem low32 : ("FLOAT32" : String).toLower = "float32" := by rw [← String.toList_inj, String.toLower, String.toList_map]; decide
theorem lowD : ("double" : String).toLower = "double" := by rw [← String.toList_inj, String.toLower, String.toList_map]; decide
theorem to64 : toPrecision (fun _ _ v => v) model1 "Float64" = .ok [.arr "float64" [2] 7, .num .int 3, .other "tanh"] := by
  unfold toPrecision precisionNames; rw [low64, if_pos (by decide)]; rfl
theorem toD : toPrecision (fun _ _ v => v) model1 "double" = .error .valueError := by
  unfold toPrecision precisionNames; rw [lowD, if_neg (by decide)]
example := C82_checkpoint (fun _ => none) "f" model1 _ "Float64" to64
example := C82_error model1 "double" _ toD
example := C82_idempotent (fun _ _ => rfl) model1 _ "Float64" to64
example := C82_leaves model1 _ "Float64" to64
example := C82_round_trip (conv := fun _ _ v => v) "float32" "float64" (fun _ => rfl) model1 (by simp only [model1]; simp; tauto) "Float64" "FLOAT32" low64 low32 (by decide) (by decide)
example := C82_same (conv := fun _ _ v => v) (fun _ _ => rfl) model1 "FLOAT32" (by rw [low32]; decide) (by rw [low32]; simp [model1]; tauto)

end Toy
end FlowMC
