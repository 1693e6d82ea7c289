import Verif.Props.TemperLaw
import Verif.Props.TemperBias
import Verif.Props.IdealWorld
/-
Non-vacuity of C31 and C32: two replicas at temperatures 1 and 4 in the ideal world of `Props/IdealWorld.lean`.
-/
open MeasureTheory ProbabilityTheory
open scoped ENNReal
set_option linter.unusedSectionVars false
namespace FlowMC
open Spec
namespace Ideal

/-- A standard normal likelihood and a flat prior. -/
noncomputable def tempered : TemperedPDF ℝ Unit 2 := ⟨⟨target, []⟩, ⟨fun _ _ => 0, fun _ _ _ => 0⟩⟩
def temps : Fin 2 → ℝ := ![1, 4]
/-- The replicas: one standard normal vector, one with standard deviation 2. -/
noncomputable def replicas (ω : Outcome) : Fin 2 → Pos ℝ 2 := fun r i => if r = 0 then (ω none).1 0 i else 2 * (ω none).1 1 i

theorem target_measurable : Measurable (fun x => target.val x ⟨(), none⟩) := by simp only [target]; fun_prop
theorem target_grad_measurable : Measurable (fun x => target.grad x ⟨(), none⟩) := by refine measurable_pi_lambda _ fun i => ?_; simp only [target]; fun_prop

noncomputable def marginal (r : Fin 2) : Measure (Pos ℝ 2) := (stdNormal 2).map (fun ξ i => if r = 0 then ξ i else 2 * ξ i)

theorem scale_measurable (r : Fin 2) : Measurable (fun (ξ : Pos ℝ 2) i => if r = 0 then ξ i else 2 * ξ i) := by
  refine measurable_pi_lambda _ fun i => ?_
  by_cases h : r = 0
  · simp only [h, if_true]; fun_prop
  · simp only [h, if_false]; fun_prop

instance (r : Fin 2) : IsProbabilityMeasure (marginal r) := Measure.isProbabilityMeasure_map (scale_measurable r).aemeasurable

theorem marginal_law (r : Fin 2) : SamplesFrom (marginal r) (fun x => (tempered.tempered (temps r)).val x ⟨(), none⟩) := by
  fin_cases r
  · have h1 := Toy.normal_samplesFrom
    convert h1 using 1
    · simp [marginal]
    · funext x
      simp [TemperedPDF.tempered, tempered, temps, LogPDF.call, target]
  · have h1 := stdNormal_affine (d := 2) (fun _ => 0) 2 two_ne_zero
    refine ⟨ENNReal.ofReal (Real.exp (-(2 / 2 * (Real.log (2 * Real.pi) + Real.log (2 * 2))))), ?_⟩
    have e : marginal ⟨1, by decide⟩ = (stdNormal 2).map (fun (ξ : Fin 2 → ℝ) i => 0 + 2 * ξ i) := by
      simp [marginal]
    refine e.trans (h1.trans ?_)
    rw [targetMeasure, ← withDensity_smul' _ _ ENNReal.ofReal_ne_top]
    congr 1
    funext x
    rw [Pi.smul_apply, smul_eq_mul, ← ENNReal.ofReal_mul (Real.exp_pos _).le, ← Real.exp_add]
    congr 2
    simp only [isoNormLogpdf, sumFin_eq, Fin.sum_univ_two, TemperedPDF.tempered, tempered, temps, LogPDF.call, target, two, Transc.log, Transc.pi]
    simp
    ring_nf

theorem replicas_known : Measurable[past] replicas := by
  have h : Measurable (fun (x : Raw) (r : Fin 2) (i : Fin 2) => if r = 0 then x.1 0 i else 2 * x.1 1 i) := by
    refine measurable_pi_lambda _ fun r => measurable_pi_lambda _ fun i => ?_
    by_cases hr : r = 0
    · simp only [hr, if_true]; fun_prop
    · simp only [hr, if_false]; fun_prop
  exact h.comp past_measurable

theorem replicas_law : prob.map replicas = Measure.pi marginal := by
  have hm : Measurable (fun (v : Fin 2 → Pos ℝ 2) (r : Fin 2) (i : Fin 2) => if r = 0 then v r i else 2 * v r i) :=
    measurable_pi_lambda _ fun r => (scale_measurable r).comp (measurable_pi_apply r)
  have e : replicas = fun ω => (fun (x : Raw) (r : Fin 2) (i : Fin 2) => if r = 0 then x.1 r i else 2 * x.1 r i) (ω none) := by
    funext ω r i
    fin_cases r <;> rfl
  have e2 : (fun (x : Raw) (r : Fin 2) (i : Fin 2) => if r = 0 then x.1 r i else 2 * x.1 r i) =
      (fun (v : Fin 2 → Pos ℝ 2) (r : Fin 2) (i : Fin 2) => if r = 0 then v r i else 2 * v r i) ∘ (fun (x : Raw) (r : Fin 2) (i : Fin 2) => x.1 r i) := rfl
  have hm2 : Measurable (fun (x : Raw) (r : Fin 2) (i : Fin 2) => x.1 r i) := by fun_prop
  have hm3 : Measurable (fun (x : Raw) (r : Fin 2) (i : Fin 2) => if r = 0 then x.1 r i else 2 * x.1 r i) := by rw [e2]; exact hm.comp hm2
  haveI : ∀ r : Fin 2, SigmaFinite ((stdNormal 2).map (fun (ξ : Pos ℝ 2) i => if r = 0 then ξ i else 2 * ξ i)) := fun r =>
    (inferInstance : SigmaFinite (marginal r))
  rw [e, prob_at none _ hm3, e2, ← Measure.map_map hm hm2, raw_rows, Measure.pi_map_pi (fun r => (scale_measurable r).aemeasurable)]
  rfl

theorem replicas_joint : ∃ Z : ℝ≥0∞, Measure.pi marginal = Z • jointTempered tempered ⟨(), none⟩ temps :=
  jointTempered_of_independent tempered ⟨(), none⟩ target_measurable measurable_const temps marginal marginal_law

/-- Non-vacuity of C31. -/
example : ∃ Y : Outcome → Fin 2 → Pos ℝ 2,
    (∀ ω, (exchange (env ω).rng tempered ⟨(), none⟩ (List.ofFn temps) (.root 5) (List.ofFn (replicas ω))).1.positions = List.ofFn (Y ω)) ∧
    Measurable Y ∧ prob.map Y = Measure.pi marginal :=
  C31_sweep_invariant draws tempered ⟨(), none⟩ target_measurable measurable_const temps _ replicas_joint (.root 5) replicas replicas_known replicas_law

theorem none_disjoint (k : Key) : Disjoint ({none} : Set (Option Key)) (descSet k) := by
  rw [Set.disjoint_left]; rintro o ho ⟨a, rfl, _⟩; simp at ho

/-- Non-vacuity of C32: three MALA steps at each temperature, then a sweep. -/
example : ∃ Y : Outcome → Fin 2 → Pos ℝ 2,
    (∀ ω, (exchange (env ω).rng tempered ⟨(), none⟩ (List.ofFn temps) (.child (.root 5) 1)
      (ensembleStep (fun k x lp t data => malaKernel (env ω).rng (1/10) k x lp t data) tempered ⟨(), none⟩ 3 (.child (.root 5) 0) (List.ofFn (replicas ω)) (List.ofFn temps))).1.positions
        = List.ofFn (Y ω)) ∧ Measurable[info past sig ({none} ∪ descSet (.child (.root 5) 0) ∪ descSet (.child (.root 5) 1))] Y ∧ prob.map Y = Measure.pi marginal :=
  C32_chain (M := Unit) draws (.mala (1/10)) (show (1/10 : ℝ) ≠ 0 by norm_num) _ (fun _ => rfl) tempered ⟨(), none⟩ target_measurable measurable_const target_grad_measurable
    measurable_const temps _ replicas_joint 3 _ _ {none} (none_disjoint _) (none_disjoint _) (descSet_disjoint (by decide)) replicas
    (replicas_known.mono (past_le_info (by simp)) le_rfl) replicas_law

/-! A strategy call on one chain. -/

def temperStrat : ParallelTempering := ⟨3, "density", "kernel", ["P", "T"], "state"⟩
noncomputable def posBuf (ω : Outcome) : Buffer ℝ := { name := "P", data := ⟨[1, 1, 2], fun idx => 2 * (ω none).1 1 (idx.getD 2 0)⟩, cursorDim := 2 }
noncomputable def tempBuf : Buffer ℝ := { name := "T", data := arr1 0 [1, 4] }
noncomputable def temperHeap (b : Bool) (ω : Outcome) : Heap ℝ Unit 2 Unit Unit where
  res := fun n => match n with
    | "state" => some (.state (State.new (fun k => if k = "training" then some (.bool b) else none)))
    | "P" => some (.buffer (posBuf ω))
    | "T" => some (.buffer tempBuf)
    | "kernel" => some (.kernel (.mala (1/10)))
    | "density" => some (.tempered tempered)
    | _ => none
  pos := fun _ => 0

theorem replicasOf_eq (ω : Outcome) : replicasOf [start ω] (posBuf ω) 0 1 = replicas ω := by
  funext r i
  fin_cases r
  · simp [replicasOf, replicas, start]
  · simp [replicasOf, replicas, posBuf, row3]

/-- Non-vacuity of `C32_call`, training or not. -/
example [BufNum ℝ] (b : Bool) : ∃ Y : Outcome → Fin 2 → Pos ℝ 2, Measurable[info past sig ({none} ∪ descSet (.root 5))] Y ∧ prob.map Y = Measure.pi marginal ∧
    ∀ ω, ∃ ys h', temperStrat.run (env ω) (.root 5) [start ω] ⟨(), none⟩ (temperHeap b ω) = (.ok (.child (.child (.child (.root 5) 0) 0) 0, ys), h') ∧ ys[0]? = some (Y ω 0) ∧
      ((SVal.bool b).truthy = true → ∃ pb', h'.res "P" = some (.buffer pb') ∧ replicasOf ys pb' 0 1 = Y ω) ∧ ((SVal.bool b).truthy = false → h' = temperHeap b ω) :=
  C32_call (M := Unit) draws temperStrat (.mala (1/10)) (show (1/10 : ℝ) ≠ 0 by norm_num) _ (fun _ => rfl) tempered ⟨(), none⟩ target_measurable measurable_const
    target_grad_measurable measurable_const 1 1 temps _ replicas_joint (.root 5) {none} (none_disjoint _) (temperHeap b) (fun ω => [start ω]) "P" "T" posBuf (fun _ => tempBuf)
    (.bool b) (fun _ => rfl)
    (fun ω => { names := ⟨[], rfl⟩, ne := by decide, kernel := ⟨.mala (1/10), rfl, rfl⟩, density := rfl, posBuf := rfl, tempBuf := rfl, state := ⟨_, rfl, rfl⟩,
                posShape := rfl, tempShape := rfl, posDim := by simp [Ideal.posBuf], tempDim := rfl })
    (fun ω => by simp [ladder, tempBuf, arr1, temps, List.range_succ]) 0 (by decide)
    (by simp only [replicasOf_eq]; exact replicas_known.mono (past_le_info (by simp)) le_rfl) (by simp only [replicasOf_eq]; exact replicas_law)

/-- The same strategy without local moves. -/
def swapStrat : ParallelTempering := ⟨0, "density", "kernel", ["P", "T"], "state"⟩

/-- Non-vacuity of C78: two calls outside training; the walker starts standard normal and does not stay so. -/
example [BufNum ℝ] : ∃ Y : Outcome → Pos ℝ 2, Measurable Y ∧
    (∀ ω, ∃ k' ys, Completes (env ω) (fun n => if n = "pt" then some (.parallelTempering swapStrat) else none) ⟨(), none⟩ ["pt", "pt"] ⟨.root 5, [start ω], temperHeap false ω⟩
      ⟨k', ys, temperHeap false ω⟩ ∧ ys[0]? = some (Y ω)) ∧ prob.map Y ≠ prob.map (fun ω => replicasOf [start ω] (posBuf ω) 0 1 0) :=
  C78_not_kept (M := Unit) draws _ "pt" swapStrat rfl rfl tempered ⟨(), none⟩ target_measurable measurable_const 4 (by norm_num) _ replicas_joint (.root 5) {none} (none_disjoint _)
    (temperHeap false) (fun ω => [start ω]) "P" "T" posBuf (fun _ => tempBuf) _ (.bool false) rfl 1 (fun _ => rfl)
    (fun ω => { names := ⟨[], rfl⟩, ne := by decide, kernel := ⟨.mala (1/10), rfl, rfl⟩, density := rfl, posBuf := rfl, tempBuf := rfl, state := ⟨_, rfl, rfl⟩,
                posShape := rfl, tempShape := rfl, posDim := by simp [Ideal.posBuf], tempDim := rfl })
    (fun ω => by simp [ladder, tempBuf, arr1, List.range_succ]) 0 (by decide)
    (by simp only [replicasOf_eq]; exact replicas_known.mono (past_le_info (by simp)) le_rfl) (by simp only [replicasOf_eq]; exact replicas_law)
    (-1) (by
      have : (Set.univ.pi fun _ : Fin 2 => Set.Icc (0:ℝ) 1) ⊆ {x : Pos ℝ 2 | -1 ≤ tempered.base.logPdf.val x ⟨(), none⟩} := by
        intro x hx
        have h0 := hx 0 trivial
        have h1 := hx 1 trivial
        simp only [Set.mem_setOf_eq, tempered, target]
        nlinarith [h0.1, h0.2, h1.1, h1.2]
      intro hz
      have h2 := measure_mono_null this hz
      rw [volume_pi_pi] at h2
      simp at h2) (by
      have : (Set.univ.pi fun _ : Fin 2 => Set.Icc (2:ℝ) 3) ⊆ {x : Pos ℝ 2 | tempered.base.logPdf.val x ⟨(), none⟩ < -1} := by
        intro x hx
        have h0 := hx 0 trivial
        have h1 := hx 1 trivial
        simp only [Set.mem_setOf_eq, tempered, target]
        nlinarith [h0.1, h0.2, h1.1, h1.2]
      intro hz
      have h2 := measure_mono_null this hz
      rw [volume_pi_pi] at h2
      norm_num at h2)

end Ideal
end FlowMC
