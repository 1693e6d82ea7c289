import Verif.Props.FlowChains
import Mathlib.Probability.ProductMeasure
/-
An ideal random world exists: non-vacuity of C26 (sweeps), C28, C63.
-/
open MeasureTheory ProbabilityTheory
open scoped ENNReal
set_option linter.unusedSectionVars false
namespace FlowMC
open Spec
namespace Ideal

/-- The raw randomness behind one key: a double sequence of normal numbers and one uniform number. -/
abbrev Raw := (ℕ → ℕ → ℝ) × ℝ

noncomputable def normals : Measure (ℕ → ℝ) := Measure.infinitePi (fun _ => gaussianReal 0 1)
instance : IsProbabilityMeasure normals := by unfold normals; infer_instance
noncomputable def raw : Measure Raw := (Measure.infinitePi (fun _ : ℕ => normals)).prod unif
instance : IsProbabilityMeasure raw := by unfold raw; infer_instance

/-- One raw draw per key, and one (`none`) for the starting position. -/
abbrev Outcome := Option Key → Raw
noncomputable def prob : Measure Outcome := Measure.infinitePi (fun _ => raw)
instance : IsProbabilityMeasure prob := by unfold prob; infer_instance

noncomputable def env (ω : Outcome) : Env ℝ Unit 2 Unit Unit where
  rng := {
    normal := fun k n i => (ω (some k)).1 0 i
    uniform := fun k => (ω (some k)).2
    permutation := fun _ n => List.range n
    choice := fun _ _ m => List.replicate m 0 }
  ops := {
    sample := fun _ k n => List.ofFn (fun (r : Fin n) (j : Fin 2) => (ω (some k)).1 r j)
    logProb := fun _ x => -(x 0 ^ 2 + x 1 ^ 2) / 2
    trainStep := fun m o _ => (0, m, o)
    setStats := fun m _ => m }
  big := 1000000000

def sig (k : Key) : MeasurableSpace Outcome := MeasurableSpace.comap (fun ω => ω (some k)) inferInstance
def past : MeasurableSpace Outcome := MeasurableSpace.comap (fun ω => ω none) inferInstance
noncomputable def start (ω : Outcome) : Pos ℝ 2 := fun i => (ω none).1 0 i

theorem sig_measurable (k : Key) : Measurable[sig k] (fun ω : Outcome => ω (some k)) := comap_measurable _
theorem past_measurable : Measurable[past] (fun ω : Outcome => ω none) := comap_measurable _

theorem normals_law (n : ℕ) : normals.map (fun g (i : Fin n) => g i) = stdNormal n := by
  have h : iIndepFun (fun (i : Fin n) (g : ℕ → ℝ) => g i) normals :=
    (iIndepFun_infinitePi (P := fun _ : ℕ => gaussianReal 0 1) (X := fun _ x => x) (fun _ => measurable_id)).precomp Fin.val_injective
  have hm : ∀ i : Fin n, AEMeasurable (fun g : ℕ → ℝ => g i) normals := fun i => (measurable_pi_apply (i : ℕ)).aemeasurable
  rw [(iIndepFun_iff_map_fun_eq_pi_map hm).1 h]
  simp only [normals, Measure.infinitePi_map_eval]
  rfl

theorem raw_row (r n : ℕ) : raw.map (fun x (i : Fin n) => x.1 r i) = stdNormal n := by
  have e : (fun (x : Raw) (i : Fin n) => x.1 r i) = (fun g (i : Fin n) => g i) ∘ (fun g : ℕ → ℕ → ℝ => g r) ∘ Prod.fst := rfl
  rw [e, ← Measure.map_map (by fun_prop) (by fun_prop), ← Measure.map_map (by fun_prop) (by fun_prop), raw, Measure.map_fst_prod]
  simp only [measure_univ, one_smul, Measure.infinitePi_map_eval, normals_law]

theorem raw_rows (n : ℕ) : raw.map (fun x (r : Fin n) (i : Fin 2) => x.1 r i) = Measure.pi (fun _ => stdNormal 2) := by
  have h : iIndepFun (fun (r : Fin n) (g : ℕ → ℕ → ℝ) (i : Fin 2) => g r i) (Measure.infinitePi (fun _ : ℕ => normals)) :=
    (iIndepFun_infinitePi (P := fun _ : ℕ => normals) (X := fun _ x (i : Fin 2) => x i) (fun _ => by fun_prop)).precomp Fin.val_injective
  have e : (fun (x : Raw) (r : Fin n) (i : Fin 2) => x.1 r i) = (fun (g : ℕ → ℕ → ℝ) (r : Fin n) (i : Fin 2) => g r i) ∘ Prod.fst := rfl
  rw [e, ← Measure.map_map (by fun_prop) (by fun_prop), raw, Measure.map_fst_prod]
  simp only [measure_univ, one_smul]
  have hm : ∀ r : Fin n, AEMeasurable (fun (g : ℕ → ℕ → ℝ) (i : Fin 2) => g r i) (Measure.infinitePi (fun _ : ℕ => normals)) := fun r =>
    (by fun_prop : Measurable fun (g : ℕ → ℕ → ℝ) (i : Fin 2) => g r i).aemeasurable
  rw [(iIndepFun_iff_map_fun_eq_pi_map hm).1 h]
  congr 1
  funext r
  have e2 : (fun (g : ℕ → ℕ → ℝ) (i : Fin 2) => g r i) = (fun g (i : Fin 2) => g i) ∘ (fun g : ℕ → ℕ → ℝ => g r) := rfl
  rw [e2, ← Measure.map_map (by fun_prop) (by fun_prop), Measure.infinitePi_map_eval, normals_law]

theorem prob_at {B : Type} [MeasurableSpace B] (o : Option Key) (f : Raw → B) (hf : Measurable f) : prob.map (fun ω => f (ω o)) = raw.map f := by
  have e : (fun ω : Outcome => f (ω o)) = f ∘ fun ω => ω o := rfl
  rw [e, ← Measure.map_map hf (by fun_prop), prob, Measure.infinitePi_map_eval]

theorem draws : IdealDraws past sig prob env where
  past_le := (measurable_pi_apply none).comap_le
  sig_le k := (measurable_pi_apply (some k)).comap_le
  indep := by
    have h := iIndepFun_infinitePi (P := fun _ : Option Key => raw) (X := fun _ x => x) (fun _ => measurable_id)
    rw [iIndepFun_iff_iIndep] at h
    convert h using 2 with o
    · cases o <;> rfl
    · rfl
  normal_meas k _ n := (by fun_prop : Measurable fun (x : Raw) (i : Fin n) => x.1 0 i).comp (sig_measurable k)
  normal_law k _ n := (prob_at (some k) (fun x (i : Fin n) => x.1 0 i) (by fun_prop)).trans (raw_row 0 n)
  uniform_meas k _ := measurable_snd.comp (sig_measurable k)
  uniform_law k _ := (prob_at (some k) (fun x => x.2) measurable_snd).trans (by rw [raw, Measure.map_snd_prod]; simp)

theorem sample_getD (ω : Outcome) (k : Key) (n : ℕ) (r : Fin n) : ((env ω).ops.sample () k n).getD r 0 = fun j : Fin 2 => (ω (some k)).1 r j := by
  simp [env]

theorem flow : IdealFlow prob sig env () (stdNormal 2) (fun x => -(x 0 ^ 2 + x 1 ^ 2) / 2) where
  lawful ω m k n := by simp [env]
  rows_meas k _ n := by
    simp only [sample_getD]
    exact (by fun_prop : Measurable fun (x : Raw) (r : Fin n) (i : Fin 2) => x.1 r i).comp (sig_measurable k)
  rows_law k _ n := by
    simp only [sample_getD]
    exact (prob_at (some k) (fun x (r : Fin n) (i : Fin 2) => x.1 r i) (by fun_prop)).trans (raw_rows n)
  logProb ω := rfl
  density := Toy.normal_samplesFrom

theorem start_known : Measurable[past] start := (by fun_prop : Measurable fun (x : Raw) (i : Fin 2) => x.1 0 i).comp past_measurable
theorem start_law : prob.map start = stdNormal 2 := (prob_at none (fun x (i : Fin 2) => x.1 0 i) (by fun_prop)).trans (raw_row 0 2)

/-- A standard normal target with its gradient. -/
noncomputable def target : Target ℝ Unit 2 where
  val x _ := -(x 0 ^ 2 + x 1 ^ 2) / 2
  grad x _ := fun i => -x i

/-- Non-vacuity of C28: five MALA steps. -/
example : ∃ Y : Outcome → Pos ℝ 2, (∀ ω, ((serialSample (fun k x lp t data => malaKernel (env ω).rng (1/10) k x lp t data) target ⟨(), none⟩ 5 (.root 3) (start ω))[4]?).map (·.pos) = some (Y ω)) ∧
    Measurable Y ∧ prob.map Y = stdNormal 2 :=
  C28_serial_rows (M := Unit) draws (.mala (1/10)) (show (1/10 : ℝ) ≠ 0 by norm_num) _ (fun _ => rfl) target ⟨(), none⟩ (by simp only [target]; fun_prop)
    (by refine measurable_pi_lambda _ fun i => ?_; simp only [target]; fun_prop) _ Toy.normal_samplesFrom 5 (.root 3) start start_known start_law 4 (by decide)

/-- Non-vacuity of C26: a sweep of seven flow proposals in batches of three. -/
example : ∃ rows : Outcome → List (StepOut ℝ 2), (∀ ω, groupSample (env ω) () 3 target ⟨(), none⟩ 7 (.root 3) (start ω) = .ok (rows ω) ∧ (rows ω).length = 7) ∧
    ∀ j, j < 7 → ∃ Y : Outcome → Pos ℝ 2, (∀ ω, ((rows ω)[j]?).map (·.pos) = some (Y ω)) ∧ Measurable Y ∧ prob.map Y = stdNormal 2 :=
  C26_sweep_rows draws () _ _ (by fun_prop) flow 3 (by decide) target (fun _ _ _ _ => rfl) ⟨(), none⟩ (by simp only [target]; fun_prop) _ Toy.normal_samplesFrom 7 (.root 3)
    start start_known start_law

end Ideal
end FlowMC
