import Verif.Lemmas.Ideal
import Verif.Spec.Converge
import Mathlib.MeasureTheory.Constructions.Pi
/-
A sweep that uses a whole vector of proposals and a whole vector of uniform numbers, entry by entry.
-/
open MeasureTheory ProbabilityTheory
open scoped ENNReal
set_option linter.unusedSectionVars false
namespace FlowMC
open Spec

variable {A B C : Type} [MeasurableSpace A] [MeasurableSpace B] [MeasurableSpace C]

/-- State after `j` of at most `n` steps. -/
def sweepAt (step : B × C → A → A) : ℕ → (n : ℕ) → A → (Fin n → B) → (Fin n → C) → A
  | 0, _, x, _, _ => x
  | _ + 1, 0, x, _, _ => x
  | j + 1, n + 1, x, v, u => sweepAt step j n (step (v 0, u 0) x) (fun i => v i.succ) (fun i => u i.succ)

theorem sweepAt_measurable (step : B × C → A → A) (hm : Measurable (fun p : A × (B × C) => step p.2 p.1)) (j n : ℕ) :
    Measurable (fun p : A × ((Fin n → B) × (Fin n → C)) => sweepAt step j n p.1 p.2.1 p.2.2) := by
  induction j generalizing n with
  | zero => exact measurable_fst
  | succ j ih =>
    cases n with
    | zero => exact measurable_fst
    | succ n =>
      have h1 : Measurable (fun p : A × ((Fin (n + 1) → B) × (Fin (n + 1) → C)) => step (p.2.1 0, p.2.2 0) p.1) :=
        hm.comp (by fun_prop : Measurable fun p : A × ((Fin (n + 1) → B) × (Fin (n + 1) → C)) => (p.1, (p.2.1 0, p.2.2 0)))
      exact (ih n).comp (h1.prodMk (by fun_prop : Measurable fun p : A × ((Fin (n + 1) → B) × (Fin (n + 1) → C)) =>
        ((fun i : Fin n => p.2.1 i.succ), (fun i : Fin n => p.2.2 i.succ))))

theorem lintegral_pi_succ (q : Measure B) [IsProbabilityMeasure q] (n : ℕ) (f : (Fin (n + 1) → B) → ℝ≥0∞) (hf : Measurable f) :
    ∫⁻ v, f v ∂(Measure.pi fun _ => q) = ∫⁻ v0, ∫⁻ v' : Fin n → B, f (Fin.cons v0 v') ∂(Measure.pi fun _ => q) ∂q := by
  have h := (measurePreserving_piFinSuccAbove (fun _ : Fin (n + 1) => q) 0).symm
  rw [← h.lintegral_comp hf, lintegral_prod _ (by fun_prop)]
  refine lintegral_congr fun v0 => lintegral_congr fun v' => ?_
  congr 1
  simp [MeasurableEquiv.piFinSuccAbove, Fin.insertNthEquiv, Fin.insertNth_zero']

theorem sweep_head (step : B × C → A → A) (hm : Measurable (fun p : A × (B × C) => step p.2 p.1)) (μ : Measure A) [SFinite μ] (q : Measure B) [IsProbabilityMeasure q]
    (ν : Measure C) [IsProbabilityMeasure ν] (n : ℕ) :
    (μ.prod ((Measure.pi fun _ : Fin (n + 1) => q).prod (Measure.pi fun _ : Fin (n + 1) => ν))).map
      (fun p => (step (p.2.1 0, p.2.2 0) p.1, ((fun i : Fin n => p.2.1 i.succ), (fun i : Fin n => p.2.2 i.succ)))) =
    (stepLaw (q.prod ν) step μ).prod ((Measure.pi fun _ : Fin n => q).prod (Measure.pi fun _ : Fin n => ν)) := by
  have h1 : Measurable (fun p : A × ((Fin (n + 1) → B) × (Fin (n + 1) → C)) => step (p.2.1 0, p.2.2 0) p.1) :=
    hm.comp (by fun_prop : Measurable fun p : A × ((Fin (n + 1) → B) × (Fin (n + 1) → C)) => (p.1, (p.2.1 0, p.2.2 0)))
  have h2 : Measurable (fun p : A × ((Fin (n + 1) → B) × (Fin (n + 1) → C)) => (step (p.2.1 0, p.2.2 0) p.1, ((fun i : Fin n => p.2.1 i.succ), (fun i : Fin n => p.2.2 i.succ)))) :=
    h1.prodMk (by fun_prop)
  refine Measure.ext_of_lintegral _ fun g hg => ?_
  have hc : Measurable (fun p : A × ((Fin (n + 1) → B) × (Fin (n + 1) → C)) => g (step (p.2.1 0, p.2.2 0) p.1, ((fun i : Fin n => p.2.1 i.succ), (fun i : Fin n => p.2.2 i.succ)))) := hg.comp h2
  rw [lintegral_map hg h2, lintegral_prod _ hc.aemeasurable]
  have e1 : ∀ x, ∫⁻ p, g (step (p.1 0, p.2 0) x, ((fun i : Fin n => p.1 i.succ), (fun i : Fin n => p.2 i.succ)))
        ∂((Measure.pi fun _ : Fin (n + 1) => q).prod (Measure.pi fun _ : Fin (n + 1) => ν)) =
      ∫⁻ w, ∫⁻ r, g (step w x, r) ∂((Measure.pi fun _ : Fin n => q).prod (Measure.pi fun _ : Fin n => ν)) ∂(q.prod ν) := by
    intro x
    have hx : Measurable (fun p : (Fin (n + 1) → B) × (Fin (n + 1) → C) => g (step (p.1 0, p.2 0) x, ((fun i : Fin n => p.1 i.succ), (fun i : Fin n => p.2 i.succ)))) :=
      (hg.comp h2).comp (measurable_const.prodMk measurable_id)
    have hs : Measurable (fun w : B × C => step w x) := hm.comp (measurable_const.prodMk measurable_id)
    rw [lintegral_prod _ hx.aemeasurable, lintegral_pi_succ q n _ hx.lintegral_prod_right', lintegral_prod _ (by fun_prop)]
    refine lintegral_congr fun v0 => ?_
    have hin : ∀ v' : Fin n → B, ∫⁻ u : Fin (n + 1) → C, g (step ((Fin.cons v0 v' : Fin (n + 1) → B) 0, u 0) x, ((fun i : Fin n => (Fin.cons v0 v' : Fin (n + 1) → B) i.succ), (fun i : Fin n => u i.succ))) ∂(Measure.pi fun _ => ν) =
        ∫⁻ u0, ∫⁻ u' : Fin n → C, g (step (v0, u0) x, (v', u')) ∂(Measure.pi fun _ => ν) ∂ν := by
      intro v'
      refine (lintegral_pi_succ ν n _ (hx.comp (measurable_const.prodMk measurable_id) : Measurable ((fun p : (Fin (n + 1) → B) × (Fin (n + 1) → C) =>
        g (step (p.1 0, p.2 0) x, ((fun i : Fin n => p.1 i.succ), (fun i : Fin n => p.2 i.succ)))) ∘ fun u => ((Fin.cons v0 v' : Fin (n + 1) → B), u)))).trans ?_
      simp
    simp only [hin]
    have hgm : Measurable (fun w : (Fin n → B) × C => ∫⁻ u' : Fin n → C, g (step (v0, w.2) x, (w.1, u')) ∂(Measure.pi fun _ => ν)) := by
      refine Measurable.lintegral_prod_right' (f := fun w : ((Fin n → B) × C) × (Fin n → C) => g (step (v0, w.1.2) x, (w.1.1, w.2))) ?_
      refine hg.comp ((hs.comp (by fun_prop : Measurable fun w : ((Fin n → B) × C) × (Fin n → C) => (v0, w.1.2))).prodMk (by fun_prop))
    rw [lintegral_lintegral_swap hgm.aemeasurable]
    refine lintegral_congr fun u0 => ?_
    rw [lintegral_prod _ (by fun_prop)]
  simp only [e1]
  have hG : Measurable (fun y => ∫⁻ r, g (y, r) ∂((Measure.pi fun _ : Fin n => q).prod (Measure.pi fun _ : Fin n => ν))) := hg.lintegral_prod_right'
  rw [lintegral_prod _ hg.aemeasurable]
  rw [stepLaw, lintegral_map hG hm]
  exact (lintegral_prod _ (hG.comp hm).aemeasurable).symm

/-- Distribution of the state of the sweep after `j` steps. -/
theorem sweepAt_iter (step : B × C → A → A) (hm : Measurable (fun p : A × (B × C) => step p.2 p.1)) (μ : Measure A) [SFinite μ] (q : Measure B) [IsProbabilityMeasure q]
    (ν : Measure C) [IsProbabilityMeasure ν] (j n : ℕ) (hj : j ≤ n) :
    (μ.prod ((Measure.pi fun _ : Fin n => q).prod (Measure.pi fun _ : Fin n => ν))).map (fun p => sweepAt step j n p.1 p.2.1 p.2.2) = (stepLaw (q.prod ν) step)^[j] μ := by
  induction j generalizing n μ with
  | zero =>
    show Measure.map Prod.fst _ = μ
    rw [Measure.map_fst_prod]; simp
  | succ j ih =>
    cases n with
    | zero => omega
    | succ n =>
      have h1 : Measurable (fun p : A × ((Fin (n + 1) → B) × (Fin (n + 1) → C)) => step (p.2.1 0, p.2.2 0) p.1) :=
        hm.comp (by fun_prop : Measurable fun p : A × ((Fin (n + 1) → B) × (Fin (n + 1) → C)) => (p.1, (p.2.1 0, p.2.2 0)))
      haveI : SFinite (stepLaw (q.prod ν) step μ) := by unfold stepLaw; infer_instance
      have := ih (stepLaw (q.prod ν) step μ) n (by omega)
      rw [← sweep_head step hm μ q ν n, Measure.map_map (sweepAt_measurable step hm j n) (h1.prodMk (by fun_prop))] at this
      exact this

/-- Every state of the sweep has the invariant distribution. -/
theorem sweepAt_law (step : B × C → A → A) (hm : Measurable (fun p : A × (B × C) => step p.2 p.1)) (μ : Measure A) [SFinite μ] (q : Measure B) [IsProbabilityMeasure q]
    (ν : Measure C) [IsProbabilityMeasure ν] (hinv : Invariant μ (q.prod ν) step) (j n : ℕ) :
    (μ.prod ((Measure.pi fun _ : Fin n => q).prod (Measure.pi fun _ : Fin n => ν))).map (fun p => sweepAt step j n p.1 p.2.1 p.2.2) = μ := by
  have hfst : ∀ n, (μ.prod ((Measure.pi fun _ : Fin n => q).prod (Measure.pi fun _ : Fin n => ν))).map Prod.fst = μ := by
    intro n; rw [Measure.map_fst_prod]; simp
  induction j generalizing n with
  | zero => exact hfst n
  | succ j ih =>
    cases n with
    | zero => exact hfst 0
    | succ n =>
      have h1 : Measurable (fun p : A × ((Fin (n + 1) → B) × (Fin (n + 1) → C)) => step (p.2.1 0, p.2.2 0) p.1) :=
        hm.comp (by fun_prop : Measurable fun p : A × ((Fin (n + 1) → B) × (Fin (n + 1) → C)) => (p.1, (p.2.1 0, p.2.2 0)))
      have := ih n
      have e := sweep_head step hm μ q ν n
      rw [show stepLaw (q.prod ν) step μ = μ from hinv] at e
      rw [← e, Measure.map_map (sweepAt_measurable step hm j n) (h1.prodMk (by fun_prop))] at this
      exact this

end FlowMC
