import Verif.Lemmas.ChainAverages
import Verif.Lemmas.Fresh
/-
A Markov chain that also reports something at every step (an acceptance flag): the pair of the state and the last report is again a chain, and it converges when the chain does.
-/
open MeasureTheory ProbabilityTheory Filter
open scoped ENNReal Topology
set_option linter.unusedSectionVars false
namespace FlowMC
open Spec

section
variable {X N Y : Type} [MeasurableSpace X] [MeasurableSpace N] [MeasurableSpace Y] {ν : Measure N} [IsProbabilityMeasure ν] {step : N → X → X} {out : N → X → Y}

/-- The chain of pairs: the state and what the last step reported. -/
def withOut (step : N → X → X) (out : N → X → Y) (ξ : N) (s : X × Y) : X × Y := (step ξ s.1, out ξ s.1)

/-- Distribution of the new state and the report of one step from a state with distribution `μ`. -/
noncomputable def outLaw (ν : Measure N) (step : N → X → X) (out : N → X → Y) (μ : Measure X) : Measure (X × Y) := (μ.prod ν).map fun p => (step p.2 p.1, out p.2 p.1)

theorem withOut_measurable (hm : Measurable fun p : X × N => step p.2 p.1) (ho : Measurable fun p : X × N => out p.2 p.1) :
    Measurable fun p : (X × Y) × N => withOut step out p.2 p.1 := by
  have : Measurable fun p : (X × Y) × N => (p.1.1, p.2) := by fun_prop
  exact (hm.comp this).prodMk (ho.comp this)

theorem withOut_law (hm : Measurable fun p : X × N => step p.2 p.1) (ho : Measurable fun p : X × N => out p.2 p.1) (ρ : Measure (X × Y)) [SFinite ρ] :
    stepLaw ν (withOut step out) ρ = outLaw ν step out (ρ.map Prod.fst) := by
  have h := Measure.map_prod_map ρ ν (f := Prod.fst) (g := id) measurable_fst measurable_id
  rw [Measure.map_id] at h
  rw [stepLaw, outLaw, h, Measure.map_map (hm.prodMk ho) (measurable_fst.prodMap measurable_id)]
  rfl

theorem withOut_fst (hm : Measurable fun p : X × N => step p.2 p.1) (ho : Measurable fun p : X × N => out p.2 p.1) (ρ : Measure (X × Y)) [SFinite ρ] (n : ℕ) :
    ((stepLaw ν (withOut step out))^[n] ρ).map Prod.fst = (stepLaw ν step)^[n] (ρ.map Prod.fst) := by
  induction n generalizing ρ with
  | zero => rfl
  | succ n ih =>
    haveI : SFinite (stepLaw ν (withOut step out) ρ) := by unfold stepLaw; infer_instance
    rw [Function.iterate_succ_apply, Function.iterate_succ_apply, ih, withOut_law hm ho, outLaw, Measure.map_map measurable_fst (hm.prodMk ho)]
    rfl

theorem withOut_tv (hm : Measurable fun p : X × N => step p.2 p.1) (ho : Measurable fun p : X × N => out p.2 p.1) {π : Measure X} [IsProbabilityMeasure π] (ρ : Measure (X × Y)) [IsProbabilityMeasure ρ]
    (h : TVConverges (fun n => (stepLaw ν step)^[n] (ρ.map Prod.fst)) π) : TVConverges (fun n => (stepLaw ν (withOut step out))^[n] ρ) (outLaw ν step out π) := by
  intro ε hε
  obtain ⟨n0, hn0⟩ := h ε hε
  refine ⟨n0 + 1, fun n hn => ?_⟩
  obtain ⟨n, rfl⟩ : ∃ m, n = m + 1 := ⟨n - 1, by omega⟩
  haveI := iter_prob (ν := ν) (withOut_measurable hm ho) ρ n
  haveI : IsProbabilityMeasure (ρ.map Prod.fst) := Measure.isProbabilityMeasure_map measurable_fst.aemeasurable
  haveI := iter_prob (ν := ν) hm (ρ.map Prod.fst) n
  have h1 : Near ((stepLaw ν step)^[n] (ρ.map Prod.fst)) π ε := hn0 n (by omega)
  have h2 := near_map (near_prod h1 ν) (hm.prodMk ho)
  beta_reduce
  rw [Function.iterate_succ_apply', withOut_law hm ho, withOut_fst hm ho]
  exact h2

/-- The mean of a function of the report of one step. -/
theorem outLaw_integral (hm : Measurable fun p : X × N => step p.2 p.1) (ho : Measurable fun p : X × N => out p.2 p.1) (π : Measure X) [IsProbabilityMeasure π] {f : Y → ℝ} (hf : Measurable f) {B : ℝ}
    (hB : ∀ y, |f y| ≤ B) : ∫ s, f s.2 ∂(outLaw ν step out π) = ∫ x, ∫ ξ, f (out ξ x) ∂ν ∂π := by
  have hs : AEStronglyMeasurable (fun s : X × Y => f s.2) ((π.prod ν).map fun p => (step p.2 p.1, out p.2 p.1)) := (hf.comp measurable_snd).aestronglyMeasurable
  rw [outLaw, integral_map (hm.prodMk ho).aemeasurable hs, integral_prod]
  exact integrable_bdd (hf.comp ho) fun p => hB _
end
end FlowMC
