import Verif.Props.HMC
/-
The proposals of the local kernels: distribution of the random-walk and Langevin proposals (C22, C23), Hamilton's equations in HMC (C24).
-/
open MeasureTheory ProbabilityTheory
open scoped NNReal
set_option linter.unusedSectionVars false
namespace FlowMC
open Spec

variable {D : Type} {d : ℕ}

/-- `m + s ξ` with standard normal `ξ`. -/
theorem normal_shift (m : Fin d → ℝ) (s : ℝ) : (stdNormal d).map (fun ξ i => m i + s * ξ i) = Measure.pi (fun i => gaussianReal (m i) (s ^ 2).toNNReal) := by
  have h1 : ∀ i, MeasurePreserving (fun a : ℝ => m i + s * a) (gaussianReal 0 1) (gaussianReal (m i) (s ^ 2).toNNReal) := by
    intro i
    refine ⟨by fun_prop, ?_⟩
    have : (fun a : ℝ => m i + s * a) = (fun a => m i + a) ∘ (fun a => s * a) := rfl
    rw [this, ← Measure.map_map (by fun_prop) (by fun_prop), gaussianReal_map_const_mul, gaussianReal_map_const_add]
    congr 1
    · simp
    · ext; simp [Real.coe_toNNReal _ (sq_nonneg s)]
  exact (measurePreserving_pi _ _ h1).map_eq

/-- **C22.** The random-walk proposal from `x` is normal with mean `x` and standard deviation `|step_size|` in every coordinate, independently. -/
theorem C22_proposal_law (step : ℝ) (x : Pos ℝ d) : (stdNormal d).map (fun ξ => grwProposal step x ξ) = Measure.pi (fun i => gaussianReal (x i) (step ^ 2).toNNReal) := by
  rw [← normal_shift x step]
  congr 1
  funext ξ i
  simp only [grwProposal]
  ring

/-- **C22.** The step moves to that proposal or stays. -/
theorem C22_moves (step : ℝ) (t : Target ℝ D d) (data : Data D) (ξ x : Pos ℝ d) (u lp : ℝ) :
    (grwStep step t data ξ u x lp).pos = grwProposal step x ξ ∨ (grwStep step t data ξ u x lp).pos = x := by
  simp only [grwStep]; split <;> simp

/-- **C23.** The MALA proposal from `x` is the Euler–Maruyama step of the Langevin diffusion: normal with mean `x + step_size²/2 ∇logpdf(x)` and standard deviation
`|step_size|` in every coordinate, independently. -/
theorem C23_proposal_law (dt : ℝ) (x g : Pos ℝ d) :
    (stdNormal d).map (fun ξ => malaProposal dt x g ξ) = Measure.pi (fun i => gaussianReal (x i + dt ^ 2 / 2 * g i) (dt ^ 2).toNNReal) := by
  rw [← normal_shift (fun i => x i + dt ^ 2 / 2 * g i) dt]
  congr 1
  funext ξ i
  simp only [malaProposal, malaMean, two]
  norm_num
  ring

/-- **C23.** The step moves to the proposal built from the gradient at the current position, or stays. -/
theorem C23_moves (dt : ℝ) (t : Target ℝ D d) (data : Data D) (ξ x : Pos ℝ d) (u lp : ℝ) :
    (malaStep dt t data ξ u x lp).pos = malaProposal dt x (t.grad x data) ξ ∨ (malaStep dt t data ξ u x lp).pos = x := by
  simp only [malaStep]; split <;> simp

/-- **C24.** An HMC step moves to the end point of `n_leapfrog + 1` Verlet steps of Hamilton's equations for the potential energy `-logpdf`, started at the current
position with momentum `L z` (`z` the normal draw), or stays. -/
theorem C24_trajectory (ε : ℝ) (n : ℕ) (metric L : Mat ℝ d) (t : Target ℝ D d) (data : Data D) (z x : Pos ℝ d) (u lp : ℝ) :
    (hmcStep ε n metric L t data z u x lp).pos =
      ((verlet ε (fun p j => p j * ∑ i, metric i j) (fun y i => -t.grad y data i))^[n + 1] (x, fun i => ∑ j, L i j * z j)).1 ∨
    (hmcStep ε n metric L t data z u x lp).pos = x := by
  rw [← C24_verlet]
  have hp : (fun i => ∑ j, L i j * z j) = hmcMomentum L z := by
    funext i; simp only [hmcMomentum, sumFin_eq]; exact Finset.sum_congr rfl fun j _ => by ring
  rw [hp]
  simp only [hmcStep]
  split <;> simp

/-- **C24.** The velocity of that trajectory is the derivative of the kinetic energy used in the acceptance test. -/
theorem C24_velocity (metric : Mat ℝ d) (p : Pos ℝ d) (j : Fin d) :
    HasDerivAt (fun s : ℝ => hmcKinetic metric (Function.update p j s)) (p j * ∑ i, metric i j) (p j) := by
  have e : (fun s : ℝ => hmcKinetic metric (Function.update p j s)) =
      fun s => (1 / 2 * ∑ i, metric i j) * s ^ 2 + 1 / 2 * ∑ i, ∑ l ∈ Finset.univ.erase j, p l ^ 2 * metric i l := by
    funext s
    simp only [hmcKinetic, sumFin_eq, two]
    have : ∀ i, ∑ l, Function.update p j s l * Function.update p j s l * metric i l = s ^ 2 * metric i j + ∑ l ∈ Finset.univ.erase j, p l ^ 2 * metric i l := by
      intro i
      rw [← Finset.add_sum_erase _ _ (Finset.mem_univ j)]
      congr 1
      · simp only [Function.update_self]; ring
      · refine Finset.sum_congr rfl fun l hl => ?_
        rw [Function.update_of_ne (Finset.ne_of_mem_erase hl)]; ring
    simp only [this, Finset.sum_add_distrib, ← Finset.mul_sum]
    norm_num
    ring
  rw [e]
  have := (((hasDerivAt_id (p j)).pow 2).const_mul (1 / 2 * ∑ i, metric i j)).add_const (1 / 2 * ∑ i, ∑ l ∈ Finset.univ.erase j, p l ^ 2 * metric i l)
  refine this.congr_deriv ?_
  norm_num
  ring

end FlowMC
