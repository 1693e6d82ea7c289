import Verif.Model.Strategies
import Verif.Model.Optimizer
import Verif.Jax.Ieee
/-
Model of the solver the optimisation strategy builds (/repo/src/flowMC/strategy/optimization.py:61-63).  Exact real arithmetic.
-/
namespace FlowMC
noncomputable section

variable {D : Type} {d : ℕ}

/-- optimization.py:61-63: `optax.chain(optax.adam(learning_rate))` with the defaults of optax (`b1 = 0.9, b2 = 0.999, eps = 1e-8, eps_root = 0`): the moments are
updated with the gradient, corrected for their bias, and the update is `-learning_rate * m / (sqrt v + eps)`.  No clipping and no weight decay. -/
def adamSolver (lr : ℝ) : Solver ℝ d where
  S := AdamState (Fin d)
  init _ := AdamState.init
  update g s _ :=
    let mu : Fin d → ℝ := fun i => 9 / 10 * s.mu i + (1 - 9 / 10) * g i
    let nu : Fin d → ℝ := fun i => 999 / 1000 * s.nu i + (1 - 999 / 1000) * g i ^ 2
    let t := s.count + 1
    (fun i => -lr * ((mu i / (1 - (9 / 10) ^ t)) / (Real.sqrt (nu i / (1 - (999 / 1000) ^ t)) + 1 / 10 ^ 8)), ⟨mu, nu, t⟩)

/-- optimization.py:39-63, the strategy after its constructor accepted the bounds. -/
def adamOptimization (logpdf : Target ℝ D d) (nSteps : ℕ) (lr noise : ℝ) (bounds : List (ℝ × ℝ)) : AdamOptimization ℝ D d :=
  { logpdf, nSteps, noiseLevel := noise, bounds, solver := adamSolver lr }

end
end FlowMC
