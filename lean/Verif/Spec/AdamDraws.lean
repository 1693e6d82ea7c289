import Verif.Spec.FlowInit
/-
Specification vocabulary for the noise of the optimisation strategy.
-/
namespace FlowMC.Spec
noncomputable section
variable {F D : Type} {d : Nat} [Zero F] [One F] [Add F] [Mul F] [Div F] [Sub F] [Neg F] [NatCast F] [Transc F] [FCmp F]

/-- A chain of the optimisation strategy when the scalar noise of step `t` is `z t`: position and solver state after `n` steps from `x`. Every step multiplies the gradient of minus the
log-density by `1 + z t * noise_level`, applies the solver's update and projects on the bounds. -/
def noisyDescent (a : AdamOptimization F D d) (data : Data D) (z : ℕ → F) (x : Pos F d) : ℕ → Pos F d × a.solver.S
  | 0 => (x, a.solver.init x)
  | n + 1 =>
    let p := noisyDescent a data z x n
    let u := a.solver.update (fun i => -(a.logpdf.grad p.1 data i) * (1 + z n * a.noiseLevel)) p.2 p.1
    (projectionBox a.bounds (fun i => p.1 i + u.1 i), u.2)

end
end FlowMC.Spec
