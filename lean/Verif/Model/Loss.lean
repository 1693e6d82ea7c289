import Verif.Model.Kernels
import Verif.Jax.Ieee
/-
Model of the loss of /repo/src/flowMC/resource/model/nf_model/base.py:94-96.
-/
namespace FlowMC
noncomputable section

/-- base.py:94-96 `loss_fn` (its value; the gradient is not modelled): `-jnp.mean(jax.vmap(self.log_prob)(x))`.  An empty batch gives 0 here, NaN in the code. -/
def nfLoss {d : Nat} (logProb : Pos ℝ d → ℝ) (batch : List (Pos ℝ d)) : ℝ := -((batch.map logProb).sum / batch.length)

end
end FlowMC
