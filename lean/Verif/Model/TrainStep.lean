import Verif.Model.Optimizer
import Verif.Model.Train
/-
Model of one gradient step of a flow: /repo/src/flowMC/resource/model/nf_model/base.py:98-125 `train_step` with the optimizer of
/repo/src/flowMC/resource/optimizer.py.  Exact real arithmetic.
-/
namespace FlowMC
noncomputable section
open Classical

variable {ι : Type} [Fintype ι] {d : ℕ} {M : Type}

/-- base.py:120-125: `loss, grads = model.loss_fn(x); updates, state = optim.update(grads, state, model); model = eqx.apply_updates(model, updates)`.
The floating-point parameters of the model are read and written by `get` and `set`; loss and gradient are arbitrary functions of model and batch. -/
def gradStep (get : M → ι → ℝ) (set : M → (ι → ℝ) → M) (loss : M → List (Pos ℝ d) → ℝ) (grad : M → List (Pos ℝ d) → ι → ℝ) (lr b1 : ℝ)
    (m : M) (o : AdamState ι) (x : List (Pos ℝ d)) : ℝ × M × AdamState ι :=
  let r := adamwStep lr b1 (grad m x) (o, get m)
  (loss m x, set m r.2, r.1)

end
end FlowMC
