import Verif.Model.RQSpline
import Mathlib.Analysis.Real.Sqrt
import Mathlib.Algebra.BigOperators.Group.Finset.Basic
/-
Model of /repo/src/flowMC/resource/optimizer.py: `optax.chain(clip_by_global_norm(1.0), adamw(learning_rate, b1=momentum))`, and of one gradient step
(`NFModel.train_step`, nf_model/base.py:104-128).  Exact real arithmetic.  The parameters are the floating-point array entries of the model (`eqx.filter_value_and_grad`
differentiates exactly these), indexed by an arbitrary finite type.
-/
open scoped BigOperators
namespace FlowMC
noncomputable section
open Classical

variable {ι : Type} [Fintype ι]

/-- State of `optax.scale_by_adam` (optimizer.py:25 `self.optim.init`): both moments start at zero. -/
structure AdamState (ι : Type) where
  mu : ι → ℝ
  nu : ι → ℝ
  count : ℕ

/-- optimizer.py:25. -/
def AdamState.init : AdamState ι := ⟨fun _ => 0, fun _ => 0, 0⟩

/-- optimizer.py:22 `optax.clip_by_global_norm(1.0)`: unchanged if the global norm is below 1, else `g / norm * 1.0`. -/
def clipByGlobalNorm (g : ι → ℝ) : ι → ℝ :=
  let norm := Real.sqrt (∑ i, g i ^ 2)
  fun i => if norm < 1 then g i else g i / norm * 1

/-- optimizer.py:23 `optax.adamw(lr, b1)` with its defaults `b2 = 0.999, eps = 1e-8, eps_root = 0, weight_decay = 1e-4`, followed by `eqx.apply_updates`
(base.py:127): the bias-corrected Adam direction plus `1e-4 * parameter`, times `-lr`, added to the parameter. -/
def adamwStep (lr b1 : ℝ) (g : ι → ℝ) (sp : AdamState ι × (ι → ℝ)) : AdamState ι × (ι → ℝ) :=
  let g' := clipByGlobalNorm g
  let mu : ι → ℝ := fun i => b1 * sp.1.mu i + (1 - b1) * g' i
  let nu : ι → ℝ := fun i => (999 / 1000) * sp.1.nu i + (1 - 999 / 1000) * g' i ^ 2
  let t := sp.1.count + 1
  let dir : ι → ℝ := fun i => (mu i / (1 - b1 ^ t)) / (Real.sqrt (nu i / (1 - (999 / 1000) ^ t)) + 1 / 10 ^ 8)
  (⟨mu, nu, t⟩, fun i => sp.2 i + -lr * (dir i + 1 / 10000 * sp.2 i))

/-- Consecutive `train_step`s: the gradient of each step may depend on the current parameters (and on the batch, through the step's function). -/
def adamwRun (lr b1 : ℝ) : List ((ι → ℝ) → ι → ℝ) → AdamState ι × (ι → ℝ) → AdamState ι × (ι → ℝ)
  | [], sp => sp
  | grad :: gs, sp => adamwRun lr b1 gs (adamwStep lr b1 (grad sp.2) sp)

end
end FlowMC
