import Verif.Spec.AdamDraws
import Verif.Model.Adam
import Verif.Props.Keys
import Verif.Props.Optimization
/-
Vocabulary for what the optimisation strategy does when the learning rate is small.  Nothing here models code of /repo.
-/
namespace FlowMC.Spec
noncomputable section

/-- Average of the first `n` numbers `w 0, …, w (n-1)`, an older number counting `β` times as much as the next one. -/
def expAvg (β : ℝ) (w : ℕ → ℝ) (n : ℕ) : ℝ := (∑ s ∈ Finset.range n, β ^ (n - 1 - s) * w s) / ∑ s ∈ Finset.range n, β ^ (n - 1 - s)

/-- How far, in units of the learning rate, `n` Adam steps move a coordinate along which the derivative of the log-density is `g`, when the gradient of step `s` is multiplied by `w s`. -/
def pace (w : ℕ → ℝ) (n : ℕ) (g : ℝ) : ℝ :=
  ∑ s ∈ Finset.range n, expAvg (9 / 10) w (s + 1) * g / (Real.sqrt (expAvg (999 / 1000) (fun r => w r ^ 2) (s + 1)) * |g| + 1 / 10 ^ 8)

/-- The number by which the gradient of chain `j` is multiplied in step `s` of a call of the optimisation strategy with key `k`. -/
def noiseFactor (rng : Rng ℝ) (noise : ℝ) (k : Key) (j s : ℕ) : ℝ := 1 + rng.normal (stepKey (.child (.child k 1) j) s) 1 0 * noise

/-- The bounds leave some room around `x`. -/
def Room {d : ℕ} (bounds : List (ℝ × ℝ)) (x : Fin d → ℝ) : Prop := ∀ (i : Fin d) b, boundOf bounds i = some b → b.1 < x i ∧ x i < b.2

end
end FlowMC.Spec
