import Verif.Model.RQSpline
import Verif.Spec.Draws
/-
Specification vocabulary for the initial parameters of the networks inside the flows.
-/
namespace FlowMC.Spec
noncomputable section

/-- The network of shape `[n] ++ hid ++ [m]` whose `j`-th hidden layer has normal weights drawn with the key `wk j`, scaled to variance `scale / fan-in`, and the biases of the
standard linear layer drawn with the key `bk j`; the last layer is the standard linear layer drawn with its key `bk`. -/
def netFrom (dr : MLPDraws) (scale : ℝ) : (n : Nat) → (hid : List Nat) → (m : Nat) → (wk bk : Nat → Key) → MLP n m
  | n, [], m, _, bk => .last (dr.lin (bk 0) n m).1 (dr.lin (bk 0) n m).2
  | n, h :: hid, m, wk, bk =>
    .hidden (fun i j => dr.mat (wk 0) h n i j * Real.sqrt (scale / n)) (dr.lin (bk 0) n h).2
      (netFrom dr scale h hid m (fun j => wk (j + 1)) (fun j => bk (j + 1)))

/-- A family of keys, all derived from `k`, of which no key is derived from another one: the draws made with them are independent of each other, and of all draws made with keys that are not
derived from `k`. -/
def FreshFamily {ι : Type} (k : Key) (key : ι → Key) : Prop :=
  (∀ i, Desc k (key i)) ∧ ∀ i j, i ≠ j → ¬ Desc (key i) (key j)

end
end FlowMC.Spec
