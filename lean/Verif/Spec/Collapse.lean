import Verif.Model.GenFlow
/-
Vocabulary for statements about flows whose data statistics are degenerate.  Nothing here models code of /repo.
-/
namespace FlowMC.Spec

variable {d : ℕ} {κ : Type}

/-- A number that is not finite. -/
def NotFinite (x : XR) : Prop := x = .nan ∨ x = .pinf ∨ x = .ninf

/-- Some coordinate has the same (finite) value in all rows.  This includes data with fewer than two rows. -/
def ConstantCoordinate (data : List (Pos XR d)) : Prop := ∃ i, ∃ a : ℝ, ∀ r ∈ data, r i = .fin a

/-- The standard deviation that the flow divides by is zero or NaN in some coordinate. -/
def Collapsed (m : Gen.Flow XR d) : Prop := ∃ i, m.dataVar i = .fin 0 ∨ m.dataVar i = .nan

/-- The log-density of the base distribution is NaN or `-inf` at a vector with a coordinate that is not finite, and NaN if a coordinate is NaN. -/
structure PropagatesNonFinite (b : Pos XR d → XR) : Prop where
  notFinite : ∀ x i, NotFinite (x i) → b x = .nan ∨ b x = .ninf
  nan : ∀ x i, x i = .nan → b x = .nan

/-- `grad` is zero at the data statistics: they are read through `jax.lax.stop_gradient`. -/
def StopsAtStats (grad : (Gen.Params d κ → XR) → List (Pos XR d) → Gen.Params d κ → XR) : Prop := ∀ p b i, grad p b (.inr (.inl i)) = 0

/-- An optimizer state that has only seen gradients which are zero at the data statistics: its first moment there is zero, or NaN if the norm of some gradient was NaN. -/
def OptimizerState (o : Gen.AdamState XR (Gen.Params d κ)) : Prop := ∀ i, o.mu (.inr (.inl i)) = .fin 0 ∨ o.mu (.inr (.inl i)) = .nan

end FlowMC.Spec
