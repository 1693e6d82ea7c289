import Verif.Jax.Ieee
import Verif.Spec.BundleRun
/-
Specification vocabulary for C111: points a chain cannot leave, and the history of one chain of a bundle run as read from the buffers.
-/
namespace FlowMC

/-- Two more IEEE-754 rules: NaN propagates through `*` and `/`. -/
class IeeeMul (F : Type) [Add F] [Sub F] [Neg F] [Mul F] [Div F] [FCmp F] [Ieee F] : Prop where
  nan_mul (a b : F) : Ieee.isNaN a ∨ Ieee.isNaN b → Ieee.isNaN (a * b)
  nan_div (a b : F) : Ieee.isNaN a ∨ Ieee.isNaN b → Ieee.isNaN (a / b)

/-- IEEE-754 rules for finite numbers against infinities. -/
class IeeeFin (F : Type) [Add F] [Sub F] [Neg F] [FCmp F] [Ieee F] where
  isFin : F → Prop
  fin_sub_negInf (a : F) : isFin a → a - Ieee.negInf = Ieee.posInf
  posInf_sub_fin (a : F) : isFin a → Ieee.posInf - a = Ieee.posInf
  posInf_add_fin (a : F) : isFin a → Ieee.posInf + a = Ieee.posInf
  /-- Everything finite, and `-inf`, is below `+inf`. -/
  fin_lt (a : F) : isFin a ∨ a = Ieee.negInf → FCmp.blt a Ieee.posInf = true

namespace Spec
variable {F D : Type} {d : Nat} {M O : Type}
variable [Add F] [Sub F] [Neg F] [FCmp F] [Ieee F]

/-- A log-density no chain ever leaves: NaN or `+inf`. -/
def Frozen (v : F) : Prop := Ieee.isNaN v ∨ v = Ieee.posInf

/-- `o'`, recorded later in the same chain as `o`, repeats it whenever `o` has log-density NaN or `+inf`. -/
def Repeats (o o' : StepOut F d) : Prop := Frozen o.logp → o'.pos = o.pos ∧ o'.logp = o.logp ∧ o'.acc = false

/-- What the two position buffers say about step `j` of chain `i`, training first, then production. -/
def historyPos (nTrain : Nat) (train prod : NDArr F) (i j : Nat) : Pos F d :=
  fun c => if j < nTrain then train.get [i, j, c] else prod.get [i, j - nTrain, c]

/-- The same for the log-probability buffers. -/
def historyLogp (nTrain : Nat) (train prod : NDArr F) (i j : Nat) : F :=
  if j < nTrain then train.get [i, j] else prod.get [i, j - nTrain]

end Spec
noncomputable section
namespace XR
/-- The extended reals satisfy these rules. -/
instance : IeeeMul XR where
  nan_mul a b h := by
    change a = nan ∨ b = nan at h; change mul a b = nan
    rcases h with rfl | rfl
    · cases b <;> rfl
    · cases a <;> rfl
  nan_div a b h := by
    change a = nan ∨ b = nan at h; change mul a (inv b) = nan
    rcases h with rfl | rfl
    · cases inv b <;> rfl
    · cases a <;> rfl

instance : IeeeFin XR where
  isFin a := ∃ x, a = fin x
  fin_sub_negInf a h := by obtain ⟨x, rfl⟩ := h; rfl
  posInf_sub_fin a h := by obtain ⟨x, rfl⟩ := h; rfl
  posInf_add_fin a h := by obtain ⟨x, rfl⟩ := h; rfl
  fin_lt a h := by rcases h with ⟨x, rfl⟩ | rfl <;> rfl
end XR
end
end FlowMC
