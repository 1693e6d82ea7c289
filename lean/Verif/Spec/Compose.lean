import Verif.Model.Strategies
/-
Vocabulary for samplers the user composes: which strategies may stand between exact steppers.  Nothing here models code of /repo.
-/
namespace FlowMC.Spec

variable {F D : Type} {d : Nat} {M O : Type}

/-- The resources a stepper samples with: proposal kernels and log-densities. -/
def IsSamplerResource : Resource F D d M O → Prop
  | .kernel _ => True
  | .logpdf _ => True
  | .tempered _ => True
  | _ => False

/-- Every kernel and log-density of the dictionary `r0` is still there, unchanged. -/
def KeepsSamplers (r0 : String → Option (Resource F D d M O)) (h : Heap F D d M O) : Prop :=
  ∀ name r, r0 name = some r → IsSamplerResource r → h.res name = some r

/-- Strategies that move no chain: `UpdateState`, `TrainModel`, and any user callable (`Lambda`, or a strategy of the user's own) that hands on key and positions
and replaces no kernel and no log-density. -/
def MovesNothing (r0 : String → Option (Resource F D d M O)) (data : Data D) : Strategy F D d M O → Prop
  | .updateState _ => True
  | .trainModel _ => True
  | .lambda f => ∀ k xs h, KeepsSamplers r0 h → KeepsSamplers r0 (f k xs data h).2
  | .custom f => ∀ k xs h k' xs' h', KeepsSamplers r0 h → f k xs data h = (.ok (k', xs'), h') → k' = k ∧ xs' = xs ∧ KeepsSamplers r0 h'
  | _ => False

end FlowMC.Spec
