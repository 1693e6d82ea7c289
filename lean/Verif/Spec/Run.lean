import Verif.Model.Sampler
/-
Specification of running strategies one after the other, as an inductive relation.
-/
namespace FlowMC.Spec

variable {F D : Type} {d : Nat} {M O : Type}
variable [Zero F] [One F] [Add F] [Mul F] [Div F] [Sub F] [Neg F] [NatCast F] [Transc F] [FCmp F] [BufNum F]

/-- What one strategy hands to the next: key, positions, resources. -/
structure World (F D : Type) (d : Nat) (M O : Type) where
  key : Key
  xs : List (Pos F d)
  heap : Heap F D d M O

/-- `Completes env strats data names w w'`: calling the strategies named `names`, each exactly once and in this order,
each on what the previous one returned, succeeds and leads from `w` to `w'`. -/
inductive Completes (env : Env F D d M O) (strats : String → Option (Strategy F D d M O)) (data : Data D) :
    List String → World F D d M O → World F D d M O → Prop
  | done (w) : Completes env strats data [] w w
  | next {name names s w w'' k' xs' h'} (hs : strats name = some s)
      (hr : s.run env w.key w.xs data w.heap = (.ok (k', xs'), h'))
      (rest : Completes env strats data names ⟨k', xs', h'⟩ w'') :
      Completes env strats data (name :: names) w w''

end FlowMC.Spec
