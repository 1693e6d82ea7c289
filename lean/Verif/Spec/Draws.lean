import Verif.Spec.Keys
/-
Specification vocabulary for C29 inside a call: the same computations with the random numbers given explicitly as arguments, one argument per use.  A call "uses no
random number twice" if it equals the explicit version with draws made at pairwise unrelated keys.
-/
namespace FlowMC.Spec

variable {F D : Type} {d : Nat} {M O : Type}

/-- No key of the list is derived from (or equal to) another one. -/
def Unrelated (ks : List Key) : Prop := ks.Pairwise (fun a b => ¬ Desc a b ∧ ¬ Desc b a)

variable [Zero F] [One F] [Add F] [Mul F] [Div F] [Sub F] [Neg F] [NatCast F] [Transc F] [FCmp F]

/-- One step of a local kernel when `jax.random.normal` returns `ξ` and `jax.random.uniform` returns `u`. -/
def stepWith (kr : KernelRes F d M) (t : Target F D d) (data : Data D) (ξ : Pos F d) (u : F) (x : Pos F d) (lp : F) : Option (StepOut F d) :=
  match kr with
  | .grw s => some (grwStep s t data ξ u x lp)
  | .mala s => some (malaStep s t data ξ u x lp)
  | .hmc s n metric L => some (hmcStep s n metric L t data ξ u x lp)
  | .nf _ _ => none

/-- The accept/reject sweep over given proposals with the given uniform numbers, one per proposal. -/
def sweepWith : List F → NFCarry F d → List (Pos F d × F × F) → List (StepOut F d)
  | u :: us, c, p :: ps => (nfBody u c p).2 :: sweepWith us (nfBody u c p).1 ps
  | _, _, _ => []

/-- The replica exchange sweep with the given uniform numbers, one per neighbouring pair, starting with the pair `(i, i+1)`. -/
def exchangeWith (Ts : List F) : List F → Nat → ExchCarry F d → ExchCarry F d × List Bool
  | [], _, c => (c, [])
  | u :: us, i, c => ((exchangeWith Ts us (i + 1) (exchBody Ts u i c).1).1, (exchBody Ts u i c).2 :: (exchangeWith Ts us (i + 1) (exchBody Ts u i c).1).2)

/-- An epoch of training when `jax.random.permutation` returns `perm`. -/
def epochWith (ops : FlowOps F d M O) (init : F) (data : List (Pos F d)) (batch : Nat) (perm : List Nat) (m : M) (o : O) : F × M × O :=
  if 0 < data.length / batch then
    trainBatches ops data (chunks batch (data.length / batch) (perm.take (data.length / batch * batch))) (init, m, o)
  else ops.trainStep m o data

/-- Model, optimiser state and losses (oldest first) after the epochs with the given permutations. -/
def epochsWith (ops : FlowOps F d M O) (init : F) (data : List (Pos F d)) (batch : Nat) : List (List Nat) → M → O → M × O × List F
  | [], m, o => (m, o, [])
  | p :: ps, m, o =>
    let r := epochWith ops init data batch p m o
    let rest := epochsWith ops init data batch ps r.2.1 r.2.2
    (rest.1, rest.2.1, r.1 :: rest.2.2)

end FlowMC.Spec
