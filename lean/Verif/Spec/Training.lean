import Verif.Model.Strategies
import Mathlib.Order.Defs.LinearOrder
/-
Specification vocabulary for training: the trajectory of models, comparison of losses, the loss log, recent rows of a chain.
-/
namespace FlowMC.Spec

variable {F D : Type} {d : Nat} {M O : Type}

/-- The comparison `<` of the number type is a strict linear order on the numbers that have a value (`ord a = some x`); the others (NaN)
compare false with everything. -/
def LossOrder (F : Type) [FCmp F] {L : Type} [LinearOrder L] (ord : F → Option L) : Prop :=
  ∀ a b, FCmp.blt a b = true ↔ ∃ x y, ord a = some x ∧ ord b = some y ∧ x < y

/-- Loss, model and optimiser state at the end of each of `n` successive epochs: every epoch continues from the previous one, with its own fresh
key. -/
def trajectory (rng : Rng F) (ops : FlowOps F d M O) (init : F) (data : List (Pos F d)) (batch : Nat) :
    Nat → Key → M → O → List (F × M × O)
  | 0, _, _, _ => []
  | n + 1, k, m, o =>
    let r := trainEpoch rng ops init (.child k 1) m o data batch
    r :: trajectory rng ops init data batch n (.child k 0) r.2.1 r.2.2

/-- `(m', o')` is the first best snapshot of a trajectory, or the fallback `(m, o)` if no epoch is better than `bound`. -/
def FirstBest {L : Type} [LinearOrder L] (ord : F → Option L) (bound : L) (traj : List (F × M × O)) (m : M) (o : O) (m' : M) (o' : O) : Prop :=
  ((∀ t ∈ traj, ∀ x, ord t.1 = some x → bound ≤ x) ∧ m' = m ∧ o' = o) ∨
  ∃ (e : Nat) (loss : F) (x : L), traj[e]? = some (loss, m', o') ∧ ord loss = some x ∧ x < bound ∧
    ∀ (e' : Nat) (t : F × M × O) (x' : L), traj[e']? = some t → ord t.1 = some x' → x ≤ x' ∧ (e' < e → x < x')

/-- The one-dimensional buffer `name` has capacity `T`, cursor at the end of `log`, and holds `log` in its first cells. -/
def LossLog (h : Heap F D d M O) (name : String) (T : Nat) (log : List F) : Prop :=
  ∃ b, h.res name = some (.buffer b) ∧ b.data.shape = [T] ∧ b.cursorDim = 0 ∧ b.cursor = log.length ∧
    ∀ i v, log[i]? = some v → b.data.get [i] = v

/-- The finite rows of chain `i` of a `(n_chains, n_steps, d)` array, in recording order. -/
def finiteRowsOf [BufNum F] (a : NDArr F) (nSteps i : Nat) : List (Pos F d) :=
  ((List.range nSteps).map (fun j => (fun k : Fin d => a.get [i, j, k]))).filter
    (fun v => (List.finRange d).all (fun k => BufNum.isFinite (v k)))

/-- The last `w` entries of a list. -/
def lastN {α : Type} (w : Nat) (xs : List α) : List α := xs.drop (xs.length - w)

end FlowMC.Spec
