import Verif.Model.Bundle
import Verif.Spec.Run
/-
Specification vocabulary for whole runs of the bundles: blocks of recorded rows, what a recording is, how blocks are produced.
-/
namespace FlowMC.Spec

variable {F D : Type} {d : Nat} {M O : Type}

/-- The rows recorded by one call of a stepper: one list of rows per chain; `isLocal` tells the local from the global stepper. -/
structure Block (F : Type) (d : Nat) where
  isLocal : Bool
  rows : List (List (StepOut F d))

/-- All rows of chain `i` in a sequence of blocks, in order, each tagged with the stepper it comes from. -/
def tagged (log : List (Block F d)) (i : Nat) : List (Bool × StepOut F d) :=
  log.flatMap (fun b => ((b.rows[i]?).getD []).map (fun o => (b.isLocal, o)))

/-- The four buffers `P` (positions), `L` (log-probabilities), `acc true` (local acceptances), `acc false` (global acceptances) for `n` chains and
`T` steps hold exactly the rows of `log`: row `j` of chain `i` is the `j`-th row of that chain in the log, the acceptance flag is in the
buffer of the stepper that made the row, and every other cell is still `-inf`. -/
structure Recording [BufNum F] (h : Heap F D d M O) (n T : Nat) (P L : String) (acc : Bool → String) (log : List (Block F d)) : Prop where
  pos : ∃ b, h.res P = some (.buffer b) ∧ b.data.shape = [n, T, d] ∧ b.cursorDim = 1 ∧
    ∀ i j (c : Fin d), i < n → j < T → b.data.get [i, j, c] = match (tagged log i)[j]? with
      | some o => o.2.pos c
      | none => BufNum.negInf
  logp : ∃ b, h.res L = some (.buffer b) ∧ b.data.shape = [n, T] ∧ b.cursorDim = 1 ∧
    ∀ i j, i < n → j < T → b.data.get [i, j] = match (tagged log i)[j]? with
      | some o => o.2.logp
      | none => BufNum.negInf
  acc : ∀ tag, ∃ b, h.res (acc tag) = some (.buffer b) ∧ b.data.shape = [n, T] ∧ b.cursorDim = 1 ∧
    ∀ i j, i < n → j < T → b.data.get [i, j] = match (tagged log i)[j]? with
      | some o => if o.1 = tag then BufNum.ofBool o.2.acc else BufNum.negInf
      | none => BufNum.negInf

/-- `n` chains, and `len tag` rows in every chain of a block of the given stepper. -/
def WellSized (n : Nat) (len : Bool → Nat) (log : List (Block F d)) : Prop :=
  ∀ b ∈ log, b.rows.length = n ∧ ∀ r ∈ b.rows, r.length = len b.isLocal

/-- Number of rows per chain in a log. -/
def blocksLen (len : Bool → Nat) (log : List (Block F d)) : Nat := (log.map (fun b => len b.isLocal)).sum

/-- The last recorded position of every chain of a block. -/
def LastRows (b : Block F d) (ys : List (Pos F d)) : Prop :=
  ys.length = b.rows.length ∧ ∀ i : Nat, ys[i]? = ((b.rows[i]?).bind List.getLast?).map (·.pos)

section
variable [Zero F] [One F] [Add F] [Mul F] [Div F] [Sub F] [Neg F] [NatCast F] [Transc F] [FCmp F]

/-- `b` is what the local stepper of the bundle records when started at `xs` with key `k`: for every chain, every `localThin`-th state of a MALA
chain of `nLocal` steps on the bundle's log-density, with that chain's own key; `ys` are the last recorded positions. -/
def LocalBlock (env : Env F D d M O) (c : BundleCfg F D d M O) (data : Data D) (k : Key) (xs : List (Pos F d)) (b : Block F d) (ys : List (Pos F d)) : Prop :=
  b.isLocal = true ∧ LastRows b ys ∧ b.rows.length = xs.length ∧ ∀ i x, xs[i]? = some x →
    b.rows[i]? = some (everyNth c.localThin (serialSample (fun k x lp t data => malaKernel env.rng c.stepSize k x lp t data)
      c.logpdf data c.nLocal (.child (.child k 1) i) x))

/-- `b` is what the global stepper records when started at `xs` with key `k` while the flow is `m`. -/
def GlobalBlock (env : Env F D d M O) (c : BundleCfg F D d M O) (data : Data D) (k : Key) (m : M) (xs : List (Pos F d)) (b : Block F d)
    (ys : List (Pos F d)) : Prop :=
  b.isLocal = false ∧ LastRows b ys ∧ b.rows.length = xs.length ∧ ∀ i x, xs[i]? = some x → ∃ r,
    groupSample env m c.nfBatch c.logpdf data c.nGlobal (.child (.child k 1) i) x = .ok r ∧ b.rows[i]? = some (everyNth c.globalThin r)

/-- `Loops gap xs log ys`: `log` consists of (local block, global block) pairs; the first local block of a pair starts where `gap` leads from the end
of the previous pair, the global block starts where the local one ended. -/
inductive Loops (env : Env F D d M O) (c : BundleCfg F D d M O) (data : Data D) (gap : List (Pos F d) → List (Pos F d) → Prop) :
    List (Pos F d) → List (Block F d) → List (Pos F d) → Prop
  | nil (xs) : Loops env c data gap xs [] xs
  | snoc {xs log ys ys' b1 zs b2 ws m k k'} (rest : Loops env c data gap xs log ys) (hgap : gap ys ys') (h1 : LocalBlock env c data k ys' b1 zs)
      (h2 : GlobalBlock env c data k' m zs b2 ws) : Loops env c data gap xs (log ++ [b1, b2]) ws
end

end FlowMC.Spec
