import Verif.Model.Strategies
/-
Specification vocabulary for one call of a step strategy: which buffers it is pointed at, and what "recording
a block of rows" means.
-/
namespace FlowMC.Spec

variable {F D : Type} {d : Nat} {M O : Type}

/-- The `State` resource of the call site points the stepper at the buffers named `P` (positions), `L`
(log-probabilities) and `A` (acceptance flags). -/
def PointsAt (h : Heap F D d M O) (s : TakeSteps) (P L A : String) : Prop :=
  ∃ st p l a rest, h.res s.stateName = some (.state st) ∧ s.bufferNames = p :: l :: a :: rest ∧
    st.data p = some (.str P) ∧ st.data l = some (.str L) ∧ st.data a = some (.str A)

/-- Three different buffers for `n` chains with time axis 1 of length `T`. -/
structure Recorders (h : Heap F D d M O) (n T : Nat) (P L A : String) (bP bL bA : Buffer F) : Prop where
  resP : h.res P = some (.buffer bP)
  resL : h.res L = some (.buffer bL)
  resA : h.res A = some (.buffer bA)
  shapeP : bP.data.shape = [n, T, d]
  shapeL : bL.data.shape = [n, T]
  shapeA : bA.data.shape = [n, T]
  dimP : bP.cursorDim = 1
  dimL : bL.cursorDim = 1
  dimA : bA.cursorDim = 1
  ne : P ≠ L ∧ P ≠ A ∧ L ≠ A

/-- `b'` is `b` with the time window `[c, c+m)` replaced: row `j` of chain `i` inside the window is the vector
`cell i (j-c)`, everything else is as in `b`. -/
structure Recorded3 (b b' : Buffer F) (n T c m : Nat) (cell : Nat → Nat → Option (Fin d → F)) : Prop where
  same : b'.name = b.name ∧ b'.cursor = b.cursor ∧ b'.cursorDim = b.cursorDim ∧ b'.data.shape = b.data.shape
  inside : ∀ i j v, i < n → j < m → cell i j = some v → ∀ k : Fin d, b'.data.get [i, c + j, k] = v k
  outside : ∀ i j (k : Fin d), i < n → j < T → ¬ (c ≤ j ∧ j < c + m) →
    b'.data.get [i, j, k] = b.data.get [i, j, k]

/-- Same for one number per chain and step. -/
structure Recorded2 (b b' : Buffer F) (n T c m : Nat) (cell : Nat → Nat → Option F) : Prop where
  same : b'.name = b.name ∧ b'.cursor = b.cursor ∧ b'.cursorDim = b.cursorDim ∧ b'.data.shape = b.data.shape
  inside : ∀ i j v, i < n → j < m → cell i j = some v → b'.data.get [i, c + j] = v
  outside : ∀ i j, i < n → j < T → ¬ (c ≤ j ∧ j < c + m) → b'.data.get [i, j] = b.data.get [i, j]

/-- Entry `j` of chain `i` in a list of per-chain lists. -/
def cellOf {α : Type} (rows : List (List α)) (i j : Nat) : Option α := (rows[i]?).bind (·[j]?)

/-- The whole effect of a successful step call that starts writing at `c` and records the rows `rec`. -/
structure StepEffect [BufNum F] (s : TakeSteps) (h h' : Heap F D d M O) (n T : Nat) (P L A : String) (bP bL bA : Buffer F)
    (rec : List (List (StepOut F d))) : Prop where
  pos : ∃ b', h'.res P = some (.buffer b') ∧
    Recorded3 bP b' n T (h.pos s.ident) (ceilDiv' s.nSteps s.thinning) (fun i j => (cellOf rec i j).map (·.pos))
  logp : ∃ b', h'.res L = some (.buffer b') ∧
    Recorded2 bL b' n T (h.pos s.ident) (ceilDiv' s.nSteps s.thinning) (fun i j => (cellOf rec i j).map (·.logp))
  acc : ∃ b', h'.res A = some (.buffer b') ∧
    Recorded2 bA b' n T (h.pos s.ident) (ceilDiv' s.nSteps s.thinning) (fun i j => (cellOf rec i j).map (fun o => BufNum.ofBool o.acc))
  frame : ∀ name, name ≠ P → name ≠ L → name ≠ A → h'.res name = h.res name
  cursor : h'.pos s.ident = h.pos s.ident + s.nSteps / s.thinning
  cursors : ∀ id, id ≠ s.ident → h'.pos id = h.pos id

end FlowMC.Spec
