import Mathlib.Data.Set.Basic
import Mathlib.Data.Real.Basic
import Verif.Model.Sampler
/-
Vocabulary for C110: two sets of resources that are the same except that the second one expresses the parameters in other units, with another origin.
-/
namespace FlowMC.Spec

variable {D M O : Type} {d : ℕ}

/-- A point in new units: every coordinate multiplied by `s`, with the origin moved by `o`. -/
def newUnits (s : ℝ) (o : Fin d → ℝ) (x : Fin d → ℝ) : Fin d → ℝ := fun i => s * x i + o i

/-- `t'` is the log-density `t` as a function of the parameters in new units (the gradient is then divided by `s`). -/
def InUnits (s : ℝ) (o : Fin d → ℝ) (t t' : Target ℝ D d) : Prop :=
  (∀ x data, t'.val (newUnits s o x) data = t.val x data) ∧ ∀ x data i, t'.grad (newUnits s o x) data i = t.grad x data i / s

/-- A recorded step in new units. -/
def stepIn (s : ℝ) (o : Fin d → ℝ) (r : StepOut ℝ d) : StepOut ℝ d := { r with pos := newUnits s o r.pos }

/-- `m'` is the flow `m` in new units: it samples the same points, and its log-density is the same up to a constant (the log of the volume factor). -/
def FlowInUnits (ops : FlowOps ℝ d M O) (s : ℝ) (o : Fin d → ℝ) (m m' : M) : Prop :=
  (∀ k n, ops.sample m' k n = (ops.sample m k n).map (newUnits s o)) ∧ ∃ a, ∀ x, ops.logProb m' (newUnits s o x) = ops.logProb m x + a

/-- The kernel for new units: the step size multiplied by `s`, everything else the same; for flow proposals, the flow in new units. -/
def KernelInUnits (ops : FlowOps ℝ d M O) (s : ℝ) (o : Fin d → ℝ) : KernelRes ℝ d M → KernelRes ℝ d M → Prop
  | .grw e, .grw e' => e' = s * e
  | .mala e, .mala e' => e' = s * e
  | .hmc e n metric L, .hmc e' n' metric' L' => e' = s * e ∧ n' = n ∧ metric' = metric ∧ L' = L
  | .nf m b, .nf m' b' => b' = b ∧ FlowInUnits ops s o m m'
  | _, _ => False

variable [BufNum ℝ]

/-- The second array of positions is the first in new units, except for entries never written (`-inf`, which stays `-inf` in any units). -/
def ArrIn (s : ℝ) (o : Fin d → ℝ) (a a' : NDArr ℝ) : Prop :=
  a'.shape = a.shape ∧ ∀ idx, (∃ (i j : ℕ) (q : Fin d), idx = [i, j, q.val] ∧ a'.get idx = s * a.get idx + o q) ∨ (a.get idx = BufNum.negInf ∧ a'.get idx = BufNum.negInf)

/-- Two buffers of positions, the second in new units (written along the axis of chains or of steps, not of coordinates). -/
def BufIn (s : ℝ) (o : Fin d → ℝ) (b b' : Buffer ℝ) : Prop :=
  b.cursorDim < 2 ∧ b'.name = b.name ∧ b'.cursor = b.cursor ∧ b'.cursorDim = b.cursorDim ∧ ArrIn s o b.data b'.data

/-- Two resources, the second in new units; `pp` says whether a buffer holds positions.  Other buffers and states are the same
(optimisers, which only training uses, are not compared). -/
def ResIn (ops : FlowOps ℝ d M O) (s : ℝ) (o : Fin d → ℝ) (pp : Prop) : Option (Resource ℝ D d M O) → Option (Resource ℝ D d M O) → Prop
  | some (.logpdf l), some (.logpdf l') => InUnits s o l.logPdf l'.logPdf ∧ l'.variables = l.variables
  | some (.tempered l), some (.tempered l') => InUnits s o l.base.logPdf l'.base.logPdf ∧ l'.base.variables = l.base.variables ∧ InUnits s o l.logPrior l'.logPrior
  | some (.kernel q), some (.kernel q') => KernelInUnits ops s o q q'
  | some (.model m), some (.model m') => FlowInUnits ops s o m m'
  | some (.buffer b), some (.buffer b') => (pp → BufIn s o b b') ∧ (¬ pp → b' = b)
  | some (.optimizer _), some (.optimizer _) => True
  | some (.logpdf _), _ => False
  | some (.tempered _), _ => False
  | some (.kernel _), _ => False
  | some (.model _), _ => False
  | some (.optimizer _), _ => False
  | r, r' => r' = r

/-- Two resource dictionaries, the second in new units.  `PP` are the names of the buffers in which positions are recorded, `PK` the entries of the state resources that point at such buffers. -/
structure ResourcesIn (ops : FlowOps ℝ d M O) (s : ℝ) (o : Fin d → ℝ) (PP PK : Set String) (h h' : Heap ℝ D d M O) : Prop where
  cursors : ∀ i, h'.pos i = h.pos i
  res : ∀ n, ResIn ops s o (n ∈ PP) (h.res n) (h'.res n)
  states : ∀ n st, h.res n = some (.state st) → ∀ key m, st.data key = some (.str m) → (m ∈ PP ↔ key ∈ PK)

/-- The same exception, or the same key and the positions in new units; and resources in new units. -/
def OutcomeIn (ops : FlowOps ℝ d M O) (s : ℝ) (o : Fin d → ℝ) (PP PK : Set String) (r r' : PyRes ℝ D d M O (Key × List (Fin d → ℝ))) : Prop :=
  r'.1 = r.1.map (fun p => (p.1, p.2.map (newUnits s o))) ∧ ResourcesIn ops s o PP PK r.2 r'.2

/-- A step strategy whose first buffer entry (and no other) is one of the entries that point at buffers of positions. -/
def RecordsPositions (st : TakeSteps) (PK : Set String) : Prop := ∀ i name, st.bufferNames[i]? = some name → (name ∈ PK ↔ i = 0)

/-- Initial positions in new units. -/
def initIn (s : ℝ) (o : Fin d → ℝ) : InitPos ℝ d → InitPos ℝ d
  | .vec x => .vec (newUnits s o x)
  | .mat xs => .mat (xs.map (newUnits s o))

/-- The buffers in which the bundles record positions. -/
def positionBuffers : Set String := {"positions_training", "positions_production"}

/-- The entry of the bundles' state that points at the buffer of positions in use. -/
def positionEntries : Set String := {"target_positions"}

end FlowMC.Spec
