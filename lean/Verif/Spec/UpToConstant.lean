import Mathlib.Data.Set.Basic
import Mathlib.Data.Real.Basic
import Verif.Model.Sampler
/-
Vocabulary for C105: two sets of resources that are the same except that every log-density of the second one is that of the first plus a constant.
-/
namespace FlowMC.Spec

variable {D M O : Type} {d : ℕ}

/-- The second log-density is the first plus the constant `c` (so the gradients are the same). -/
def PlusConst (c : ℝ) (t t' : Target ℝ D d) : Prop :=
  (∀ x data, t'.val x data = t.val x data + c) ∧ ∀ x data, t'.grad x data = t.grad x data

/-- A recorded step with `c` added to the recorded log-density. -/
def logpPlus (c : ℝ) (o : StepOut ℝ d) : StepOut ℝ d := { o with logp := o.logp + c }

variable [BufNum ℝ]

/-- The second array is the first with `c` added to every entry that is not the initial fill (`-inf`, which in floating point absorbs the constant). -/
def ArrPlus (c : ℝ) (a a' : NDArr ℝ) : Prop :=
  a'.shape = a.shape ∧ ∀ idx, a'.get idx = a.get idx + c ∨ (a.get idx = BufNum.negInf ∧ a'.get idx = BufNum.negInf)

/-- Two buffers of log-densities that differ by `c` in everything recorded so far. -/
def BufPlus (c : ℝ) (b b' : Buffer ℝ) : Prop :=
  b'.name = b.name ∧ b'.cursor = b.cursor ∧ b'.cursorDim = b.cursorDim ∧ ArrPlus c b.data b'.data

/-- Two resources: log-densities differ by `c` (in a tempered one the likelihoods differ by `c` and the priors by any constant), buffers of log-densities (`lp`) differ by `c`,
everything else is the same. -/
def ResPlus (c : ℝ) (lp : Prop) : Option (Resource ℝ D d M O) → Option (Resource ℝ D d M O) → Prop
  | some (.logpdf l), some (.logpdf l') => PlusConst c l.logPdf l'.logPdf ∧ l'.variables = l.variables
  | some (.tempered l), some (.tempered l') => PlusConst c l.base.logPdf l'.base.logPdf ∧ l'.base.variables = l.base.variables ∧ ∃ a, PlusConst a l.logPrior l'.logPrior
  | some (.logpdf _), _ => False
  | some (.tempered _), _ => False
  | some (.buffer b), some (.buffer b') => (lp → BufPlus c b b') ∧ (¬ lp → b' = b)
  | r, r' => r' = r

/-- Two resource dictionaries that are the same except that the log-densities differ by `c`.  `LP` are the names of the buffers in which log-densities are recorded, `LK` the entries of
the state resources that point at such buffers. -/
structure ResourcesPlus (c : ℝ) (LP LK : Set String) (h h' : Heap ℝ D d M O) : Prop where
  cursors : ∀ i, h'.pos i = h.pos i
  res : ∀ n, ResPlus c (n ∈ LP) (h.res n) (h'.res n)
  states : ∀ n st, h.res n = some (.state st) → ∀ key m, st.data key = some (.str m) → (m ∈ LP ↔ key ∈ LK)

/-- The same result or exception, and resources that differ by `c`. -/
def OutcomePlus {α : Type} (c : ℝ) (LP LK : Set String) (r r' : PyRes ℝ D d M O α) : Prop :=
  r'.1 = r.1 ∧ ResourcesPlus c LP LK r.2 r'.2

end FlowMC.Spec
