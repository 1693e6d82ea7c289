import Verif.Model.Serialise
/-
Vocabulary for saved modules.  Nothing in this file models code of /repo.
-/
namespace FlowMC.Spec
variable {A : Type}

/-- The architecture of a leaf: dtype and shape of an array, type of a number; what is neither is architecture altogether. -/
inductive Slot
  | arr (dtype : String) (shape : List Nat) | num (kind : PyKind) | other (what : String)
  deriving DecidableEq

def slot : Leaf A → Slot
  | .arr dt sh _ => .arr dt sh
  | .num k _ => .num k
  | .other w => .other w

/-- The architecture of a module. -/
def architecture (m : Module' A) : List Slot := m.map slot

/-- The contents of a module: array values and numbers, in order. -/
def contents (m : Module' A) : List A := m.filterMap fun l => match l with
  | .arr _ _ v => some v
  | .num _ v => some v
  | .other _ => none

/-- The slots that take part in a file. -/
def stored (m : Module' A) : List Slot := (architecture m).filter fun s => match s with
  | .other _ => false
  | _ => true

/-- A record of a file can fill a slot: same dtype and shape for an array; for a Python number a single element of that type. -/
def Fits : Slot → NpyRec A → Prop
  | .arr dt sh, r => r.dtype = dt ∧ r.shape = sh
  | .num .float, r => r.shape.prod = 1 ∧ r.dtype ∈ ["float64", "float32", "float16"]
  | .num .bool, r => r.shape.prod = 1 ∧ r.dtype = "bool"
  | .num .int, r => r.shape.prod = 1 ∧ r.dtype ∉ ["bool", "float64", "float32", "float16"]
  | .other _, _ => False

end FlowMC.Spec
