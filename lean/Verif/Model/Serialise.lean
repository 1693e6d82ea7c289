import Verif.Jax.Core
/-
Model of `save_model` / `load_model` (= `save_resource` / `load_resource`) of flows and flow-matching models:
/repo/src/flowMC/resource/model/nf_model/base.py:92-96, 244-245 and /repo/src/flowMC/resource/model/flowmatching/base.py:186-190, 322-323;
and of `to_precision` (nf_model/base.py:209-240).
-/
namespace FlowMC

/-- Python scalars `eqx.tree_serialise_leaves` stores. -/
inductive PyKind
  | bool | int | float
  deriving DecidableEq, Repr

/-- One leaf of a module seen as a pytree: an array, a Python number, or anything else (functions, strings, `None`, static fields and the tree structure itself).
`A` is the type of contents; a Python number has the content of a 0-dimensional array. -/
inductive Leaf (A : Type)
  | arr (dtype : String) (shape : List Nat) (val : A)
  | num (kind : PyKind) (val : A)
  | other (what : String)

/-- A module: its leaves in the order of `jax.tree_util.tree_flatten`. -/
abbrev Module' (A : Type) := List (Leaf A)

/-- One `.npy` record of a file. -/
structure NpyRec (A : Type) where
  dtype : String
  shape : List Nat
  val : A

/-- `.eqx` files. -/
abbrev EqxFiles (A : Type) := String → Option (List (NpyRec A))

/-- The dtype `np.save` gives a Python number. -/
def PyKind.dtype : PyKind → String
  | .bool => "bool"
  | .int => "int64"
  | .float => "float64"

/-- The Python type of `np.load(f).item()`. -/
def PyKind.ofDtype (s : String) : PyKind := if s = "bool" then .bool else if s = "float64" ∨ s = "float32" ∨ s = "float16" then .float else .int

variable {A : Type}

/-- `equinox.default_serialise_filter_spec`: arrays and numbers are appended to the file, everything else is skipped. -/
def Leaf.record : Leaf A → Option (NpyRec A)
  | .arr dt sh v => some ⟨dt, sh, v⟩
  | .num k v => some ⟨k.dtype, [], v⟩
  | .other _ => none

/-- nf_model/base.py:92-93, flowmatching/base.py:186-187: `save_model(path)`. -/
def saveModel (fs : EqxFiles A) (path : String) (m : Module' A) : EqxFiles A :=
  fun q => if q = path ++ ".eqx" then some (m.filterMap Leaf.record) else fs q

/-- `equinox.default_deserialise_filter_spec` on a leaf that is stored: an array is read as it is, a number through `.item()`, which raises unless the stored array has exactly one
element. -/
def Leaf.read : Leaf A → NpyRec A → Except Err (Leaf A)
  | .arr _ _ _, r => .ok (.arr r.dtype r.shape r.val)
  | .num _ _, r => if r.shape.prod = 1 then .ok (.num (PyKind.ofDtype r.dtype) r.val) else .error .valueError
  | .other w, _ => .ok (.other w)

/-- The reading pass: every array or number leaf of the receiver takes the next record; a file that is too short raises (`EOFError`, here `valueError`); leaves of other
kinds are those of the receiver. -/
def readLeaves : Module' A → List (NpyRec A) → Except Err (Module' A)
  | [], _ => .ok []
  | .other w :: ls, rs => (readLeaves ls rs).map (.other w :: ·)
  | _ :: _, [] => .error .valueError
  | l :: ls, r :: rs => do
    let x ← l.read r
    let xs ← readLeaves ls rs
    .ok (x :: xs)

/-- The check `eqx.tree_deserialise_leaves` does on every leaf: same Python type, for arrays also same shape and dtype. -/
def Leaf.sameKind : Leaf A → Leaf A → Bool
  | .arr dt sh _, .arr dt' sh' _ => dt = dt' ∧ sh = sh'
  | .num k _, .num k' _ => k = k'
  | .other w, .other w' => w = w'
  | _, _ => false

/-- nf_model/base.py:95-96, flowmatching/base.py:189-190: `load_model(path)` called on `self`: read all leaves, then check them all (`RuntimeError`, here `typeError`).  A missing
file raises.  Not modelled: the conversion of 64 bit records to 32 bits when they are loaded in a process with another precision setting. -/
def loadModel (fs : EqxFiles A) (path : String) (self : Module' A) : Except Err (Module' A) :=
  match fs (path ++ ".eqx") with
  | none => .error .valueError
  | some rs =>
    match readLeaves self rs with
    | .error e => .error e
    | .ok m => if (self.zip m).all (fun p => p.1.sameKind p.2) then .ok m else .error .typeError

/-- nf_model/base.py:222-227: the names `to_precision` knows. -/
def precisionNames : List String := ["float16", "bfloat16", "float32", "float64"]

/-- `x.astype(precision)` on one leaf after `eqx.partition(self, eqx.is_array)` / `eqx.combine` (nf_model/base.py:236-240): every array, whatever its dtype, is converted; leaves that are
not arrays (Python numbers included) are kept.  `conv dt dt' v` is the conversion of contents from dtype `dt` to `dt'`. -/
def Leaf.astype (conv : String → String → A → A) (p : String) : Leaf A → Leaf A
  | .arr dt sh v => .arr p sh (conv dt p v)
  | .num k v => .num k v
  | .other w => .other w

/-- nf_model/base.py:209-240 `to_precision(precision)`; the name is lower-cased first (`str.lower`; characters outside ASCII never lower to a known name, so ASCII lower-casing is
enough).  Not modelled: with 64 bit arithmetic disabled, JAX converts to `float32` when asked for `float64`. -/
def toPrecision (conv : String → String → A → A) (m : Module' A) (precision : String) : Except Err (Module' A) :=
  if precision.toLower ∈ precisionNames then .ok (m.map (Leaf.astype conv precision.toLower)) else .error .valueError

end FlowMC
