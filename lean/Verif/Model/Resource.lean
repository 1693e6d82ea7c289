import Verif.Jax.NDArr
/-
Model of /repo/src/flowMC/resource/{buffers,states,logPDF}.py
-/
namespace FlowMC

/-! ### Files (numpy `.npz` archives) -/

/-- Values of a `State` dictionary (states.py:21, `int | bool | str`). -/
inductive SVal
  | int (i : Int) | bool (b : Bool) | str (s : String)
  deriving DecidableEq, Repr

/-- One entry of a numpy archive: a numeric array, a string, or a pickled python object
(here: a dictionary, what `np.savez(data=self.data)` stores for a `State`). -/
inductive NpEntry (F : Type)
  | array (a : NDArr F)
  | string (s : String)
  | object (o : String → Option SVal)

/-- An archive written by `np.savez(path, name=…, data=…)`. -/
structure Npz (F : Type) where
  name : NpEntry F
  data : NpEntry F

/-- The file system `np.savez` and `np.load` work on (buffers.py:52-64, states.py:53-66): what is stored under each path. -/
abbrev Files (F : Type) := String → Option (Npz F)

/-- `np.savez(p, …)` appends `.npz` to `p` unless it is already there. -/
def npzPath (p : String) : String := if ".npz".toList.isSuffixOf p.toList then p else p ++ ".npz"

/-- `np.savez`. -/
def savez {F : Type} (fs : Files F) (p : String) (z : Npz F) : Files F :=
  fun q => if q = npzPath p then some z else fs q

/-- Reading an entry of an archive opened by `np.load(path)`: with the default
`allow_pickle=False` an object entry raises `ValueError`. -/
def readEntry {F : Type} : NpEntry F → Except Err (NpEntry F)
  | .object _ => .error .valueError
  | e => .ok e

/-! ### Buffer (resource/buffers.py) -/

/-- buffers.py:11-15. -/
structure Buffer (F : Type) where
  name : String
  data : NDArr F
  cursor : Nat := 0
  cursorDim : Nat := 0

/-- buffers.py:24-27: `data = zeros(shape) - inf`, cursor 0. -/
def Buffer.new {F : Type} [BufNum F] (name : String) (shape : List Nat) (cursorDim : Nat := 0) :
    Buffer F :=
  { name, data := { shape, get := fun _ => BufNum.negInf }, cursor := 0, cursorDim }

/-- buffers.py:32-41: `update_buffer`. Does not move the cursor. -/
def Buffer.updateBuffer {F : Type} (b : Buffer F) (updates : NDArr F) (start : Int := 0) :
    Except Err (Buffer F) :=
  match dynUpdateSliceInDim b.data updates start b.cursorDim with
  | .ok d => .ok { b with data := d }
  | .error e => .error e

/-- buffers.py:52-57: `save_resource(path)`; only `name` and `data` are stored. -/
def Buffer.save {F : Type} (b : Buffer F) (path : String) (fs : Files F) : Files F :=
  savez fs (path ++ b.name) { name := .string b.name, data := .array b.data }

/-- buffers.py:59-64: `load_resource(path)`: a new `Buffer(data["name"], shape)` (default
`cursor_dim`, cursor 0) whose `data` is replaced by the stored array. A missing file raises. -/
def Buffer.load {F : Type} [BufNum F] (fs : Files F) (path : String) : Except Err (Buffer F) :=
  match fs path with
  | none => .error .valueError
  | some z =>
    match readEntry z.data with
    | .ok (.array a) =>
      match readEntry z.name with
      | .ok (.string n) => .ok { (Buffer.new n a.shape : Buffer F) with data := a }
      | .ok _ => .error .typeError
      | .error e => .error e
    | .ok _ => .error .typeError
    | .error e => .error e

/-! ### State (resource/states.py) -/

/-- states.py:20-21. -/
structure State where
  name : String
  data : String → Option SVal

/-- states.py:26-35 (constructor). -/
def State.new (data : String → Option SVal) (name : String := "State") : State := { name, data }

/-- `d[k] = v` on a python dictionary. -/
def dictSet {β : Type} (d : String → Option β) (k : String) (v : β) : String → Option β :=
  fun k' => if k' = k then some v else d k'

/-- states.py:37-48: `for k, v in zip(key, value): self.data[k] = v`. -/
def State.update (s : State) (key : List String) (value : List SVal) : State :=
  { s with data := (key.zip value).foldl (fun d kv => dictSet d kv.1 kv.2) s.data }

/-- states.py:53-58: the dictionary is stored as a pickled object. -/
def State.save {F : Type} (s : State) (path : String) (fs : Files F) : Files F :=
  savez fs (path ++ s.name) { name := .string s.name, data := .object s.data }

/-- The value python builds at states.py:62: `State(data["name"], data["data"])`.  The first
constructor argument is the dictionary and the second the name, so the two are swapped; python does
not check types.  `LoadedState` is that (possibly ill-typed) object. -/
structure LoadedState (F : Type) where
  data : NpEntry F
  name : NpEntry F

/-- states.py:60-63: `load_resource(path)`. -/
def State.load {F : Type} (fs : Files F) (path : String) : Except Err (LoadedState F) :=
  match fs path with
  | none => .error .valueError
  | some z =>
    match readEntry z.name with
    | .error e => .error e
    | .ok n =>
      match readEntry z.data with
      | .error e => .error e
      | .ok d => .ok { data := n, name := d }

/-! ### LogPDF / TemperedPDF (resource/logPDF.py) -/

/-- The `data` dictionary passed to log-densities.  The key `"n_steps"`, which
take_steps.py:204 adds, is kept apart from the user's part. -/
structure Data (D : Type) where
  user : D
  nSteps : Option Nat := none

/-- Positions of one chain: an array of shape `(n_dims,)` (kernel/base.py). -/
abbrev Pos (F : Type) (d : Nat) := Fin d → F

/-- A callable log-density with the gradient that `jax.grad` returns for it (an arbitrary
function here; autodiff is not modelled). -/
structure Target (F D : Type) (d : Nat) where
  val : Pos F d → Data D → F
  grad : Pos F d → Data D → Pos F d

/-- logPDF.py:8-17. -/
structure Variable where
  name : String
  continuous : Bool
  deriving DecidableEq, Repr

/-- logPDF.py:30-31. -/
structure LogPDF (F D : Type) (d : Nat) where
  logPdf : Target F D d
  variables : List Variable

/-- logPDF.py:33-35. -/
def LogPDF.nDims {F D : Type} {d : Nat} (l : LogPDF F D d) : Nat := l.variables.length

/-- logPDF.py:53-58: the variable list of the constructor. -/
def mkVariables (variables : Option (List Variable)) (nDims : Option Nat) :
    Except Err (List Variable) :=
  match variables, nDims with
  | none, some n => .ok ((List.range n).map (fun i => ⟨"x_" ++ toString i, true⟩))
  | some vs, _ => .ok vs
  | none, none => .error .valueError

/-- logPDF.py:40-58. -/
def LogPDF.new {F D : Type} {d : Nat} (f : Target F D d)
    (variables : Option (List Variable) := none) (nDims : Option Nat := none) :
    Except Err (LogPDF F D d) :=
  match mkVariables variables nDims with
  | .ok vs => .ok ⟨f, vs⟩
  | .error e => .error e

/-- logPDF.py:60-61: `__call__`. -/
def LogPDF.call {F D : Type} {d : Nat} (l : LogPDF F D d) (x : Pos F d) (data : Data D) : F :=
  l.logPdf.val x data

/-- logPDF.py:74-77: `tree_flatten` (no children, aux data `(log_pdf, variables)`). -/
def LogPDF.flatten {F D : Type} {d : Nat} (l : LogPDF F D d) : Target F D d × List Variable :=
  (l.logPdf, l.variables)

/-- logPDF.py:79-81: `tree_unflatten`, i.e. `cls(aux[0], aux[1])`. -/
def LogPDF.unflatten {F D : Type} {d : Nat} (aux : Target F D d × List Variable) :
    Except Err (LogPDF F D d) :=
  LogPDF.new aux.1 (some aux.2) none

/-- logPDF.py:84-87. -/
structure TemperedPDF (F D : Type) (d : Nat) where
  base : LogPDF F D d
  logPrior : Target F D d

/-- logPDF.py:89-99 (`n_temps`, `max_temp` are ignored by the code). -/
def TemperedPDF.new {F D : Type} {d : Nat} (logLikelihood logPrior : Target F D d)
    (variables : Option (List Variable) := none) (nDims : Option Nat := none) :
    Except Err (TemperedPDF F D d) :=
  match LogPDF.new logLikelihood variables nDims with
  | .ok b => .ok ⟨b, logPrior⟩
  | .error e => .error e

/-- logPDF.py:101-102: calling the object evaluates the untempered likelihood. -/
def TemperedPDF.call {F D : Type} {d : Nat} (l : TemperedPDF F D d) (x : Pos F d) (data : Data D) : F :=
  l.base.call x data

/-- logPDF.py:104-106: `(1.0 / T) * base + log_prior`; the gradient is what the linear rules of
autodiff produce from the two gradients. -/
def TemperedPDF.tempered {F D : Type} {d : Nat} [One F] [Div F] [Mul F] [Add F]
    (l : TemperedPDF F D d) (T : F) : Target F D d where
  val x data := (1 / T) * l.base.call x data + l.logPrior.val x data
  grad x data := fun i => (1 / T) * l.base.logPdf.grad x data i + l.logPrior.grad x data i

/-- logPDF.py:108-111. -/
def TemperedPDF.flatten {F D : Type} {d : Nat} (l : TemperedPDF F D d) :
    Target F D d × Target F D d × List Variable :=
  (l.base.logPdf, l.logPrior, l.base.variables)

/-- logPDF.py:113-115: `cls(*aux_data)`. -/
def TemperedPDF.unflatten {F D : Type} {d : Nat} (aux : Target F D d × Target F D d × List Variable) :
    Except Err (TemperedPDF F D d) :=
  TemperedPDF.new aux.1 aux.2.1 (some aux.2.2) none

end FlowMC
