import Verif.Model.Sampler
import Mathlib.Logic.Function.Basic
/-
Several `Sampler` objects in one python process: which mutable objects they share.
-/
namespace FlowMC

variable {F D : Type} {d : Nat} {M O : Type}

/-- Identity of a python object (`id(obj)`). -/
abbrev Ref := Nat

/-- The mutable objects of the process: resource dictionaries (with the buffers, states and models inside) and dictionaries of strategies (with the
`current_position` of each stepper).  Two different dictionaries are taken to share no mutable object inside them. -/
structure Store (F D : Type) (d : Nat) (M O : Type) where
  resources : Ref → String → Option (Resource F D d M O)
  cursors : Ref → String → Nat

/-- Sampler.py:26-37, 49-76: a `Sampler` object holds *references* to the dictionaries it was given (no copy is made); the other attributes are its own. -/
structure SamplerObj (F D : Type) (d : Nat) (M O : Type) (V : Type) where
  nDim : Nat
  nChains : Nat
  rngKey : Key
  resourcesRef : Ref
  strategiesRef : Ref
  strategies : String → Option (Strategy F D d M O)
  strategyOrder : Option (List String)
  attrs : String → Option V

/-- What the user sees through the object now: `sampler.resources` etc. (Sampler.py:26-37). -/
def SamplerObj.view {V : Type} (σ : Store F D d M O) (s : SamplerObj F D d M O V) : Sampler F D d M O V :=
  { nDim := s.nDim, nChains := s.nChains, rngKey := s.rngKey, heap := ⟨σ.resources s.resourcesRef, σ.cursors s.strategiesRef⟩
    strategies := s.strategies, strategyOrder := s.strategyOrder, attrs := s.attrs }

/-- Sampler.py:65-76 for a bundle object whose `resources` and `strategies` attributes are the dictionaries `rRef`, `sRef`. -/
def SamplerObj.ofBundle {V : Type} (nDim nChains : Nat) (rngKey : Key) (b : Bundle F D d M O) (rRef sRef : Ref) (kwargs : List (String × V)) :
    SamplerObj F D d M O V :=
  { nDim, nChains, rngKey, resourcesRef := rRef, strategiesRef := sRef, strategies := b.strategies.lookup, strategyOrder := some b.strategyOrder
    attrs := setAttrs kwargs (fun _ => none) }

/-- The store right after a bundle was constructed (RQSpline_MALA.py:114-322 `self.resources = {...}`, `self.strategies = {...}`). -/
def Store.alloc (σ : Store F D d M O) (b : Bundle F D d M O) (rRef sRef : Ref) : Store F D d M O :=
  { resources := Function.update σ.resources rRef b.resources, cursors := Function.update σ.cursors sRef b.strategies.cursors }

section
variable [Zero F] [One F] [Add F] [Mul F] [Div F] [Sub F] [Neg F] [NatCast F] [Transc F] [FCmp F] [BufNum F]

/-- Sampler.py:86-108: every strategy mutates the dictionary it is handed and returns it (take_steps.py, train_model.py:106-110, update_state.py,
parallel_tempering.py, the bundles' lambdas), so `self.resources` stays the same object; a call of `sample` writes to the two shared dictionaries and nothing else. -/
def SamplerObj.sample {V : Type} (env : Env F D d M O) (σ : Store F D d M O) (s : SamplerObj F D d M O V) (init : InitPos F d) (data : Data D) :
    Except Err Unit × Store F D d M O :=
  let r := (s.view σ).sample env init data
  (r.1, { resources := Function.update σ.resources s.resourcesRef r.2.heap.res, cursors := Function.update σ.cursors s.strategiesRef r.2.heap.pos })

/-- One `sample` call of a program. -/
structure SampleCall (F D : Type) (d : Nat) (M O : Type) (V : Type) where
  obj : SamplerObj F D d M O V
  init : InitPos F d
  data : Data D

/-- A program that calls `sample` on several objects, one after the other, going on after exceptions: the outcomes and the final store. -/
def runCalls {V : Type} (env : Env F D d M O) : Store F D d M O → List (SampleCall F D d M O V) → List (Except Err Unit) × Store F D d M O
  | σ, [] => ([], σ)
  | σ, c :: cs =>
    let r := c.obj.sample env σ c.init c.data
    let rest := runCalls env r.2 cs
    (r.1 :: rest.1, rest.2)

end
end FlowMC
