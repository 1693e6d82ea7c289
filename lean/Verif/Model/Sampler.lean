import Verif.Model.Strategies
/-
Model of /repo/src/flowMC/Sampler.py
-/
namespace FlowMC

variable {F D : Type} {d : Nat} {M O : Type}

/-- The `strategies` dictionary together with the mutable cursors of the strategy objects in it. -/
structure StratDict (F D : Type) (d : Nat) (M O : Type) where
  lookup : String → Option (Strategy F D d M O)
  cursors : String → Nat := fun _ => 0

/-- resource_strategy_bundle/base.py:8-17: what a bundle provides. -/
structure Bundle (F D : Type) (d : Nat) (M O : Type) where
  resources : String → Option (Resource F D d M O)
  strategies : StratDict F D d M O
  strategyOrder : List String

/-- Sampler.py:26-37.  `attrs` are the instance attributes set from keyword arguments. -/
structure Sampler (F D : Type) (d : Nat) (M O : Type) (V : Type) where
  nDim : Nat
  nChains : Nat
  rngKey : Key
  heap : Heap F D d M O
  strategies : String → Option (Strategy F D d M O)
  strategyOrder : Option (List String)
  attrs : String → Option V

/-- The keys of `Sampler.__dict__` (Sampler.py:78): class attributes with a value and methods; plain
annotations such as `n_dim: int` (Sampler.py:27-32) are not in `__dict__`. -/
def samplerClassKeys : List String :=
  ["__module__", "__doc__", "__annotations__", "verbose", "logging", "outdir", "__init__", "sample",
   "serialize", "deserialize", "__dict__", "__weakref__"]

/-- Sampler.py:78-82: the loop over the keyword arguments. -/
def setAttrs {V : Type} (kwargs : List (String × V)) (attrs : String → Option V) : String → Option V :=
  kwargs.foldl (fun a kv =>
    if kv.1 ∈ samplerClassKeys then
      if !(kv.1.startsWith "__") then dictSet a kv.1 kv.2 else a
    else a) attrs

/-- Sampler.py:39-82 (constructor). -/
def Sampler.new {V : Type} (nDim nChains : Nat) (rngKey : Key)
    (resources : Option (String → Option (Resource F D d M O)))
    (strategies : Option (StratDict F D d M O))
    (strategyOrder : Option (List String))
    (bundle : Option (Bundle F D d M O))
    (kwargs : List (String × V)) : Except Err (Sampler F D d M O V) :=
  match resources, strategies with
  | some r, some st =>
    .ok { nDim, nChains, rngKey, heap := ⟨r, st.cursors⟩, strategies := st.lookup, strategyOrder
          attrs := setAttrs kwargs (fun _ => none) }
  | _, _ =>
    match bundle with
    | none => .error .valueError
    | some b =>
      .ok { nDim, nChains, rngKey, heap := ⟨b.resources, b.strategies.cursors⟩
            strategies := b.strategies.lookup, strategyOrder := some b.strategyOrder
            attrs := setAttrs kwargs (fun _ => none) }

section
variable [Zero F] [One F] [Add F] [Mul F] [Div F] [Sub F] [Neg F] [NatCast F] [Transc F] [FCmp F]
  [BufNum F]

/-- Sampler.py:96-108: the loop over `strategy_order`. -/
def runOrder (env : Env F D d M O) (strats : String → Option (Strategy F D d M O)) :
    List String → Key → List (Pos F d) → Data D → Heap F D d M O → PyRes F D d M O (Key × List (Pos F d))
  | [], k, xs, _, h => (.ok (k, xs), h)
  | name :: names, k, xs, data, h =>
    match strats name with
    | none => (.error .valueError, h)
    | some s =>
      match s.run env k xs data h with
      | (.error e, h) => (.error e, h)
      | (.ok (k, xs), h) => runOrder env strats names k xs data h

/-- The argument of `sample`: a single position (1-d array) or one per chain (2-d). -/
inductive InitPos (F : Type) (d : Nat)
  | vec (x : Pos F d)
  | mat (xs : List (Pos F d))

/-- Sampler.py:92: `jnp.atleast_2d`. -/
def InitPos.atleast2d : InitPos F d → List (Pos F d)
  | .vec x => [x]
  | .mat xs => xs

/-- Sampler.py:84-108 `sample`.  Returns `None` or raises; its effect is on the resources.
`self.rng_key` is read but never written. -/
def Sampler.sample {V : Type} (env : Env F D d M O) (s : Sampler F D d M O V) (init : InitPos F d) (data : Data D) :
    Except Err Unit × Sampler F D d M O V :=
  match s.strategyOrder with
  | none => (.error .assertionError, s)
  | some order =>
    match runOrder env s.strategies order s.rngKey init.atleast2d data s.heap with
    | (.error e, h) => (.error e, { s with heap := h })
    | (.ok _, h) => (.ok (), { s with heap := h })

end
end FlowMC
