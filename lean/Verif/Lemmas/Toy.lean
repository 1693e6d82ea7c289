import Verif.Model.Bundle
/-
A small computable instance of the number interface (integers with a designated `-inf`), and a toy world on it. Used only in
non-vacuity examples and concrete witnesses.
-/
namespace FlowMC.Toy

instance : Transc Int := ⟨fun x => x + 1, fun x => x - 1, id, id, 3⟩
instance : FCmp Int := ⟨fun a b => decide (a < b)⟩
instance : BufNum Int := ⟨-1000000, fun x => decide (x ≠ -1000000), fun b => if b then 1 else 0⟩

/-- All normals are 1 and all uniforms 0 (with log-uniform `-1`). -/
def rng : Rng Int where
  normal _ _ := fun _ => 1
  uniform _ := 0
  permutation _ n := List.range n
  choice _ _ m := List.replicate m 0

/-- A "flow" whose model is a number; samples are that number, training increments it. -/
def ops : FlowOps Int 1 Int Int where
  sample m _ n := List.replicate n (fun _ => m)
  logProb _ _ := 0
  trainStep m o _ := (5, m + 1, o + 1)
  setStats m _ := m

def env : Env Int Unit 1 Int Int := ⟨rng, ops, 1000000000⟩

/-- log-density `x ↦ x₀`. -/
def target : Target Int Unit 1 := ⟨fun x _ => x 0, fun _ _ _ => 1⟩

def data : Data Unit := ⟨(), none⟩

/-- A heap with one state, three buffers for 2 chains and 6 steps, a random-walk kernel and the density. -/
def heap (T : Nat) : Heap Int Unit 1 Int Int where
  res := fun n => match n with
    | "state" => some (.state (State.new (fun k => match k with
        | "p" => some (.str "P") | "l" => some (.str "L") | "a" => some (.str "A") | _ => none)))
    | "P" => some (.buffer (Buffer.new "P" [2, T, 1] 1))
    | "L" => some (.buffer (Buffer.new "L" [2, T] 1))
    | "A" => some (.buffer (Buffer.new "A" [2, T] 1))
    | "kernel" => some (.kernel (.grw 1))
    | "flow" => some (.kernel (.nf 7 2))
    | "logpdf" => some (.logpdf ⟨target, []⟩)
    | _ => none
  pos := fun _ => 0

def stepper (n t : Nat) : TakeSteps where
  kind := .serial
  ident := "stepper"
  logpdfName := "logpdf"
  kernelName := "kernel"
  stateName := "state"
  bufferNames := ["p", "l", "a"]
  nSteps := n
  thinning := t

def start : List (Pos Int 1) := [fun _ => 0, fun _ => 100]

/-- A complete bundle configuration: two chains, two training and two production loops, thinning 2 on the local steps. -/
def cfg : BundleCfg Int Unit 1 Int Int where
  key := .root 0
  nChains := 2
  logpdf := target
  nLocal := 4
  nGlobal := 2
  nTrainLoops := 2
  nProdLoops := 2
  nEpochs := 1
  stepSize := 1
  localThin := 2
  nfBatch := 3
  batchSize := 4
  mkModel := fun _ => 7
  mkOptim := fun _ => 0

/-- Tempering arguments: three temperatures. -/
def ptCfg : PTCfg Int Unit 1 where
  nTemps := 3
  maxTemp := 3
  nTempered := 2
  logprior := ⟨fun _ _ => 0, fun _ _ _ => 0⟩

def succeeded {α β : Type} (r : Except Err α × β) : Bool := match r.1 with | .ok _ => true | _ => false

end FlowMC.Toy
