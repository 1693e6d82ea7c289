import Verif.Model.Coupling
/-
Model of /repo/src/flowMC/resource/model/common.py:296-317, the distribution `Composable`.
-/
namespace FlowMC

noncomputable section

/-- Bound `i` of a Python slice of an array of length `n`: negative bounds count from the end, bounds past the end are cut. -/
def pyBound (n : Nat) (i : Int) : Nat := if i < 0 then ((n : Int) + i).toNat else min i.toNat n

/-- `x[lo:hi]` for a one-dimensional array. -/
def pySlice {d : Nat} (x : Pos ℝ d) (lo hi : Int) : List ℝ := ((List.ofFn x).take (pyBound d hi)).drop (pyBound d lo)

/-- common.py:296-303: a list of distributions (each with its dimension) and an ordered dictionary from names to ranges. -/
structure Composable where
  dists : List (Σ m, BaseDist m)
  parts : List (String × Int × Int)

/-- `dist.log_prob(slice)` at common.py:308.  Simplification: a slice whose length is not the dimension of the distribution raises (jax would broadcast a slice of length one). -/
def logProbSlice (b : Σ m, BaseDist m) (l : List ℝ) : Except Err ℝ :=
  if h : l.length = b.1 then .ok (b.2.logProb (fun i => l[i.1]'(by omega))) else .error .typeError

/-- The loop of common.py:307-308. -/
def Composable.logProbLoop {d : Nat} (x : Pos ℝ d) : List ((Σ m, BaseDist m) × String × Int × Int) → ℝ → Except Err ℝ
  | [], acc => .ok acc
  | (b, _, lo, hi) :: rest, acc => do
    let v ← logProbSlice b (pySlice x lo hi)
    Composable.logProbLoop x rest (acc + v)

/-- common.py:305-309 `Composable.log_prob`. -/
def Composable.logProb (c : Composable) {d : Nat} (x : Pos ℝ d) : Except Err ℝ := Composable.logProbLoop x (c.dists.zip c.parts) 0

/-- The loop of common.py:314-316: split the key, draw with the second half, go on with the first. -/
def Composable.sampleLoop (rng : Rng ℝ) (n : Nat) : List ((Σ m, BaseDist m) × String × Int × Int) → Key → List (String × Σ m, List (Pos ℝ m))
  | [], _ => []
  | (b, name, _, _) :: rest, k =>
    let ks := split k
    (name, ⟨b.1, b.2.sample rng ks.2 n⟩) :: Composable.sampleLoop rng n rest ks.1

/-- common.py:311-317 `Composable.sample`: a dictionary (here: its items in order; the names are distinct since `partitions` is a dictionary). -/
def Composable.sample (c : Composable) (rng : Rng ℝ) (k : Key) (n : Nat) : List (String × Σ m, List (Pos ℝ m)) := Composable.sampleLoop rng n (c.dists.zip c.parts) k

end
end FlowMC
