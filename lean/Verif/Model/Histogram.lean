import Verif.Model.Resource
import Verif.Jax.Ieee
import Mathlib.Algebra.Order.Floor.Semiring
/-
Model of `Buffer.get_distribution`, /repo/src/flowMC/resource/buffers.py:49-50, over the reals extended by infinities and NaN (`XR`).
-/
namespace FlowMC

/-- All multi-indices of a shape, the last one varying fastest (C order), as `self.data.flatten()` of buffers.py:50 reads them. -/
def allIndices : List Nat → List (List Nat)
  | [] => [[]]
  | n :: ns => (List.range n).flatMap fun i => (allIndices ns).map (i :: ·)

/-- `data.flatten()`, buffers.py:50. -/
def NDArr.flatten {α : Type} (a : NDArr α) : List α := (allIndices a.shape).map a.get

noncomputable section
open Classical

/-- `np.isfinite`. -/
def XR.finite? : XR → Option ℝ
  | .fin v => some v
  | _ => none

/-- The automatic range of `np.histogram`: `(0, 1)` for no data, otherwise minimum and maximum, widened by one half on both sides if they are equal. -/
def histRange : List ℝ → ℝ × ℝ
  | [] => (0, 1)
  | x :: xs =>
    let lo := xs.foldl min x
    let hi := xs.foldl max x
    if lo = hi then (lo - 1 / 2, hi + 1 / 2) else (lo, hi)

/-- `np.linspace(lo, hi, n + 1)[i]`. -/
def histEdge (r : ℝ × ℝ) (n i : ℕ) : ℝ := r.1 + i * ((r.2 - r.1) / n)

/-- The bin `np.histogram` assigns to a value: the truncated scaled offset, the right-most edge moved into the last bin, and the two corrections of one bin for values on
the other side of an edge. -/
def histIndex (r : ℝ × ℝ) (n : ℕ) (v : ℝ) : ℕ :=
  let k := ⌊(v - r.1) / (r.2 - r.1) * n⌋₊
  let k := if k = n then k - 1 else k
  let k := if v < histEdge r n k then k - 1 else k
  if histEdge r n (k + 1) ≤ v ∧ k ≠ n - 1 then k + 1 else k

/-- `np.histogram(xs, bins=n)` for an integer `n`: counts and edges.  Fewer than one bin, or a minimum or maximum that is not finite (that is: any value that is not
finite), raise `ValueError`.  Exact arithmetic: the rounding of edges, and the error numpy raises when the range is too small for that many floating point edges, are not
modelled. -/
def histogram (xs : List XR) (n : Int) : Except Err (List ℕ × List ℝ) :=
  if n < 1 then .error .valueError
  else match xs.mapM XR.finite? with
    | none => .error .valueError
    | some vs =>
      let r := histRange vs
      let is := vs.map (histIndex r n.toNat)
      .ok ((List.range n.toNat).map fun j => is.count j, (List.range (n.toNat + 1)).map (histEdge r n.toNat))

/-- buffers.py:49-50: `get_distribution(n_bins)`. -/
def Buffer.getDistribution (b : Buffer XR) (nBins : Int := 100) : Except Err (List ℕ × List ℝ) := histogram b.data.flatten nBins

end
end FlowMC
