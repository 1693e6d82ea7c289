import Verif.Jax.NDArr
/-
Specification vocabulary for buffers: blocks along an axis, their concatenation, append-only logs.
-/
namespace FlowMC.Spec

/-- `u` is a block of length `m` along axis `dim` of an array of shape `shape` (same shape on all other axes). -/
def IsBlock {α : Type} (shape : List Nat) (dim m : Nat) (u : NDArr α) : Prop := u.shape = shape.set dim m

/-- The cell of the concatenation of `blocks` (with their lengths) along `dim`, or `none` if the index is past
the end. -/
def concatGet {α : Type} (dim : Nat) : List (Nat × NDArr α) → List Nat → Option α
  | [], _ => none
  | (m, u) :: rest, idx =>
    if idx.getD dim 0 < m then some (u.get idx)
    else concatGet dim rest (idx.set dim (idx.getD dim 0 - m))

/-- Total length of a list of blocks. -/
def totalLen {α : Type} (blocks : List (Nat × NDArr α)) : Nat := (blocks.map (·.1)).sum

end FlowMC.Spec
