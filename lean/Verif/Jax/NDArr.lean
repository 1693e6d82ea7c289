import Verif.Jax.Core
/-
n-dimensional arrays and `jax.lax.dynamic_update_slice_in_dim`.
-/
namespace FlowMC

/-- A dense array: a shape and a value for every in-bounds multi-index (values at
out-of-bounds indices are meaningless). -/
structure NDArr (α : Type) where
  shape : List Nat
  get : List Nat → α

/-- `idx` is a valid multi-index of `shape`. -/
def InBounds : List Nat → List Nat → Prop
  | [], [] => True
  | i :: is, n :: ns => i < n ∧ InBounds is ns
  | _, _ => False

instance : (idx shape : List Nat) → Decidable (InBounds idx shape)
  | [], [] => isTrue trivial
  | i :: is, n :: ns =>
    have := instDecidableInBounds is ns
    inferInstanceAs (Decidable (i < n ∧ InBounds is ns))
  | [], _ :: _ => isFalse (fun h => h)
  | _ :: _, [] => isFalse (fun h => h)

/-- Same shape and same in-bounds values. -/
def NDArr.Same {α : Type} (a b : NDArr α) : Prop :=
  a.shape = b.shape ∧ ∀ idx, InBounds idx a.shape → a.get idx = b.get idx

/-- Pointwise `update.shape ≤ operand.shape` with equal rank. -/
def ShapeLE : List Nat → List Nat → Prop
  | [], [] => True
  | m :: ms, n :: ns => m ≤ n ∧ ShapeLE ms ns
  | _, _ => False

instance : (a b : List Nat) → Decidable (ShapeLE a b)
  | [], [] => isTrue trivial
  | m :: ms, n :: ns =>
    have := instDecidableShapeLE ms ns
    inferInstanceAs (Decidable (m ≤ n ∧ ShapeLE ms ns))
  | [], _ :: _ => isFalse (fun h => h)
  | _ :: _, [] => isFalse (fun h => h)

/-- The start actually used by XLA for a (possibly negative) start index: negative starts count
from the end, then the start is clamped so that the update fits. -/
def clampStart (start : Int) (n m : Nat) : Nat :=
  let s : Int := if start < 0 then start + n else start
  (max 0 (min s ((n : Int) - m))).toNat

/-- `jax.lax.dynamic_update_slice_in_dim(operand, update, start, dim)`.  A wrong rank, a too large
update or a bad axis raise; a start that does not fit is clamped. -/
def dynUpdateSliceInDim {α : Type} (op upd : NDArr α) (start : Int) (dim : Nat) :
    Except Err (NDArr α) :=
  if dim < op.shape.length then
    if ShapeLE upd.shape op.shape then
      let s := clampStart start (op.shape.getD dim 0) (upd.shape.getD dim 0)
      .ok { shape := op.shape
            get := fun idx =>
              if s ≤ idx.getD dim 0 ∧ InBounds (idx.set dim (idx.getD dim 0 - s)) upd.shape
              then upd.get (idx.set dim (idx.getD dim 0 - s))
              else op.get idx }
    else .error .typeError
  else .error .valueError

/-- Array of shape `(n, m)` from a list of rows. -/
def arr2 {α : Type} (junk : α) (n m : Nat) (rows : List (List α)) : NDArr α where
  shape := [n, m]
  get idx := match idx with
    | [i, j] => ((rows[i]?).bind (·[j]?)).getD junk
    | _ => junk

/-- Array of shape `(n, m, d)` from lists of rows of vectors. -/
def arr3 {α : Type} (junk : α) (n m : Nat) {d : Nat} (rows : List (List (Fin d → α))) : NDArr α where
  shape := [n, m, d]
  get idx := match idx with
    | [i, j, k] => if h : k < d then (((rows[i]?).bind (·[j]?)).map (fun v => v ⟨k, h⟩)).getD junk else junk
    | _ => junk

/-- Array of shape `(n,)` from a list. -/
def arr1 {α : Type} (junk : α) (xs : List α) : NDArr α where
  shape := [xs.length]
  get idx := match idx with
    | [i] => (xs[i]?).getD junk
    | _ => junk

end FlowMC
