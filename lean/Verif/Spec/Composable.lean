import Verif.Model.Composable
import Verif.Spec.FlowLaw
/-
Vocabulary for composed distributions.  Nothing in this file models code of /repo.
-/
namespace FlowMC.Spec

/-- `m` blocks of lengths `n i` starting at `off i` such that every one of `d` coordinates lies in exactly one block: `e ⟨i, j⟩` is coordinate `j` of block `i`. -/
structure Tiling (m d : ℕ) where
  n : Fin m → ℕ
  off : Fin m → ℕ
  e : (Σ i, Fin (n i)) ≃ Fin d
  place : ∀ i j, (e ⟨i, j⟩ : ℕ) = off i + j

variable {m d : ℕ}

/-- Block `i` of a vector. -/
def Tiling.block (t : Tiling m d) (x : Fin d → ℝ) (i : Fin m) : Fin (t.n i) → ℝ := fun j => x (t.e ⟨i, j⟩)

/-- The vector with the given blocks. -/
def Tiling.join (t : Tiling m d) (y : ∀ i, Fin (t.n i) → ℝ) : Fin d → ℝ := fun c => y (t.e.symm c).1 (t.e.symm c).2

/-- The composition of one distribution per block, in order, with one range per block. -/
def Tiling.compose (t : Tiling m d) (names : Fin m → String) (B : ∀ i, BaseDist (t.n i)) : Composable :=
  ⟨List.ofFn fun i => ⟨t.n i, B i⟩, List.ofFn fun i => (names i, (t.off i : ℤ), (t.off i + t.n i : ℤ))⟩

/-- Coordinate `a` of `d` lies in the Python range `lo:hi`; a negative bound counts from the end. -/
def InRange (d : ℕ) (lo hi : ℤ) (a : Fin d) : Prop := (if lo < 0 then lo + d else lo) ≤ a ∧ (a : ℤ) < (if hi < 0 then hi + d else hi)

open Classical in
/-- The entries of a vector in the range `lo:hi`, in order. -/
noncomputable def entries (x : Fin d → ℝ) (lo hi : ℤ) : List ℝ := ((List.finRange d).filter fun a => decide (InRange d lo hi a)).map x

/-- Row `a` of the entry `name` of a dictionary of samples, as a vector of length `m`. -/
def sampleRow (s : List (String × Σ m, List (Pos ℝ m))) (name : String) (m a : ℕ) : Fin m → ℝ :=
  match s.find? (fun p => p.1 == name) with
  | some (_, ⟨m', rows⟩) => if h : m' = m then h ▸ rows.getD a 0 else 0
  | none => 0

end FlowMC.Spec
