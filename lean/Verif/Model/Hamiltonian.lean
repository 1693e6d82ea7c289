import Verif.Model.Kernels
/-
Model of /repo/src/flowMC/resource/kernel/HMC.py, method `get_initial_hamiltonian` (not called by the library; a user may call it).
-/
namespace FlowMC

variable {F D : Type} {d : Nat}

/-- HMC.py:118-121 `0.5 * (p**2 * metric).sum()` applied to two arrays of shape `(d, d)`, as happens when `get_initial_hamiltonian` passes it its momentum and a matrix. -/
def hmcKineticArr [Zero F] [One F] [Add F] [Mul F] [Div F] (p metric : Mat F d) : F :=
  1 / two * sumFin (fun i => sumFin (fun j => p i j * p i j * metric i j))

/-- HMC.py:65-68 with a condition matrix of shape `(d, d)`: `normal(rng_key, (d,)) * condition_matrix**-0.5`; the power is taken entry by entry (`a**-0.5` is written `1 / sqrt a`) and the draws
are broadcast over the rows, so the "momentum" has shape `(d, d)`. -/
def hmcInitialMomentum [One F] [Mul F] [Div F] [Transc F] (metric : Mat F d) (z : Pos F d) : Mat F d :=
  fun i j => z j * (1 / Transc.sqrt (metric i j))

/-- HMC.py:52-69 `get_initial_hamiltonian` with a condition matrix of shape `(d, d)` and the potential and kinetic energies of `kernel` (HMC.py:115-121). -/
def hmcInitialHamiltonian [Zero F] [One F] [Add F] [Mul F] [Div F] [Neg F] [Transc F] (rng : Rng F) (metric : Mat F d) (t : Target F D d) (k : Key) (x : Pos F d) (data : Data D) : F :=
  -(t.val x data) + hmcKineticArr (hmcInitialMomentum metric (rng.normal k d)) metric

/-- HMC.py:52-69 with a number as condition matrix (the default, `1`): the momentum has shape `(d,)`. -/
def hmcInitialHamiltonianScalar [Zero F] [One F] [Add F] [Mul F] [Div F] [Neg F] [Transc F] (rng : Rng F) (c : F) (t : Target F D d) (k : Key) (x : Pos F d) (data : Data D) : F :=
  let p : Pos F d := fun j => rng.normal k d j * (1 / Transc.sqrt c);
  -(t.val x data) + 1 / two * sumFin (fun j => p j * p j * c)

end FlowMC
